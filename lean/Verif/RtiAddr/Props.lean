import Verif.RtiAddr.ParseLemmas

/-! # Property C79: the RTI a federate connects to is the one on its command line -/

namespace Verif.RtiAddr

/-- C79.  The search for a match behind every check is the one POSIX prescribes: no match is reported only when no part
of the text matches, and else the match that begins first and is the longest of those that begin there. -/
theorem C79_the_search_is_leftmost_and_longest (p : Pattern) (s : List Char) :
    (regexec p s = none ↔ ∀ pre w post c, s = pre ++ w ++ post → ¬ p.Match pre w post c) ∧
    ∀ c, regexec p s = some c → ∃ pre w post, LeftmostLongest p s pre w post c :=
  ⟨regexec_none p s, fun _ h => regexec_some h⟩

/-- C79 for addresses written as the manual asks.  Every such address is accepted, and exactly its host, its port and
its user are stored; a part that is not written keeps its earlier value.  Missing for the full property: texts that are
not addresses are not all refused (below), and high ports are stored but not used (below). -/
theorem C79_an_address_is_stored_as_written_partial (m : Meta) (a : Addr) (ha : a.WellFormed) :
    parseRtiAddr m a.text = (.success,
      { host := some a.host
        port := (a.port.map fun p => (atoi p : Int)).getD m.port
        user := a.user.or m.user }) := by
  have := regexec_addr (g := []) (r := []) (wellFormed_lexical ha) (by simp) (stops_nil a)
  simp only [List.nil_append, List.append_nil] at this
  exact parse_of m ha this

/-- C79 for addresses with a port from 1 to 32767: the first connection a federate tries is to that host and port, or
to the host and the port compiled into it when no port was written. -/
theorem C79_the_federate_connects_where_it_is_told_partial (a : Addr) (ha : a.WellFormed) (hostname : List Char)
    (port : Int) (hp : 1 ≤ port ∧ port ≤ 32767)
    (hap : ∀ p, a.port = some p → 1 ≤ atoi p ∧ atoi p ≤ 32767) :
    (parseRtiAddr {} a.text).1 = .success ∧
    connectTo (parseRtiAddr {} a.text).2 hostname port = (a.host, (a.port.map atoi).getD port.toNat) := by
  rw [C79_an_address_is_stored_as_written_partial {} a ha]
  refine ⟨rfl, ?_⟩
  cases h : a.port with
  | none =>
      have e : (if (-1 : Int) ≥ 0 then (-1 : Int) else port) = port := if_neg (by omega)
      simp only [connectTo, Option.map_none, Option.getD_none, Option.getD_some, e]
      rw [if_neg (show ¬ (port < 0 ∨ port > 32767) by omega), if_neg (by omega)]
  | some p =>
      have := hap p h
      have e : (if (atoi p : Int) ≥ 0 then (atoi p : Int) else port) = atoi p := if_pos (by omega)
      simp only [connectTo, Option.map_some, Option.getD_some, e]
      rw [if_neg (show ¬ ((atoi p : Int) < 0 ∨ (atoi p : Int) > 32767) by omega), Int.toNat_natCast,
        if_neg (by omega)]

/-- A test on characters that holds for none beyond the first 128 is known from these. -/
theorem ascii_only {f : Char → Bool} {l : List Char} (h1 : ∀ c, f c = true → c.toNat < 128)
    (h2 : ∀ n < 128, f (Char.ofNat n) = true → Char.ofNat n ∈ l) (h3 : ∀ c ∈ l, f c = true) (c : Char) : f c = true ↔ c ∈ l := by
  refine ⟨fun h => ?_, h3 c⟩
  have := h2 c.toNat (h1 c h) (by rw [Char.ofNat_toNat]; exact h)
  rwa [Char.ofNat_toNat] at this

theorem ascii_bound {c : Char} (h : isHostChar c = true) : c.toNat < 128 := by
  have le : ∀ a : Char, a.toNat < 128 → c ≤ a → c.toNat < 128 := fun a ha hc => Nat.lt_of_le_of_lt hc ha
  simp only [isHostChar, isUserChar, isLow, isUp, isNum, Bool.or_eq_true, Bool.and_eq_true, decide_eq_true_eq, beq_iff_eq] at h
  rcases h with ((((h | h) | h) | h) | h) | h
  · exact le 'z' (by decide) h.2
  · exact le 'Z' (by decide) h.2
  · exact le '9' (by decide) h.2
  all_goals (rw [h]; decide)

/-- C79.  The characters of the parts of an address, listed. -/
theorem C79_characters (c : Char) :
    (isNum c = true ↔ c ∈ "0123456789".toList) ∧
    (isLow c = true ↔ c ∈ "abcdefghijklmnopqrstuvwxyz".toList) ∧
    (isWord c = true ↔ c ∈ "abcdefghijklmnopqrstuvwxyz0123456789".toList) ∧
    (isName c = true ↔ c ∈ "abcdefghijklmnopqrstuvwxyz0123456789_-".toList) ∧
    (isUserChar c = true ↔ c ∈ "abcdefghijklmnopqrstuvwxyzABCDEFGHIJKLMNOPQRSTUVWXYZ0123456789_-".toList) ∧
    (isHostChar c = true ↔ c ∈ "abcdefghijklmnopqrstuvwxyzABCDEFGHIJKLMNOPQRSTUVWXYZ0123456789_-.".toList) := by
  have up : ∀ x : Char, isUserChar x = true → isHostChar x = true := fun x => host_of_user
  have np : ∀ x : Char, isName x = true → isHostChar x = true := fun x h => up x (name_user h)
  have wp : ∀ x : Char, isWord x = true → isHostChar x = true := fun x h => np x (by
    simp only [isWord, Bool.or_eq_true] at h
    rcases h with h | h <;> simp [isName, h])
  refine ⟨ascii_only (fun x h => ascii_bound (wp x (num_word h))) (by decide +kernel) (by decide +kernel) c,
    ascii_only (fun x h => ascii_bound (wp x (by simp [isWord, h]))) (by decide +kernel) (by decide +kernel) c,
    ascii_only (fun x h => ascii_bound (wp x h)) (by decide +kernel) (by decide +kernel) c,
    ascii_only (fun x h => ascii_bound (np x h)) (by decide +kernel) (by decide +kernel) c,
    ascii_only (fun x h => ascii_bound (up x h)) (by decide +kernel) (by decide +kernel) c,
    ascii_only (fun x h => ascii_bound h) (by decide +kernel) (by decide +kernel) c⟩

/-- C79.  A text without a single letter, digit, `.`, `_` or `-` is refused as unreadable, and no other text is. -/
theorem C79_a_text_is_unreadable_when_nothing_of_it_can_be_a_host (m : Meta) (s : List Char) :
    (parseRtiAddr m s).1 = .failedToParse ↔ ∀ x ∈ s, isHostChar x = false := by
  constructor
  · intro h x hx
    cases hh : isHostChar x with
    | false => rfl
    | true =>
        exfalso
        obtain ⟨a, pre, post, ha, -, -, hr⟩ := extract_some hx hh
        have hi := extract_of ha hr
        simp only [parseRtiAddr, hi, Option.isNone_some, Bool.false_and, Bool.false_eq_true, if_false] at h
        split at h
        · simp only [parsePort, parseUser] at h
          repeat' split at h
          all_goals simp at h
        · simp at h
  · intro h
    simp [parseRtiAddr, extractInfo, extract_none h]

/-- C79, what accepting means: the text contains an address, before which nothing can belong to a host, and what is
stored is that address: its host passed the check, its port is at most 65535 and its user is a login name. -/
theorem C79_an_accepted_text_contains_the_address_that_is_stored (m m' : Meta) (s : List Char)
    (h : parseRtiAddr m s = (.success, m')) :
    ∃ (a : Addr) (pre post : List Char), a.Lexical ∧ s = pre ++ a.text ++ post ∧
      (∀ x ∈ pre, isHostChar x = false) ∧ validateHost a.host = true ∧ m'.host = some a.host ∧
      m'.port = (a.port.map fun p => (atoi p : Int)).getD m.port ∧ m'.user = a.user.or m.user ∧
      (∀ p, a.port = some p → atoi p ≤ 65535) ∧
      (∀ u, a.user = some u → ∃ x n, u = x :: n ∧ (isLow x = true ∨ x = '_') ∧
        (∀ y ∈ n, isName y = true) ∧ n.length ≤ 31) := by
  by_cases hx : ∃ x ∈ s, isHostChar x = true
  · obtain ⟨x, hx, hh⟩ := hx
    obtain ⟨a, pre, post, ha, hs, hp, hr⟩ := extract_some hx hh
    have hi := extract_of ha hr
    simp only [parseRtiAddr, hi, Option.isNone_some, Bool.false_and, Bool.false_eq_true, if_false] at h
    split at h
    · rename_i hv
      refine ⟨a, pre, post, ha, hs, hp, hv, ?_⟩
      obtain ⟨u, hst, p⟩ := a
      have U : ∀ (m1 : Meta), parseUser { user := u, host := some hst, port := p } m1 = (.success, m') →
          m' = { m1 with user := u.or m1.user } ∧ ∀ v, u = some v → validateUser v = true := by
        intro m1 h1
        cases u with
        | none =>
            simp only [parseUser, Prod.mk.injEq, true_and] at h1
            subst h1
            simp
        | some v =>
            simp only [parseUser] at h1
            split at h1
            · rename_i hv
              simp only [Prod.mk.injEq, true_and] at h1
              subst h1
              refine ⟨by simp, ?_⟩
              rintro w e
              cases e
              exact hv
            · simp at h1
      have fin : (∀ v, u = some v → validateUser v = true) → ∀ v, u = some v → ∃ x n, v = x :: n ∧
          (isLow x = true ∨ x = '_') ∧ (∀ y ∈ n, isName y = true) ∧ n.length ≤ 31 := by
        intro hu v hv
        obtain ⟨x, n, e, h1, h2⟩ := (validateUser_iff v).1 (hu v hv)
        rcases h2 with h2 | ⟨k, rfl, -, -⟩
        · exact ⟨x, n, e, h1, h2⟩
        · exfalso
          have := (ha.user v hv).2.2 '$' (by rw [e]; simp)
          revert this
          decide
      cases p with
      | none =>
          simp only [parsePort] at h
          obtain ⟨rfl, hu⟩ := U _ h
          exact ⟨rfl, rfl, rfl, by simp, fin hu⟩
      | some p =>
          simp only [parsePort] at h
          split at h
          · rename_i hvp
            obtain ⟨rfl, hu⟩ := U _ h
            refine ⟨rfl, rfl, rfl, ?_, fin hu⟩
            rintro q e
            cases e
            exact ((validatePort_iff p).1 hvp).2.2.2
          · simp at h
    · simp at h
  · have : ∀ x ∈ s, isHostChar x = false := by
      intro x hx2
      cases hf : isHostChar x with
      | false => rfl
      | true => exact absurd ⟨x, hx2, hf⟩ hx
    simp [parseRtiAddr, extractInfo, extract_none this] at h

/-- C79, memory: the texts copied, with the byte that ends them, fit into the arrays they are copied to: 256 bytes for
the user and the host and 6 for the port. -/
theorem C79_the_parts_fit_into_their_buffers (s : List Char) :
    (∀ u, (extractInfo s).user = some u → u.length + 1 ≤ 256) ∧
    (∀ h, (extractInfo s).host = some h → h.length + 1 ≤ 256) ∧
    (∀ p, (extractInfo s).port = some p → p.length + 1 ≤ 6) := by
  by_cases hx : ∃ x ∈ s, isHostChar x = true
  · obtain ⟨x, hx, hh⟩ := hx
    obtain ⟨a, pre, post, ha, -, -, hr⟩ := extract_some hx hh
    rw [extract_of ha hr]
    refine ⟨?_, ?_, ?_⟩
    · intro u hu
      have := ha.user u hu
      omega
    · intro h e
      cases e
      have := ha.host
      omega
    · intro p hp
      have := ha.port p hp
      omega
  · have : ∀ x ∈ s, isHostChar x = false := by
      intro x hx2
      cases hf : isHostChar x with
      | false => rfl
      | true => exact absurd ⟨x, hx2, hf⟩ hx
    simp [extractInfo, extract_none this]

/-! ## Where the property fails -/

/-- C79 fails: from the first character that cannot occur in an address, the rest of the text is ignored, whatever it
is: the part before it is accepted or refused as if it had been the whole text. -/
theorem C79_not_what_follows_is_ignored (m : Meta) (t r : List Char) (x : Char) (hx : isAddrChar x = false)
    (ht : ∃ y ∈ t, isHostChar y = true) : parseRtiAddr m (t ++ x :: r) = parseRtiAddr m t := by
  have h : extractInfo (t ++ x :: r) = extractInfo t := by
    unfold extractInfo
    rw [regexec_cut hx ht]
  simp only [parseRtiAddr, h]

/-- C79 fails: characters before the first one that can belong to a host are skipped. -/
theorem C79_not_what_precedes_is_ignored (m : Meta) (g t : List Char) (hg : ∀ x ∈ g, isHostChar x = false) :
    parseRtiAddr m (g ++ t) = parseRtiAddr m t := by
  have h : extractInfo (g ++ t) = extractInfo t := by
    unfold extractInfo
    rw [regexec_skip hg]
  simp only [parseRtiAddr, h]

/-- C79 fails: a port number with more than five digits is not refused; its first five digits are taken for the port. -/
theorem C79_not_long_ports_are_cut (m : Meta) (a : Addr) (p ds : List Char) (ha : a.WellFormed)
    (hp : a.port = some p) (h5 : p.length = 5) (hds : ∀ x ∈ ds, isNum x = true) :
    parseRtiAddr m (a.text ++ ds) = parseRtiAddr m a.text ∧
    (parseRtiAddr m (a.text ++ ds)).1 = .success ∧ (parseRtiAddr m (a.text ++ ds)).2.port = atoi p := by
  have hs : Stops a ds := by
    intro x r' e
    have hx := hds x (by simp [e])
    refine ⟨?_, fun _ => ⟨p, hp, fun _ => h5⟩, fun _ => .inl (by simp [hp])⟩
    rintro rfl
    revert hx
    decide
  have h1 := regexec_addr (g := []) (wellFormed_lexical ha) (by simp) hs
  rw [List.nil_append] at h1
  rw [parse_of m ha h1, C79_an_address_is_stored_as_written_partial m a ha]
  exact ⟨rfl, rfl, by simp [hp]⟩

/-- C79 fails: a port from 32768 to 65535 is accepted, but the federate tries the default port 15045 instead. -/
theorem C79_not_high_ports_are_used (a : Addr) (p hostname : List Char) (port : Int) (ha : a.WellFormed)
    (hp : a.port = some p) (h : 32767 < atoi p) :
    (parseRtiAddr {} a.text).1 = .success ∧
    connectTo (parseRtiAddr {} a.text).2 hostname port = (a.host, 15045) := by
  rw [C79_an_address_is_stored_as_written_partial {} a ha]
  refine ⟨rfl, ?_⟩
  have e : (if (atoi p : Int) ≥ 0 then (atoi p : Int) else port) = atoi p := if_pos (by omega)
  simp only [connectTo, hp, Option.map_some, Option.getD_some, e]
  rw [if_pos (show (atoi p : Int) < 0 ∨ (atoi p : Int) > 32767 by omega)]
  rfl

/-- C79 fails: the check of hosts accepts every text that begins with a small letter or a digit (the anchors of the
expression for names bind weaker than its `|`), and refuses every text without one. -/
theorem C79_not_hosts_are_checked (x : Char) (n s : List Char) :
    (isWord x = true → validateHost (x :: n) = true) ∧
    ((∀ y ∈ s, isWord y = false) → validateHost s = false) := by
  refine ⟨validateHost_of_word n, ?_⟩
  intro h
  cases hv : validateHost s with
  | false => rfl
  | true =>
      obtain ⟨y, hy, hy2⟩ := validateHost_word hv
      rw [h y hy] at hy2
      cases hy2

/-- C79, the full property, is false of the code: a text that is the text of no address is accepted.  Here the user has
a character `$` at its end, which login names may have, and the federate takes the user for the host. -/
theorem C79_not_only_addresses_are_accepted :
    ∃ s m', parseRtiAddr {} s = (.success, m') ∧ (∀ a : Addr, a.Lexical → s ≠ a.text) ∧
      m'.host = some "fed".toList ∧ s = "fed$@rti.example.org:15045".toList := by
  have h := C79_an_address_is_stored_as_written_partial {} ⟨none, "fed".toList, none⟩
    ⟨by simp, ⟨'f', "ed".toList, by decide, by decide, by decide, by decide⟩, by simp⟩
  have e : (Addr.mk none "fed".toList none).text = "fed".toList := by decide
  rw [e, ← C79_not_what_follows_is_ignored {} _ "@rti.example.org:15045".toList '$' (by decide)
    ⟨'f', by decide, by decide⟩] at h
  refine ⟨_, _, h, ?_, rfl, by decide +kernel⟩
  intro a ha e'
  have := text_chars ha '$' (by rw [← e']; decide)
  revert this
  decide

/-! ## The hypotheses are met -/

/-- An address with all three parts. -/
def exampleAddr : Addr :=
  { user := some "alice_2".toList
    host := "rti-1.example.org".toList
    port := some "15045".toList }

theorem exampleAddr_wellFormed : exampleAddr.WellFormed := by
  refine ⟨?_, ⟨'r', "ti-1.example.org".toList, by decide, by decide, by decide, by decide⟩, ?_⟩
  · rintro u h
    cases h
    exact ⟨'a', "lice_2".toList, by decide, by decide, by decide, by decide⟩
  · rintro p h
    cases h
    exact ⟨by decide, by decide, by decide, by decide⟩

example : exampleAddr.text = "alice_2@rti-1.example.org:15045".toList := by decide

/-- The code, run on texts: the address above; the same with a sixth digit; an address in brackets; a high port; a port
too high; a host in capital letters; nothing. -/
example :
    parseRtiAddr {} "al@h.org:80".toList = (.success, ⟨some "h.org".toList, 80, some "al".toList⟩) := by
  decide +kernel
example : parseRtiAddr {} "h:123456".toList = (.success, ⟨some "h".toList, 12345, none⟩) := by decide +kernel
example : parseRtiAddr {} "[h]:80".toList = (.success, ⟨some "h".toList, -1, none⟩) := by decide +kernel
example : connectTo (parseRtiAddr {} "h:40000".toList).2 "localhost".toList 0 = ("h".toList, 15045) := by
  decide +kernel
example : parseRtiAddr {} "h:65536".toList = (.invalidPort, ⟨some "h".toList, -1, none⟩) := by decide +kernel
example : parseRtiAddr {} "HOST".toList = (.invalidHost, {}) := by decide +kernel
example : parseRtiAddr {} "9al@h".toList = (.invalidUser, ⟨some "h".toList, -1, none⟩) := by decide +kernel
example : parseRtiAddr {} "@:".toList = (.failedToParse, {}) := by decide +kernel
/-- The checks of hosts: a number that is no IPv4 address, an unfinished name. -/
example : validateHost "300.1.1".toList = true ∧ validateHost "a..-_".toList = true ∧
    validateHost "_a.b.org".toList = true ∧ validateHost "Localhost".toList = false := by decide +kernel
/-- The hypotheses of the theorem on long ports and on high ports are met by the address above and a variant. -/
example : exampleAddr.port = some "15045".toList ∧ "15045".toList.length = 5 ∧ atoi "40000".toList = 40000 := by decide

end Verif.RtiAddr
