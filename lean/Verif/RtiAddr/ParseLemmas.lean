import Verif.RtiAddr.AddrLemmas

/-! # From matches to what is stored -/

namespace Verif.RtiAddr

theorem extract_of {a : Addr} {s : List Char} (ha : a.Lexical) (h : regexec addrPattern s = some a.caps) :
    extractInfo s = { user := a.user, host := some a.host, port := a.port } := by
  obtain ⟨u, hst, p⟩ := a
  obtain ⟨h1, h2, -⟩ := ha.host
  dsimp only at h1 h2
  have e3 : extractGroup (Addr.mk u hst p).caps 3 255 = some (some hst) := by
    cases u <;> cases p <;> simp [extractGroup, Addr.caps, List.lookup] <;>
      exact ⟨h2, fun e => by simp [e] at h1⟩
  have e2 : extractGroup (Addr.mk u hst p).caps 2 255 = some u := by
    cases u with
    | none => cases p <;> simp [extractGroup, Addr.caps, List.lookup]
    | some u =>
        obtain ⟨u1, u2, -⟩ := ha.user u rfl
        simp [extractGroup, Addr.caps]
        exact ⟨by omega, fun e => by simp [e] at u1⟩
  have e5 : extractGroup (Addr.mk u hst p).caps 5 5 = some p := by
    cases p with
    | none => cases u <;> simp [extractGroup, Addr.caps, List.lookup]
    | some p =>
        obtain ⟨p1, p2, -⟩ := ha.port p rfl
        cases u <;> simp [extractGroup, Addr.caps, List.lookup] <;>
          exact ⟨p2, fun e => by simp [e] at p1⟩
  simp only [extractInfo, h, e2, e3, e5]

/-- Every text with a character of a host in it contains an address, which is what is extracted. -/
theorem extract_some {s : List Char} {x : Char} (hx : x ∈ s) (hh : isHostChar x = true) :
    ∃ (a : Addr) (pre post : List Char), a.Lexical ∧ s = pre ++ a.text ++ post ∧
      (∀ y ∈ pre, isHostChar y = false) ∧ regexec addrPattern s = some a.caps := by
  obtain ⟨l1, l2, rfl⟩ := List.append_of_mem hx
  have hone : ∀ y, isHostChar y = true → (Addr.mk none [y] none).Lexical := by
    intro y hy
    refine ⟨by simp, ⟨by simp, by simp, ?_⟩, by simp⟩
    intro z hz
    simp only [List.mem_singleton] at hz
    subst hz
    exact hy
  cases hc : regexec addrPattern (l1 ++ x :: l2) with
  | none =>
      refine absurd ?_ ((regexec_none _ _).1 hc l1 [x] l2 (Addr.mk none [x] none).caps (by simp))
      exact (addr_match _ _ _ _).2 ⟨_, hone x hh, rfl, rfl⟩
  | some c =>
      obtain ⟨pre, w, post, l⟩ := regexec_some hc
      obtain ⟨a, ha, rfl, rfl⟩ := (addr_match _ _ _ _).1 l.isMatch
      refine ⟨a, pre, post, ha, l.text, ?_, rfl⟩
      intro y hy
      cases hf : isHostChar y with
      | false => rfl
      | true =>
          exfalso
          obtain ⟨k1, k2, rfl⟩ := List.append_of_mem hy
          have := l.leftmost k1 [y] (k2 ++ a.text ++ post) (Addr.mk none [y] none).caps
            (by rw [l.text]; simp) ((addr_match _ _ _ _).2 ⟨_, hone y hf, rfl, rfl⟩)
          simp only [List.length_append, List.length_cons] at this
          omega

theorem extract_none {s : List Char} (h : ∀ x ∈ s, isHostChar x = false) :
    regexec addrPattern s = none := by
  rw [regexec_none]
  rintro pre w post c rfl hm
  obtain ⟨a, ha, rfl, -⟩ := (addr_match _ _ _ _).1 hm
  obtain ⟨x, t, hx, hx2⟩ := text_head ha
  have := h x (by simp [hx])
  rw [hx2] at this
  cases this

/-- A character that occurs in no address cuts the text. -/
theorem regexec_cut {t r : List Char} {x : Char} (hx : isAddrChar x = false)
    (ht : ∃ y ∈ t, isHostChar y = true) :
    regexec addrPattern (t ++ x :: r) = regexec addrPattern t := by
  obtain ⟨y, hy, hy2⟩ := ht
  cases hc : regexec addrPattern t with
  | none =>
      obtain ⟨a, pre, post, -, -, -, h⟩ := extract_some hy hy2
      rw [hc] at h
      cases h
  | some c =>
      obtain ⟨pre, w, post, l⟩ := regexec_some hc
      obtain ⟨a, ha, rfl, rfl⟩ := (addr_match _ _ _ _).1 l.isMatch
      have hm : addrPattern.Match pre a.text (post ++ x :: r) a.caps := (addr_match _ _ _ _).2 ⟨a, ha, rfl, rfl⟩
      have he : t ++ x :: r = pre ++ a.text ++ (post ++ x :: r) := by
        rw [l.text]
        simp
      cases hc' : regexec addrPattern (t ++ x :: r) with
      | none => exact absurd hm ((regexec_none _ _).1 hc' _ _ _ _ he)
      | some c' =>
          obtain ⟨pre', w', post', l'⟩ := regexec_some hc'
          obtain ⟨a', ha', rfl, rfl⟩ := (addr_match _ _ _ _).1 l'.isMatch
          have h1 := l'.leftmost pre a.text (post ++ x :: r) a.caps he hm
          have hle : (pre' ++ a'.text).length ≤ t.length := by
            by_contra hcon
            rw [Nat.not_le] at hcon
            have h2 := congrArg (fun l => l[t.length]?) l'.text
            simp only [List.getElem?_append_right (Nat.le_refl _), Nat.sub_self, List.getElem?_cons_zero] at h2
            rw [List.getElem?_append_left hcon] at h2
            have hlt : pre'.length ≤ t.length := by
              have := congrArg List.length l.text
              simp only [List.length_append] at this
              omega
            rw [List.getElem?_append_right hlt] at h2
            have := text_chars ha' x (List.mem_of_getElem? h2.symm)
            rw [hx] at this
            cases this
          have h3 : ∃ q, t = pre' ++ a'.text ++ q := by
            have h4 := congrArg (List.take t.length) l'.text
            rw [List.take_append, Nat.sub_self, List.take_length, List.take_zero, List.append_nil,
              List.take_append, List.take_of_length_le hle] at h4
            exact ⟨_, h4⟩
          obtain ⟨q, hq⟩ := h3
          have hm' : addrPattern.Match pre' a'.text q a'.caps := (addr_match _ _ _ _).2 ⟨a', ha', rfl, rfl⟩
          have h5 := l.leftmost pre' a'.text q a'.caps hq hm'
          have h6 : pre' ++ (a'.text ++ q) = pre ++ (a.text ++ post) := by
            have := l.text
            rw [hq] at this
            simpa using this
          obtain ⟨e1, e2⟩ := List.append_inj h6 (by omega)
          subst e1
          have h7 := l.longest a'.text q a'.caps hq hm'
          have h8 := l'.longest a.text (post ++ x :: r) a.caps he hm
          obtain ⟨e3, -⟩ := List.append_inj e2 (by omega)
          rw [text_inj ha ha' e3]

/-- Characters before the first that can belong to a host are skipped. -/
theorem regexec_skip {g t : List Char} (hg : ∀ x ∈ g, isHostChar x = false) :
    regexec addrPattern (g ++ t) = regexec addrPattern t := by
  have key : ∀ (pre : List Char) (a : Addr) (post : List Char), a.Lexical → g ++ t = pre ++ a.text ++ post →
      ∃ q, pre = g ++ q ∧ t = q ++ a.text ++ post := by
    intro pre a post ha h
    have hle : g.length ≤ pre.length := by
      by_contra hlt
      rw [Nat.not_le] at hlt
      obtain ⟨x, t', hx, hx2⟩ := text_head ha
      have h3 := congrArg (fun l => l[pre.length]?) h
      simp only [hx, List.append_assoc, List.cons_append, List.getElem?_append_right (Nat.le_refl _), Nat.sub_self,
        List.getElem?_cons_zero] at h3
      rw [List.getElem?_append_left hlt] at h3
      have := hg x (List.mem_of_getElem? h3)
      rw [hx2] at this
      cases this
    have h4 : g ++ t = pre ++ (a.text ++ post) := by simpa using h
    rcases List.append_eq_append_iff.1 h4 with ⟨q, e1, e2⟩ | ⟨q, e1, e2⟩
    · exact ⟨q, e1, by rw [e2]; simp⟩
    · have : q = [] := by
        have := congrArg List.length e1
        simp only [List.length_append] at this
        exact List.length_eq_zero_iff.1 (by omega)
      subst this
      exact ⟨[], by simpa using e1.symm, by simpa using e2.symm⟩
  cases hc : regexec addrPattern t with
  | none =>
      rw [regexec_none] at hc ⊢
      intro pre w post c h hm
      obtain ⟨a, ha, rfl, rfl⟩ := (addr_match _ _ _ _).1 hm
      obtain ⟨q, -, hq⟩ := key pre a post ha h
      exact hc q a.text post a.caps hq ((addr_match _ _ _ _).2 ⟨a, ha, rfl, rfl⟩)
  | some c =>
      obtain ⟨pre, w, post, l⟩ := regexec_some hc
      obtain ⟨a, ha, rfl, rfl⟩ := (addr_match _ _ _ _).1 l.isMatch
      have hm : addrPattern.Match (g ++ pre) a.text post a.caps := (addr_match _ _ _ _).2 ⟨a, ha, rfl, rfl⟩
      have he : g ++ t = g ++ pre ++ a.text ++ post := by
        rw [l.text]
        simp
      cases hc' : regexec addrPattern (g ++ t) with
      | none => exact absurd hm ((regexec_none _ _).1 hc' _ _ _ _ he)
      | some c' =>
          obtain ⟨pre', w', post', l'⟩ := regexec_some hc'
          obtain ⟨a', ha', rfl, rfl⟩ := (addr_match _ _ _ _).1 l'.isMatch
          have h1 := l'.leftmost _ _ _ _ he hm
          obtain ⟨q, rfl, hq⟩ := key pre' a' post' ha' l'.text
          have hm' : addrPattern.Match q a'.text post' a'.caps := (addr_match _ _ _ _).2 ⟨a', ha', rfl, rfl⟩
          have h5 := l.leftmost q a'.text post' a'.caps hq hm'
          simp only [List.length_append] at h1
          have h6 : q ++ (a'.text ++ post') = pre ++ (a.text ++ post) := by
            have := l.text
            rw [hq] at this
            simpa using this
          obtain ⟨e1, e2⟩ := List.append_inj h6 (by omega)
          subst e1
          have h7 := l.longest a'.text post' a'.caps hq hm'
          have h8 := l'.longest a.text post a.caps he hm
          obtain ⟨e3, -⟩ := List.append_inj e2 (by omega)
          rw [text_inj ha ha' e3]

/-! ## The checks -/

theorem validateHost_of_word {x : Char} (n : List Char) (hx : isWord x = true) :
    validateHost (x :: n) = true := by
  have : matchRegex hostPattern (x :: n) = true := by
    rw [matchRegex_iff]
    refine ⟨[], [x], n, [], rfl, _, List.mem_cons_self, by simp, by simp, ?_⟩
    refine ⟨[x], [], [], [], rfl, rfl, (rep_cls_iff _ _ _ _ _).2 ⟨rfl, by simp, by simp, by simpa using hx⟩, ?_⟩
    exact ⟨rfl, [], by simp, by simp, by simp, rfl⟩
  simp [validateHost, this]

theorem num_word {x : Char} (h : isNum x = true) : isWord x = true := by
  simp [isWord, h]

theorem octet_num {w : List Char} {c : Caps} (h : octetRe.L w c) : ∃ x ∈ w, isNum x = true := by
  rcases h with ⟨w1, w2, c1, c2, rfl, rfl, h1, -⟩ | ⟨w1, w2, c1, c2, rfl, rfl, -, h2⟩
  · obtain ⟨-, rfl⟩ := (chr_iff _ _ _).1 h1
    exact ⟨'2', by simp, by decide⟩
  · obtain ⟨-, x, hx, rfl⟩ := h2
    exact ⟨x, by simp, hx⟩

theorem label_word {w : List Char} {c : Caps} (h : labelRe.L w c) : ∃ x ∈ w, isWord x = true := by
  obtain ⟨w1, w2, c1, c2, rfl, rfl, h1, -⟩ := h
  obtain ⟨-, h2, -, h3⟩ := (rep_cls_iff _ _ _ _ _).1 h1
  cases w1 with
  | nil => simp at h2
  | cons x w1 => exact ⟨x, by simp, h3 x (by simp)⟩

theorem validateHost_word {s : List Char} (h : validateHost s = true) : ∃ x ∈ s, isWord x = true := by
  simp only [validateHost, Bool.or_eq_true, matchRegex_iff] at h
  rcases h with ⟨pre, w, post, c, rfl, b, hb, -, -, hl⟩ | ⟨pre, w, post, c, rfl, b, hb, -, -, hl⟩
  · simp only [ipv4Pattern, List.mem_singleton] at hb
    subst hb
    obtain ⟨w1, w2, c1, c2, rfl, rfl, -, h2⟩ := hl
    obtain ⟨x, hx, hx2⟩ := octet_num h2
    exact ⟨x, by simp [hx], num_word hx2⟩
  · simp only [hostPattern, List.mem_cons, List.not_mem_nil, or_false] at hb
    rcases hb with rfl | rfl
    · obtain ⟨x, hx, hx2⟩ := label_word hl
      exact ⟨x, by simp [hx], hx2⟩
    · obtain ⟨w1, w2, c1, c2, rfl, rfl, -, h2⟩ := hl
      obtain ⟨-, h3, -, h4⟩ := (rep_cls_iff _ _ _ _ _).1 h2
      cases w2 with
      | nil => simp at h3
      | cons x w2 => exact ⟨x, by simp, by simp [isWord, h4 x (by simp)]⟩

theorem validateUser_iff (s : List Char) : validateUser s = true ↔
    ∃ x n, s = x :: n ∧ (isLow x = true ∨ x = '_') ∧
      (((∀ y ∈ n, isName y = true) ∧ n.length ≤ 31) ∨
        ∃ k, n = k ++ ['$'] ∧ (∀ y ∈ k, isName y = true) ∧ k.length ≤ 30) := by
  rw [validateUser, matchRegex_iff]
  constructor
  · rintro ⟨pre, w, post, c, rfl, b, hb, h1, h2, hl⟩
    simp only [userPattern, List.mem_singleton] at hb
    subst hb
    have e1 := h1 rfl
    have e2 := h2 rfl
    subst e1 e2
    obtain ⟨w1, w2, c1, c2, rfl, rfl, ⟨rfl, x, hx, rfl⟩, h4⟩ := hl
    refine ⟨x, w2, by simp, by simpa using hx, ?_⟩
    rcases h4 with h4 | ⟨k, d, c3, c4, rfl, rfl, h5, h6⟩
    · obtain ⟨-, -, h5, h6⟩ := (rep_cls_iff _ _ _ _ _).1 h4
      exact .inl ⟨h6, h5 _ rfl⟩
    · obtain ⟨-, -, h7, h8⟩ := (rep_cls_iff _ _ _ _ _).1 h5
      obtain ⟨-, rfl⟩ := (chr_iff _ _ _).1 h6
      exact .inr ⟨k, rfl, h8, h7 _ rfl⟩
  · rintro ⟨x, n, rfl, hx, h⟩
    refine ⟨[], x :: n, [], [], by simp, _, List.mem_singleton.2 rfl, by simp, by simp, ?_⟩
    refine ⟨[x], n, [], [], rfl, rfl, ⟨rfl, x, by simpa using hx, rfl⟩, ?_⟩
    rcases h with ⟨h1, h2⟩ | ⟨k, rfl, h1, h2⟩
    · refine .inl ((rep_cls_iff _ _ _ _ _).2 ⟨rfl, by simp, ?_, h1⟩)
      rintro m e
      cases e
      exact h2
    · refine .inr ⟨k, ['$'], [], [], rfl, rfl, (rep_cls_iff _ _ _ _ _).2 ⟨rfl, by simp, ?_, h1⟩,
        (chr_iff _ _ _).2 ⟨rfl, rfl⟩⟩
      rintro m e
      cases e
      exact h2

theorem validatePort_iff (s : List Char) : validatePort s = true ↔
    1 ≤ s.length ∧ s.length ≤ 5 ∧ (∀ x ∈ s, isNum x = true) ∧ atoi s ≤ 65535 := by
  simp only [validatePort]
  split
  · rename_i h
    simp only [Bool.or_eq_true, decide_eq_true_eq] at h
    simp only [Bool.false_eq_true, false_iff]
    rintro ⟨h1, h2, -⟩
    omega
  · rename_i h
    simp only [Bool.or_eq_true, decide_eq_true_eq] at h
    split
    · rename_i h2
      simp only [Bool.not_eq_true', List.all_eq_false] at h2
      simp only [Bool.false_eq_true, false_iff]
      rintro ⟨-, -, h3, -⟩
      obtain ⟨x, hx, hx2⟩ := h2
      exact hx2 (h3 x hx)
    · rename_i h2
      simp only [Bool.not_eq_true', Bool.not_eq_false, List.all_eq_true] at h2
      simp only [decide_eq_true_eq]
      exact ⟨fun h3 => ⟨by omega, by omega, h2, h3⟩, fun h3 => h3.2.2.2⟩

theorem name_user {x : Char} (h : isName x = true) : isUserChar x = true := by
  simp only [isName, Bool.or_eq_true] at h
  simp only [isUserChar, Bool.or_eq_true]
  tauto

theorem wellFormed_lexical {a : Addr} (h : a.WellFormed) : a.Lexical := by
  refine ⟨?_, ?_, ?_⟩
  · intro u hu
    obtain ⟨x, n, rfl, h1, h2, h3⟩ := h.user u hu
    refine ⟨by simp, by simp only [List.length_cons]; omega, ?_⟩
    intro y hy
    rcases List.mem_cons.1 hy with rfl | hy
    · rcases h1 with h1 | rfl
      · simp [isUserChar, h1]
      · decide
    · exact name_user (h2 y hy)
  · obtain ⟨x, n, h0, h1, h2, h3⟩ := h.host
    rw [h0]
    refine ⟨by simp, by simp only [List.length_cons]; omega, ?_⟩
    intro y hy
    rcases List.mem_cons.1 hy with rfl | hy
    · simp only [isWord, Bool.or_eq_true] at h1
      rcases h1 with h1 | h1 <;> simp [isHostChar, isUserChar, h1]
    · exact h2 y hy
  · intro p hp
    obtain ⟨h1, h2, h3, -⟩ := h.port p hp
    exact ⟨h1, h2, h3⟩

/-- What is stored for an address that is extracted. -/
theorem parse_of {a : Addr} {s : List Char} (m : Meta) (ha : a.WellFormed)
    (h : regexec addrPattern s = some a.caps) :
    parseRtiAddr m s = (.success,
      { host := some a.host
        port := (a.port.map fun p => (atoi p : Int)).getD m.port
        user := a.user.or m.user }) := by
  have hi := extract_of (wellFormed_lexical ha) h
  obtain ⟨x, n, h0, h1, -, -⟩ := ha.host
  have hv : validateHost a.host = true := by
    rw [h0]
    exact validateHost_of_word n h1
  have hu : ∀ m' : Meta, parseUser { user := a.user, host := some a.host, port := a.port } m' =
      (.success, { m' with user := a.user.or m'.user }) := by
    intro m'
    cases hau : a.user with
    | none => simp [parseUser]
    | some u =>
        obtain ⟨y, k, e, k1, k2, k3⟩ := ha.user u hau
        have : validateUser u = true := (validateUser_iff u).2 ⟨y, k, e, k1, .inl ⟨k2, k3⟩⟩
        simp [parseUser, this]
  simp only [parseRtiAddr, hi, Option.isNone_some, Bool.false_and, Bool.false_eq_true, if_false, hv, if_true]
  cases hap : a.port with
  | none =>
      rw [hap] at hu
      simp [parsePort, hu]
  | some p =>
      rw [hap] at hu
      have := (validatePort_iff p).2 (ha.port p hap)
      simp [parsePort, this, hu]

end Verif.RtiAddr
