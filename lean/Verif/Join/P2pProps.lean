import Verif.Join.P2p
import Verif.Join.Props

/-!
# C75: direct connections between federates
-/

set_option linter.unusedVariables false

namespace ReactorC.Join.P2p
open ReactorC.Net ReactorC.Join

/-- What the comparison yields for federation IDs without null characters. -/
theorem strncmp_spec (mine theirs : List Byte) (hm : 0 ∉ mine) :
    strncmpArray (mine ++ [0]) theirs mine.length =
      if mine <+: theirs then some false else if theirs <+: mine then none else some true := by
  induction mine generalizing theirs with
  | nil =>
    rw [if_pos (List.nil_prefix)]; unfold strncmpArray; rfl
  | cons a as ih =>
    rw [List.mem_cons, not_or] at hm
    cases theirs with
    | nil =>
      rw [if_neg (by rintro ⟨x, hx⟩; cases hx), if_pos List.nil_prefix]; rfl
    | cons b bs =>
      show (if a ≠ b then some true else if a = 0 then some false else strncmpArray (as ++ [0]) bs as.length) = _
      by_cases h : a = b
      · subst h
        rw [if_neg (by simp), if_neg (Ne.symm hm.1), ih bs hm.2]
        simp only [List.cons_prefix_cons, true_and]
      · rw [if_pos h, if_neg (by rw [List.cons_prefix_cons]; exact fun x => h x.1),
          if_neg (by rw [List.cons_prefix_cons]; exact fun x => h x.1.symm)]

/-- The reply to a well-formed first message. -/
theorem receive_message (big : Bool) (n : Nat) (mine theirs rest : List Byte) (fed_id : BitVec 16) (hm : 0 ∉ mine)
    (hl : mine.length < 256) (ht : theirs.length < 256) :
    receive big n mine (message fed_id theirs ++ rest) =
      if mine <+: theirs then (if fed_id.toNat < n then .accepted fed_id.toNat else .outOfRange fed_id.toNat)
      else if theirs <+: mine then .beyond else .rejected .federationIdDoesNotMatch := by
  obtain ⟨b0, b1, hb⟩ : ∃ b0 b1, encode_uint16 fed_id = [b0, b1] := ⟨_, _, rfl⟩
  have hx : extract_uint16 big [b0, b1, BitVec.ofNat 8 theirs.length] = fed_id := by
    have := C31_uint16_roundtrip big fed_id [BitVec.ofNat 8 theirs.length]
    rw [hb] at this; exact this
  have hn : (BitVec.ofNat 8 theirs.length).toNat = theirs.length := by
    rw [BitVec.toNat_ofNat]; exact Nat.mod_eq_of_lt ht
  have hmin : min theirs.length 255 = theirs.length := by omega
  have hr : readN 4 (message fed_id theirs ++ rest) =
      some ([MSG_TYPE_P2P_SENDING_FED_ID, b0, b1, BitVec.ofNat 8 theirs.length], theirs ++ rest) := by
    unfold message; rw [hb, hmin]; unfold readN; simp
  unfold receive
  rw [hr]
  simp only [List.getD_cons_zero, ne_eq, not_true_eq_false, if_false, List.drop_succ_cons, List.drop_zero, hx,
    List.getD_cons_succ, hn, readN_append]
  rw [show min mine.length 255 = mine.length by omega, strncmp_spec mine theirs hm]
  split
  · rename_i h; split at h
    · cases h
    · split at h
      · rw [if_neg (by assumption), if_pos (by assumption)]
      · cases h
  · rename_i h; split at h
    · cases h
    · split at h
      · cases h
      · rw [if_neg (by assumption), if_neg (by assumption)]
  · rename_i h; split at h
    · rename_i hp; rw [if_pos hp]
    · split at h <;> cases h

/-- **C75** A federate of the federation is accepted. -/
theorem C75_members_are_accepted (big : Bool) (n : Nat) (mine rest : List Byte) (fed_id : BitVec 16) (hm : 0 ∉ mine)
    (hl : mine.length < 256) (hi : fed_id.toNat < n) :
    receive big n mine (message fed_id mine ++ rest) = .accepted fed_id.toNat := by
  rw [receive_message big n mine mine rest fed_id hm hl hl, if_pos (List.prefix_refl _), if_pos hi]

/-- **C75** A federate of another federation is rejected. `_partial`: unless one of the two federation IDs is a prefix of the
other. -/
theorem C75_strangers_are_rejected_partial (big : Bool) (n : Nat) (mine theirs rest : List Byte) (fed_id : BitVec 16) (hm : 0 ∉ mine)
    (hl : mine.length < 256) (ht : theirs.length < 256) (h : ¬ mine <+: theirs) (h' : ¬ theirs <+: mine) :
    receive big n mine (message fed_id theirs ++ rest) = .rejected .federationIdDoesNotMatch := by
  rw [receive_message big n mine theirs rest fed_id hm hl ht, if_neg h, if_neg h']

/-- **C75** Who is not a federate is rejected: an RTI, for instance, or a federate that takes this one for an RTI. -/
theorem C75_others_are_rejected (big : Bool) (n : Nat) (mine : List Byte) (a b c d : Byte) (rest : List Byte)
    (h : a ≠ MSG_TYPE_P2P_SENDING_FED_ID) : receive big n mine (a :: b :: c :: d :: rest) = .rejected .wrongServer := by
  unfold receive readN
  simp [h]

/-- **C75** fails: a federate whose federation ID begins with that of this federate is accepted. -/
theorem C75_longer_federation_id_is_accepted (big : Bool) (n : Nat) (mine more rest : List Byte) (fed_id : BitVec 16) (hm : 0 ∉ mine)
    (hl : (mine ++ more).length < 256) (hi : fed_id.toNat < n) :
    receive big n mine (message fed_id (mine ++ more) ++ rest) = .accepted fed_id.toNat := by
  rw [receive_message big n mine _ rest fed_id hm (by rw [List.length_append] at hl; omega) hl, if_pos (List.prefix_append _ _), if_pos hi]

/-- **C75** fails: a shorter federation ID that this one begins with is compared beyond its end. -/
theorem C75_shorter_federation_id_is_read_beyond_its_end (big : Bool) (n : Nat) (theirs more rest : List Byte) (fed_id : BitVec 16)
    (hm : 0 ∉ theirs ++ more) (hl : (theirs ++ more).length < 256) (h : more ≠ []) :
    receive big n (theirs ++ more) (message fed_id theirs ++ rest) = .beyond := by
  rw [receive_message big n _ theirs rest fed_id hm hl (by rw [List.length_append] at hl; omega), if_neg, if_pos (List.prefix_append _ _)]
  intro hp
  have := hp.length_le
  rw [List.length_append] at this
  exact h (List.length_eq_zero_iff.1 (by omega))

/-- **C75** fails: the ID of a federate is not checked before it is used as an index. -/
theorem C75_id_out_of_range_is_written_beyond_the_end (big : Bool) (n : Nat) (mine rest : List Byte) (fed_id : BitVec 16) (hm : 0 ∉ mine)
    (hl : mine.length < 256) (hi : n ≤ fed_id.toNat) :
    receive big n mine (message fed_id mine ++ rest) = .outOfRange fed_id.toNat := by
  rw [receive_message big n mine mine rest fed_id hm hl hl, if_pos (List.prefix_refl _), if_neg (by omega)]

example : receive false 3 [102, 49] (message 2 [102, 49] ++ [7]) = .accepted 2 := by decide
example : receive true 3 [102, 49] (message 2 [102, 50]) = .rejected .federationIdDoesNotMatch := by decide
example : receive true 3 [102, 49] (message 2 [102, 49, 50]) = .accepted 2 := by decide
example : receive true 3 [102, 49] (message 2 [102]) = .beyond := by decide
example : receive true 3 [102, 49] (message 3 [102, 49]) = .outOfRange 3 := by decide

/-! ## All connections -/

/-- The federate that an outcome is about. -/
def Outcome.id : Outcome → Option Nat
  | .accepted i => some i
  | _ => none

theorem serveAll_spec (big : Bool) (n : Nat) (mine : List Byte) (expected : Nat) : ∀ (inputs : List (List Byte)) (k : Nat) (s : Server),
    (∀ x ∈ inputs, receive big n mine x ≠ .beyond ∧ ∀ i, receive big n mine x ≠ .outOfRange i) →
    s.fault = false →
    (s.listeners.length + (inputs.filterMap fun x => (receive big n mine x).id).length ≤ expected) →
    ((inputs.filterMap fun x => (receive big n mine x).id)).Nodup →
    (∀ i ∈ inputs.filterMap fun x => (receive big n mine x).id, i ∉ s.listeners) →
    let s' := serveAll big n mine expected k inputs s
    s'.fault = false ∧ s'.listeners = (inputs.filterMap fun x => (receive big n mine x).id).reverse ++ s.listeners ∧
      (∀ j x i, inputs[j]? = some x → receive big n mine x = .accepted i → s'.sockets i = some (k + j)) ∧
      ∀ i, i ∉ (inputs.filterMap fun x => (receive big n mine x).id) → s'.sockets i = s.sockets i := by
  intro inputs
  induction inputs with
  | nil => intro k s _ hf _ _ _; exact ⟨hf, rfl, (fun j x i h => by simp at h), (fun _ _ => rfl)⟩
  | cons x xs ih =>
    intro k s hok hf hlen hnd hnew
    have hx := hok x List.mem_cons_self
    have hxs : ∀ y ∈ xs, receive big n mine y ≠ .beyond ∧ ∀ i, receive big n mine y ≠ .outOfRange i :=
      fun y hy => hok y (List.mem_cons_of_mem _ hy)
    simp only
    unfold serveAll
    by_cases hfull : s.listeners.length ≥ expected
    · have h0 : ((x :: xs).filterMap fun x => (receive big n mine x).id) = [] := List.length_eq_zero_iff.1 (by omega)
      rw [if_pos (.inl hfull), h0]
      refine ⟨hf, rfl, fun j y i hy hr => ?_, fun _ _ => rfl⟩
      have hm : i ∈ (x :: xs).filterMap fun x => (receive big n mine x).id :=
        List.mem_filterMap.2 ⟨y, List.mem_of_getElem? hy, show (receive big n mine y).id = some i by rw [hr]; rfl⟩
      rw [h0] at hm; cases hm
    rw [if_neg (by rw [hf]; simp; omega)]
    cases hr : receive big n mine x with
    | beyond => exact absurd hr hx.1
    | outOfRange i => exact absurd hr (hx.2 i)
    | closed =>
      have e : ((x :: xs).filterMap fun x => (receive big n mine x).id) = xs.filterMap fun x => (receive big n mine x).id := by
        rw [List.filterMap_cons, hr]; rfl
      rw [e] at hlen hnd hnew ⊢
      obtain ⟨h1, h2, h3, h4⟩ := ih (k + 1) s hxs hf hlen hnd hnew
      refine ⟨h1, h2, fun j y i hy hry => ?_, h4⟩
      cases j with
      | zero => cases hy; rw [hr] at hry; cases hry
      | succ j => exact (h3 j y i hy hry).trans (by congr 1; omega)
    | rejected c =>
      have e : ((x :: xs).filterMap fun x => (receive big n mine x).id) = xs.filterMap fun x => (receive big n mine x).id := by
        rw [List.filterMap_cons, hr]; rfl
      rw [e] at hlen hnd hnew ⊢
      obtain ⟨h1, h2, h3, h4⟩ := ih (k + 1) s hxs hf hlen hnd hnew
      refine ⟨h1, h2, fun j y i hy hry => ?_, h4⟩
      cases j with
      | zero => cases hy; rw [hr] at hry; cases hry
      | succ j => exact (h3 j y i hy hry).trans (by congr 1; omega)
    | accepted id =>
      have e : ((x :: xs).filterMap fun x => (receive big n mine x).id) = id :: xs.filterMap fun x => (receive big n mine x).id := by
        rw [List.filterMap_cons, hr]; rfl
      rw [e] at hlen hnd hnew ⊢
      obtain ⟨hid, hnd'⟩ := List.nodup_cons.1 hnd
      obtain ⟨h1, h2, h3, h4⟩ := ih (k + 1) (s.add k (.accepted id)) hxs hf
        (by show (id :: s.listeners).length + _ ≤ _; rw [List.length_cons] at hlen ⊢; omega) hnd'
        (fun i hi hm => by
          rcases List.mem_cons.1 (show i ∈ id :: s.listeners from hm) with rfl | hm
          · exact hid hi
          · exact hnew i (List.mem_cons_of_mem _ hi) hm)
      refine ⟨h1, ?_, fun j y i hy hry => ?_, fun i hi => ?_⟩
      · rw [h2]
        show _ ++ id :: s.listeners = _
        rw [List.reverse_cons, List.append_assoc]; rfl
      · cases j with
        | zero =>
          cases hy; rw [hr] at hry; cases hry
          rw [h4 id hid]
          exact if_pos rfl
        | succ j => exact (h3 j y i hy hry).trans (by congr 1; omega)
      · rw [List.mem_cons, not_or] at hi
        rw [h4 i hi.2]
        exact if_neg hi.1

/-- **C75** When every federate that is expected connects once, in any order, and whatever else connects is rejected or closes the
connection, then each of them is recorded with its own connection and has a thread that listens to it, and nothing else is. `_partial`:
for a federate that connects twice see `C75_second_connection_takes_the_place_of_another_federate`. -/
theorem C75_all_members_are_connected_partial (big : Bool) (n : Nat) (mine : List Byte) (expected : List Nat) (inputs : List (List Byte))
    (hn : expected.Nodup) (hp : (inputs.filterMap fun x => (receive big n mine x).id).Perm expected)
    (hok : ∀ x ∈ inputs, receive big n mine x ≠ .beyond ∧ ∀ i, receive big n mine x ≠ .outOfRange i) :
    let s := serveAll big n mine expected.length 0 inputs Server.init
    s.fault = false ∧ s.listeners.Perm expected ∧
      (∀ j x i, inputs[j]? = some x → receive big n mine x = .accepted i → s.sockets i = some j) ∧
      ∀ i, i ∉ expected → s.sockets i = none := by
  obtain ⟨h1, h2, h3, h4⟩ := serveAll_spec big n mine expected.length inputs 0 Server.init hok rfl
    (by show 0 + _ ≤ _; rw [hp.length_eq]; omega) (hp.nodup_iff.2 hn) (fun _ _ h => by cases h)
  refine ⟨h1, ?_, fun j x i hx hr => ?_, fun i hi => ?_⟩
  · rw [h2]
    show (_ ++ []).Perm _
    rw [List.append_nil]
    exact (List.reverse_perm _).trans hp
  · rw [h3 j x i hx hr, Nat.zero_add]
  · exact h4 i fun h => hi (hp.mem_iff.1 h)

/-- Federates 2 and 1 connect to a federate that expects both, an RTI client and a stranger in between. -/
example : let inputs := [message 2 [102, 49], [1, 0, 0, 0], message 2 [103], message 1 [102, 49]]
    (inputs.filterMap fun x => (receive false 3 [102, 49] x).id).Perm [1, 2] ∧
    (∀ x ∈ inputs, receive false 3 [102, 49] x ≠ .beyond ∧ receive false 3 [102, 49] x ≠ .outOfRange 0) ∧
    (serveAll false 3 [102, 49] 2 0 inputs Server.init).sockets 1 = some 3 := by decide

/-- **C75** fails: a second connection under an ID counts like that of another federate, which is then not served any more, and the
thread that listens to the first one reads from the second. -/
theorem C75_second_connection_takes_the_place_of_another_federate (big : Bool) (n : Nat) (mine : List Byte) (a : BitVec 16)
    (more : List (List Byte)) (hm : 0 ∉ mine) (hl : mine.length < 256) (ha : a.toNat < n) :
    let s := serveAll big n mine 2 0 (message a mine :: message a mine :: more) Server.init
    s.listeners = [a.toNat, a.toNat] ∧ s.sockets a.toNat = some 1 ∧ ∀ j, j ≠ a.toNat → s.sockets j = none := by
  have e : receive big n mine (message a mine) = .accepted a.toNat := by
    have := C75_members_are_accepted big n mine [] a hm hl ha
    rwa [List.append_nil] at this
  have h : serveAll big n mine 2 0 (message a mine :: message a mine :: more) Server.init =
      (Server.init.add 0 (.accepted a.toNat)).add 1 (.accepted a.toNat) := by
    unfold serveAll
    rw [if_neg (by simp [Server.init]), e]
    unfold serveAll
    rw [if_neg (by simp [Server.init, Server.add]), e]
    cases more with
    | nil => rfl
    | cons x xs => unfold serveAll; rw [if_pos (by simp [Server.init, Server.add])]
  simp only [h]
  refine ⟨rfl, if_pos rfl, fun j hj => ?_⟩
  show (if j = _ then _ else if j = _ then _ else none) = none
  rw [if_neg hj, if_neg hj]

/-! ## Addresses -/

/-- **C75** A federate that goes on with a port has got it from the federate it asked for: it is one that this federate has advertised,
before the reply. -/
theorem C75_port_is_an_advertised_one (asker i : Nat) (h : List Ask) {p : Int} (hr : resolve (replies asker i h).reverse = some p) :
    p ≠ -1 ∧ ∃ l₁ l₂, h = l₁ ++ Ask.query asker i :: l₂ ∧ Ask.ad i p ∈ l₂ := by
  have h1 : ∀ l : List Int, resolve l = some p → p ≠ -1 ∧ p ∈ l := by
    intro l
    induction l with
    | nil => intro e; cases e
    | cons x l ih =>
      intro e
      unfold resolve at e
      split at e
      · exact ⟨(ih e).1, List.mem_cons_of_mem _ (ih e).2⟩
      · cases e; exact ⟨by assumption, List.mem_cons_self⟩
  obtain ⟨hp, hm⟩ := h1 _ hr
  rw [List.mem_reverse] at hm
  refine ⟨hp, ?_⟩
  have h2 : ∀ l, ports l i = p → Ask.ad i p ∈ l := by
    intro l
    induction l with
    | nil => intro e; exact absurd e.symm hp
    | cons x l ih =>
      intro e
      cases x with
      | ad j q =>
        replace e : (if i = j then q else ports l i) = p := e
        split at e
        · subst e; rename_i hj; subst hj; exact List.mem_cons_self
        · exact List.mem_cons_of_mem _ (ih e)
      | query a j => exact List.mem_cons_of_mem _ (ih e)
  clear hr
  induction h with
  | nil => cases hm
  | cons x l ih =>
    cases x with
    | ad j q =>
      obtain ⟨l₁, l₂, e, hq⟩ := ih hm
      exact ⟨_ :: l₁, l₂, by rw [e]; rfl, hq⟩
    | query a j =>
      replace hm : p ∈ (if a = asker ∧ j = i then ports l i :: replies asker i l else replies asker i l) := hm
      split at hm
      · rename_i hj
        rcases List.mem_cons.1 hm with e | hm
        · refine ⟨[], l, by rw [hj.1, hj.2]; rfl, h2 l e.symm⟩
        · obtain ⟨l₁, l₂, e, hq⟩ := ih hm
          exact ⟨_ :: l₁, l₂, by rw [e]; rfl, hq⟩
      · obtain ⟨l₁, l₂, e, hq⟩ := ih hm
        exact ⟨_ :: l₁, l₂, by rw [e]; rfl, hq⟩

/-- **C75** A federate that asks for the port of a federate that has advertised one gets it. -/
theorem C75_advertised_port_is_found (asker i : Nat) (l₁ l₂ : List Ask) {p : Int} (hp : p ≠ -1)
    (hone : ∀ q, Ask.ad i q ∈ l₁ ++ Ask.ad i p :: l₂ → q = p) (hq : Ask.query asker i ∈ l₁) :
    resolve (replies asker i (l₁ ++ Ask.ad i p :: l₂)).reverse = some p := by
  have h1 : ∀ l, (∀ q, Ask.ad i q ∈ l → q = p) → ports l i = -1 ∨ ports l i = p := by
    intro l
    induction l with
    | nil => intro _; exact .inl rfl
    | cons x l ih =>
      intro h
      cases x with
      | ad j q =>
        show (if i = j then q else ports l i) = -1 ∨ (if i = j then q else ports l i) = p
        split
        · rename_i hj; subst hj; exact .inr (h q List.mem_cons_self)
        · exact ih fun q hq => h q (List.mem_cons_of_mem _ hq)
      | query a j => exact ih fun q hq => h q (List.mem_cons_of_mem _ hq)
  have h2 : ∀ l, (∀ q, Ask.ad i q ∈ l → q = p) → ∀ x ∈ replies asker i l, x = -1 ∨ x = p := by
    intro l
    induction l with
    | nil => intro _ x hx; cases hx
    | cons y l ih =>
      intro h x hx
      have hl : ∀ q, Ask.ad i q ∈ l → q = p := fun q hq => h q (List.mem_cons_of_mem _ hq)
      cases y with
      | ad j q => exact ih hl x hx
      | query a j =>
        replace hx : x ∈ (if a = asker ∧ j = i then ports l i :: replies asker i l else replies asker i l) := hx
        split at hx
        · rcases List.mem_cons.1 hx with e | hx
          · rw [e]; exact h1 l hl
          · exact ih hl x hx
        · exact ih hl x hx
  have h3 : ∀ l : List Int, (∀ x ∈ l, x = -1 ∨ x = p) → p ∈ l → resolve l = some p := by
    intro l
    induction l with
    | nil => intro _ h; cases h
    | cons x l ih =>
      intro h hm
      unfold resolve
      split
      · rename_i hx
        refine ih (fun y hy => h y (List.mem_cons_of_mem _ hy)) ?_
        rcases List.mem_cons.1 hm with e | hm
        · exact absurd (e.trans hx) hp
        · exact hm
      · rename_i hx
        rcases h x List.mem_cons_self with e | e
        · exact absurd e hx
        · rw [e]
  have h4 : ∀ l, (∀ q, Ask.ad i q ∈ l ++ Ask.ad i p :: l₂ → q = p) → ports (l ++ Ask.ad i p :: l₂) i = p := by
    intro l
    induction l with
    | nil => intro _; exact if_pos rfl
    | cons x l ih =>
      intro h
      have hl : ∀ q, Ask.ad i q ∈ l ++ Ask.ad i p :: l₂ → q = p := fun q hq => h q (List.mem_cons_of_mem _ hq)
      cases x with
      | ad j q =>
        show (if i = j then q else _) = p
        split
        · rename_i hj; subst hj; exact h q List.mem_cons_self
        · exact ih hl
      | query a j => exact ih hl
  refine h3 _ (fun x hx => h2 _ hone x (List.mem_reverse.1 hx)) (List.mem_reverse.2 ?_)
  induction l₁ with
  | nil => cases hq
  | cons x l ih =>
    have hl : ∀ q, Ask.ad i q ∈ l ++ Ask.ad i p :: l₂ → q = p := fun q hq => hone q (List.mem_cons_of_mem _ hq)
    cases x with
    | ad j q =>
      rcases List.mem_cons.1 hq with e | hq
      · cases e
      · exact ih hl hq
    | query a j =>
      show p ∈ (if a = asker ∧ j = i then ports (l ++ Ask.ad i p :: l₂) i :: replies asker i (l ++ Ask.ad i p :: l₂)
        else replies asker i (l ++ Ask.ad i p :: l₂))
      split
      · rw [h4 l hl]; exact List.mem_cons_self
      · rename_i hn
        rcases List.mem_cons.1 hq with e | hq
        · cases e; exact absurd ⟨rfl, rfl⟩ hn
        · exact ih hl hq

example : resolve (replies 0 1 [.query 0 1, .query 2 1, .ad 1 15046, .query 0 1, .ad 3 15047]).reverse = some 15046 := by decide

/-- **C75** fails: a federate that is rejected tries again without end, also when the time for connecting is up, and each time leaves an
open socket behind. -/
theorem C75_rejected_federate_tries_without_end (k : Nat) : connect (List.replicate k .reject) = (.trying, k) := by
  induction k with
  | zero => rfl
  | succ k ih => rw [List.replicate_succ]; unfold connect; rw [ih]

/-- **C75** fails: when the RTI has failed, the socket is recorded although there is no connection. -/
theorem C75_unconnected_socket_is_recorded (k : Nat) :
    (connect (List.replicate k (.refused false false) ++ [.refused false true])).1 = .notConnected := by
  induction k with
  | zero => rfl
  | succ k ih => rw [List.replicate_succ, List.cons_append]; unfold connect; exact ih

/-- **C75** A federate that is acknowledged in the end, with refused attempts before, is connected, and one socket is left open for
every attempt that failed. -/
theorem C75_acknowledged_federate_is_connected (l : List Round) (h : ∀ r ∈ l, r = .refused false false ∨ r = .reject) (more : List Round) :
    connect (l ++ .ack :: more) = (.connected, l.length + 1) := by
  induction l with
  | nil => rfl
  | cons r l ih =>
    have k := ih fun r hr => h r (List.mem_cons_of_mem _ hr)
    rcases h r List.mem_cons_self with e | e <;> subst e <;> rw [List.cons_append] <;> unfold connect <;> rw [k] <;> rfl

example : connect [.refused false false, .reject, .ack] = (.connected, 3) := by decide

end ReactorC.Join.P2p
