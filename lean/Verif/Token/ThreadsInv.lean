import Verif.Token.Threads

/-! The invariant of Verif.Token.Threads. -/

set_option linter.unusedSimpArgs false
set_option linter.unusedVariables false

namespace ReactorC.Token.Threads

theorem put_same {α : Type} (f : Nat → α) (i : Nat) (v : α) : put f i v i = v := if_pos rfl

theorem put_other {α : Type} (f : Nat → α) {i j : Nat} (v : α) (h : j ≠ i) : put f i v j = f j := if_neg h

/-- How many ports hold a counted reference. -/
def holders (n : Nat) (own : Nat → Option Nat) (k : Nat) : Nat := (List.range n).countP fun q => decide (own q = some k)

theorem holders_succ (n : Nat) (own : Nat → Option Nat) (k : Nat) :
    holders (n + 1) own k = holders n own k + (if own n = some k then 1 else 0) := by
  unfold holders
  rw [List.range_succ, List.countP_append]
  simp [List.countP_cons]

theorem holders_put_ge {n : Nat} {own : Nat → Option Nat} {p : Nat} (v : Option Nat) (k : Nat) (h : n ≤ p) :
    holders n (put own p v) k = holders n own k := by
  induction n with
  | zero => rfl
  | succ n ih => rw [holders_succ, holders_succ, ih (by omega), put_other _ _ (by omega)]

theorem holders_put {n : Nat} {own : Nat → Option Nat} {p : Nat} (v : Option Nat) (k : Nat) (h : p < n) :
    holders n (put own p v) k + (if own p = some k then 1 else 0) = holders n own k + (if v = some k then 1 else 0) := by
  induction n with
  | zero => omega
  | succ n ih =>
    rw [holders_succ, holders_succ]
    by_cases e : p = n
    · subst e
      rw [put_same, holders_put_ge _ _ (Nat.le_refl _)]
      omega
    · have := ih (by omega)
      rw [put_other _ _ (Ne.symm e)]
      omega

theorem holders_pos {n : Nat} {own : Nat → Option Nat} {p k : Nat} (h : p < n) (e : own p = some k) : 0 < holders n own k := by
  unfold holders
  rw [List.countP_pos_iff]
  exact ⟨p, List.mem_range.2 h, by simpa using e⟩

theorem holders_zero {n : Nat} {own : Nat → Option Nat} {p k : Nat} (h : p < n) (e : holders n own k = 0) : own p ≠ some k := by
  intro e'
  have := holders_pos h e'
  omega

/-- A token in use, with a payload if it has a value. -/
def Good (t : Tok) : Prop := t.place = .live ∧ (t.value = true → t.payload = true)

/-- What holds where a thread is. -/
def Facts (n : Nat) (s : State) : Pc → Prop
  | .idle => True
  | .check p o m => s.own p = some o ∧ o ≠ m ∧ Good (s.tok m)
  | .load p o m => s.own p = some o ∧ o ≠ m ∧ Good (s.tok m)
  | .store p o m r => s.own p = some o ∧ o ≠ m ∧ Good (s.tok m) ∧ (s.tok o).rc = r
  | .test p o m => s.own p = none ∧ o ≠ m ∧ Good (s.tok m) ∧ Good (s.tok o)
  | .value p o m => s.own p = none ∧ o ≠ m ∧ Good (s.tok m) ∧ Good (s.tok o) ∧ (s.tok o).rc = 0
  | .free p o m => s.own p = none ∧ o ≠ m ∧ Good (s.tok m) ∧ (s.tok o).place = .live ∧ (s.tok o).payload = true ∧ (s.tok o).rc = 0
  | .null p o m => s.own p = none ∧ o ≠ m ∧ Good (s.tok m) ∧ (s.tok o).place = .live ∧ (s.tok o).rc = 0
  | .bin p o m => s.own p = none ∧ o ≠ m ∧ Good (s.tok m) ∧ (s.tok o).place = .live ∧ (s.tok o).rc = 0
  | .incLoad p m => s.own p = none ∧ Good (s.tok m)
  | .incStore p m r => s.own p = none ∧ Good (s.tok m) ∧ (s.tok m).rc = r
  | .assign p m => s.own p = none ∧ Good (s.tok m) ∧ holders n s.own m + 1 ≤ (s.tok m).rc
  | .get p o => s.own p = o
  | .reuse p o => s.own p = some o ∧ (s.tok o).rc = 1
  | .fill p k => s.own p = some k ∧ (s.tok k).rc = 1
  | .create p o => s.own p = o
  | .init p o k => s.own p = o ∧ (s.tok k).place = .live ∧ holders n s.own k = 0
  | .set p o k => Good (s.tok k) ∧ ((s.own p = some k ∧ o = none) ∨
      (s.own p = o ∧ holders n s.own k = 0 ∧ 1 ≤ (s.tok k).rc))
  | .newToken p => s.own p = s.port p
  | .newInit p k => s.own p = s.port p ∧ (s.tok k).place = .live ∧ holders n s.own k = 0

theorem Facts.frame {n : Nat} {s s' : State} {c : Pc} (h : Facts n s c)
    (ht : ∀ k ∈ c.toks, s'.tok k = s.tok k ∧ holders n s'.own k = holders n s.own k)
    (hp : ∀ p, c.port = some p → s'.own p = s.own p ∧ s'.port p = s.port p) : Facts n s' c := by
  cases c <;> simp only [Pc.toks, Pc.port, List.mem_cons, List.mem_singleton, List.not_mem_nil, forall_eq_or_imp, forall_eq,
    Option.some.injEq, forall_eq', or_false] at ht hp <;> simp only [Facts] at h ⊢
  all_goals first
    | (simp only [hp, ht]; exact h)
    | (simp only [hp, ht.1, ht.2]; exact h)
    | (simp only [hp]; exact h)
    | exact h

/-- The invariant. -/
structure Inv (n : Nat) (s : State) : Prop where
  fault : s.fault = false
  count : ∀ k, holders n s.own k ≤ (s.tok k).rc
  live : ∀ k, 0 < holders n s.own k → Good (s.tok k)
  range : ∀ i p, (s.pc i).port = some p → p < n
  alone : ∀ i j p, i ≠ j → (s.pc i).port = some p → (s.pc j).port ≠ some p
  same : ∀ q, Unset s q → s.own q = s.port q
  facts : ∀ i, Facts n s (s.pc i)

theorem Inv.start (n : Nat) : Inv n start := by
  have e : ∀ k, holders n Threads.start.own k = 0 := by
    intro k
    unfold holders
    rw [List.countP_eq_zero]
    intro q _
    simp [Threads.start]
  exact ⟨rfl, fun k => by rw [e]; exact Nat.zero_le _, (fun k h => by rw [e] at h; omega), (fun i p h => by cases h),
    (fun i j p _ h => by cases h), fun q _ => rfl, fun i => trivial⟩

/-- A step of the thread `i` that leaves what other threads work on as it is. -/
theorem Inv.of {n : Nat} {s s' : State} (h : Inv n s) (hA : Apart s) (hA' : Apart s') {i : Nat} {c : Pc}
    (hpc : s'.pc = put s.pc i c) (htok : ∀ k, k ∉ (s.pc i).toks → k ∉ c.toks → s'.tok k = s.tok k)
    (hhold : ∀ k, k ∉ (s.pc i).toks → k ∉ c.toks → holders n s'.own k = holders n s.own k)
    (hown : ∀ q, c.port ≠ some q → (s.pc i).port ≠ some q → s'.own q = s.own q ∧ s'.port q = s.port q)
    (hport : ∀ p, c.port = some p → (s.pc i).port = some p ∨ (p < n ∧ Unset s p))
    (hfault : s'.fault = false)
    (hcount : ∀ k, k ∈ (s.pc i).toks ∨ k ∈ c.toks → holders n s'.own k ≤ (s'.tok k).rc)
    (hlive : ∀ k, k ∈ (s.pc i).toks ∨ k ∈ c.toks → 0 < holders n s'.own k → Good (s'.tok k))
    (hsame : ∀ p, c.port ≠ some p → (s.pc i).port = some p → s'.own p = s'.port p)
    (hf : Facts n s' c) : Inv n s' := by
  have ei : s'.pc i = c := by rw [hpc, put_same]
  have ej : ∀ j, j ≠ i → s'.pc j = s.pc j := fun j hj => by rw [hpc, put_other _ _ hj]
  refine ⟨hfault, fun k => ?_, fun k hk => ?_, fun j p hj => ?_, fun j l p hjl hj hl => ?_, fun q hq => ?_, fun j => ?_⟩
  · by_cases hk : k ∈ (s.pc i).toks ∨ k ∈ c.toks
    · exact hcount k hk
    · have h1 : k ∉ (s.pc i).toks := fun x => hk (.inl x)
      have h2 : k ∉ c.toks := fun x => hk (.inr x)
      rw [htok k h1 h2, hhold k h1 h2]; exact h.count k
  · by_cases hk' : k ∈ (s.pc i).toks ∨ k ∈ c.toks
    · exact hlive k hk' hk
    · have h1 : k ∉ (s.pc i).toks := fun x => hk' (.inl x)
      have h2 : k ∉ c.toks := fun x => hk' (.inr x)
      rw [htok k h1 h2]
      rw [hhold k h1 h2] at hk
      exact h.live k hk
  · by_cases e : j = i
    · subst e
      rw [ei] at hj
      rcases hport p hj with k | k
      · exact h.range j p k
      · exact k.1
    · rw [ej j e] at hj; exact h.range j p hj
  · by_cases e : j = i
    · subst e
      rw [ei] at hj
      rw [ej l (Ne.symm hjl)] at hl
      rcases hport p hj with k | k
      · exact h.alone j l p hjl k hl
      · exact k.2 l hl
    · rw [ej j e] at hj
      by_cases e' : l = i
      · subst e'
        rw [ei] at hl
        rcases hport p hl with k | k
        · exact h.alone l j p (Ne.symm hjl) k hj
        · exact k.2 j hj
      · rw [ej l e'] at hl
        exact h.alone j l p hjl hj hl
  · have h1 : c.port ≠ some q := by rw [← ei]; exact hq i
    by_cases h2 : (s.pc i).port = some q
    · exact hsame q h1 h2
    · obtain ⟨k1, k2⟩ := hown q h1 h2
      rw [k1, k2]
      refine h.same q fun j => ?_
      by_cases e : j = i
      · subst e; exact h2
      · rw [← ej j e]; exact hq j
  · by_cases e : j = i
    · subst e; rw [ei]; exact hf
    · rw [ej j e]
      refine (h.facts j).frame (fun k hk => ?_) (fun p hp => ?_)
      · have h1 : k ∉ (s.pc i).toks := hA j i e k hk
        have h2 : k ∉ c.toks := by rw [← ei]; exact hA' j i e k (by rw [ej j e]; exact hk)
        exact ⟨htok k h1 h2, hhold k h1 h2⟩
      · refine hown p (fun x => ?_) (fun x => h.alone i j p (Ne.symm e) x hp)
        rcases hport p x with k | k
        · exact h.alone i j p (Ne.symm e) k hp
        · exact k.2 j hp

section
variable {n : Nat} {s s' : State}

theorem touch_fault (s : State) {k : Nat} (hf : s.fault = false) (h : (s.tok k).place = .live) : (touch s k).fault = false := by
  show (s.fault || decide ((s.tok k).place = .freed)) = false
  rw [hf, h]; rfl

/-- A step that changes nothing but where the thread is. -/
theorem Inv.moves (h : Inv n s) (hA : Apart s) {i : Nat} {c : Pc} (ht : s'.tok = s.tok) (ho : s'.own = s.own) (hp : s'.port = s.port)
    (hpc : s'.pc = put s.pc i c) (hf' : s'.fault = false) (hA' : Apart s')
    (hport : ∀ p, c.port = some p → (s.pc i).port = some p ∨ (p < n ∧ Unset s p))
    (hsame : ∀ p, c.port ≠ some p → (s.pc i).port = some p → s.own p = s.port p) (hf : Facts n s c) : Inv n s' := by
  refine h.of hA hA' hpc (fun k _ _ => by rw [ht]) (fun k _ _ => by rw [ho]) (fun q _ _ => by rw [ho, hp]; exact ⟨rfl, rfl⟩)
    hport hf' (fun k _ => by rw [ho, ht]; exact h.count k) (fun k _ hk => by rw [ho] at hk; rw [ht]; exact h.live k hk)
    (fun p h1 h2 => by rw [ho, hp]; exact hsame p h1 h2) (hf.frame (fun k _ => by rw [ht, ho]; exact ⟨rfl, rfl⟩)
      (fun p _ => by rw [ho, hp]; exact ⟨rfl, rfl⟩))

/-- A write to a token that the thread works on. -/
theorem Inv.writes (h : Inv n s) (hA : Apart s) {i : Nat} {c : Pc} {k : Nat} {t : Tok} (ht : s'.tok = put s.tok k t)
    (ho : s'.own = s.own) (hp : s'.port = s.port) (hpc : s'.pc = put s.pc i c) (hf' : s'.fault = false) (hA' : Apart s')
    (hk : k ∈ (s.pc i).toks ∨ k ∈ c.toks) (hport : c.port = (s.pc i).port)
    (hcount : holders n s.own k ≤ t.rc) (hlive : 0 < holders n s.own k → Good t) (hf : Facts n s' c) : Inv n s' := by
  have hne : ∀ k', k' ≠ k → s'.tok k' = s.tok k' := fun k' e => by rw [ht, put_other _ _ e]
  have he : s'.tok k = t := by rw [ht, put_same]
  refine h.of hA hA' hpc (fun k' h1 h2 => ?_) (fun k _ _ => by rw [ho]) (fun q _ _ => by rw [ho, hp]; exact ⟨rfl, rfl⟩)
    (fun p hp' => .inl (by rw [← hport]; exact hp')) hf' (fun k' _ => ?_) (fun k' _ hk' => ?_)
    (fun p h1 h2 => absurd (by rw [hport]; exact h2) h1) hf
  · refine hne k' fun e => ?_
    subst e
    rcases hk with x | x
    · exact h1 x
    · exact h2 x
  · rw [ho]
    by_cases e : k' = k
    · subst e; rw [he]; exact hcount
    · rw [hne k' e]; exact h.count k'
  · rw [ho] at hk'
    by_cases e : k' = k
    · subst e; rw [he]; exact hlive hk'
    · rw [hne k' e]; exact h.live k' hk'

/-- A port gets its token. -/
theorem Inv.gets (h : Inv n s) (hA : Apart s) {i p k : Nat} (ht : s'.tok = s.tok) (ho : s'.own = put s.own p (some k))
    (hp : s'.port = put s.port p (some k)) (hpc : s'.pc = put s.pc i .idle) (hf' : s'.fault = false) (hA' : Apart s')
    (hport : (s.pc i).port = some p) (hk : k ∈ (s.pc i).toks) (hold : ∀ o, s.own p = some o → o ∈ (s.pc i).toks)
    (hcount : s.own p = some k ∨ holders n s.own k + 1 ≤ (s.tok k).rc) (hgood : Good (s.tok k)) : Inv n s' := by
  have hpn := h.range i p hport
  have hh := fun x => holders_put (n := n) (own := s.own) (p := p) (some k) x hpn
  refine h.of hA hA' hpc (fun k _ _ => by rw [ht]) (fun x h1 _ => ?_) (fun q _ hq => ?_) (fun p hp => by cases hp) hf'
    (fun x _ => ?_) (fun x _ hx => ?_) (fun q _ hq => ?_) trivial
  · rw [ho]
    have := hh x
    have e1 : ¬ s.own p = some x := fun e => h1 (hold x e)
    have e2 : ¬ some k = some x := fun e => by cases e; exact h1 hk
    rw [if_neg e1, if_neg e2] at this
    omega
  · have : q ≠ p := fun e => hq (by rw [e]; exact hport)
    rw [ho, hp, put_other _ _ this, put_other _ _ this]; exact ⟨rfl, rfl⟩
  · rw [ho, ht]
    have := hh x
    have hc := h.count x
    by_cases e2 : some k = some x
    · cases e2
      rw [if_pos rfl] at this
      rcases hcount with e | e
      · rw [if_pos e] at this; omega
      · split at this <;> omega
    · rw [if_neg e2] at this
      split at this <;> omega
  · rw [ho] at hx
    rw [ht]
    by_cases e2 : some k = some x
    · cases e2; exact hgood
    · have := hh x
      rw [if_neg e2] at this
      refine h.live x ?_
      split at this <;> omega
  · rw [hport] at hq
    cases hq
    rw [ho, hp, put_same, put_same]

theorem Inv.good_port (h : Inv n s) {p o : Nat} (hp : p < n) (e : s.own p = some o) : Good (s.tok o) :=
  h.live o (holders_pos hp e)

theorem goto_pc (s : State) (i : Nat) (c : Pc) : (goto s i c).pc = put s.pc i c := rfl

/-- `_lf_replace_template_token` is called. -/
theorem Inv.replaces {s0 : State} (h : Inv n s) (hA : Apart s) {i p k : Nat} (ht : s0.tok = put s.tok k (s0.tok k)) (ho : s0.own = s.own)
    (hp : s0.port = s.port) (hpc : s0.pc = s.pc) (hf' : s0.fault = false) (hA' : Apart (replace s0 i p k))
    (hport : (s.pc i).port = some p ∨ (p < n ∧ Unset s p ∧ s.pc i = .idle)) (hown : s.own p = s.port p) (hgood : Good (s0.tok k))
    (hk : s0.tok k = s.tok k ∨ (k ∈ (s.pc i).toks ∧ holders n s.own k = 0)) :
    Inv n (replace s0 i p k) := by
  have hpn : p < n := by
    rcases hport with x | x
    · exact h.range i p x
    · exact x.1
  have hoth : ∀ q, (s.pc i).port = some q → q = p := by
    intro q hq
    rcases hport with x | x
    · rw [x] at hq; cases hq; rfl
    · rw [x.2.2] at hq; cases hq
  have hport' : ∀ q, some p = some q → (s.pc i).port = some q ∨ (q < n ∧ Unset s q) := by
    intro q e
    cases e
    rcases hport with x | x
    · exact .inl x
    · exact .inr ⟨x.1, x.2.1⟩
  have hne : ∀ k', k' ≠ k → s0.tok k' = s.tok k' := fun k' e => by rw [ht, put_other _ _ e]
  have key : ∀ c : Pc, replace s0 i p k = goto s0 i c → (c.port = some p ∨ c.port = none) → Facts n s0 c → Inv n (replace s0 i p k) := by
    intro c e hc hf
    rw [e] at hA' ⊢
    refine h.of hA hA' (by rw [goto_pc, hpc]) (fun k' h1 h2 => ?_) (fun k' _ _ => by show holders n s0.own k' = _; rw [ho]) (fun q _ _ => by
      show s0.own q = _ ∧ s0.port q = _; rw [ho, hp]; exact ⟨rfl, rfl⟩) (fun q hq => ?_) hf' (fun k' _ => ?_) (fun k' _ hk' => ?_)
      (fun q h1 h2 => ?_) (hf.frame (fun _ _ => ⟨rfl, rfl⟩) (fun _ _ => ⟨rfl, rfl⟩))
    · show s0.tok k' = s.tok k'
      by_cases e : k' = k
      · subst e
        rcases hk with x | x
        · exact x
        · exact absurd x.1 h1
      · exact hne k' e
    · rcases hc with x | x
      · exact hport' q (by rw [← x]; exact hq)
      · rw [x] at hq; cases hq
    · show holders n s0.own k' ≤ (s0.tok k').rc
      rw [ho]
      by_cases e : k' = k
      · subst e
        rcases hk with x | x
        · rw [x]; exact h.count k'
        · rw [x.2]; exact Nat.zero_le _
      · rw [hne k' e]; exact h.count k'
    · replace hk' : 0 < holders n s0.own k' := hk'
      show Good (s0.tok k')
      rw [ho] at hk'
      by_cases e : k' = k
      · subst e; exact hgood
      · rw [hne k' e]; exact h.live k' hk'
    · show s0.own q = s0.port q
      rw [ho, hp, hoth q h2]; exact hown
  have e0 : s0.own p = s0.port p := by rw [ho, hp]; exact hown
  unfold replace at key ⊢
  split
  · rename_i old eo
    simp only [eo] at key
    split
    · rename_i e
      rw [if_pos e] at key
      exact key .idle rfl (.inr rfl) trivial
    · rename_i e
      rw [if_neg e] at key
      exact key (.check p old k) rfl (.inl rfl) ⟨by rw [e0]; exact eo, e, hgood⟩
  · rename_i eo
    simp only [eo] at key
    exact key (.incLoad p k) rfl (.inl rfl) ⟨by rw [e0]; exact eo, hgood⟩

theorem freePayload_fault {k : Nat} (hf : s.fault = false) (h : (s.tok k).place = .live) (hp : (s.tok k).payload = true) :
    (freePayload s k).fault = false := by
  show (s.fault || decide ((s.tok k).place = .freed) || !(s.tok k).payload) = false
  rw [hf, h, hp]; rfl

/-- One step of a thread. -/
theorem Inv.next (h : Inv n s) (hA : Apart s) {i k : Nat} {full : Bool} (e : next s i k full = some s') (hA' : Apart s') : Inv n s' := by
  have hf := h.facts i
  have hr := h.range i
  unfold Threads.next at e
  split at e <;> rename_i epc <;> rw [epc] at hf hr <;> simp only [Facts] at hf <;> simp only [Pc.port, Option.some.injEq, forall_eq'] at hr
  · cases e
  · rename_i p o m
    cases e
    have hg := h.good_port hr hf.1
    have hc := h.count o
    have hp := holders_pos hr hf.1
    have hne : (s.tok o).rc ≠ 0 := by omega
    rw [if_neg hne] at hA' ⊢
    exact h.moves hA rfl rfl rfl rfl (touch_fault s h.fault hg.1) hA' (fun q hq => .inl (by rw [epc]; exact hq))
      (fun q h1 h2 => absurd (by rw [epc] at h2; exact h2) h1) hf
  · rename_i p o m
    cases e
    have hg := h.good_port hr hf.1
    exact h.moves hA rfl rfl rfl rfl (touch_fault s h.fault hg.1) hA' (fun q hq => .inl (by rw [epc]; exact hq))
      (fun q h1 h2 => absurd (by rw [epc] at h2; exact h2) h1) ⟨hf.1, hf.2.1, hf.2.2, rfl⟩
  · rename_i p o m r
    cases e
    obtain ⟨h1, h2, h3, h4⟩ := hf
    have hg := h.good_port hr h1
    have hh := fun x => holders_put (n := n) (own := s.own) (p := p) none x hr
    have hto : put s.tok o { s.tok o with rc := r - 1 } o = { s.tok o with rc := r - 1 } := put_same _ _ _
    have htn : ∀ x, x ≠ o → put s.tok o { s.tok o with rc := r - 1 } x = s.tok x := fun x e => put_other _ _ e
    refine h.of hA hA' (c := .test p o m) rfl (fun x hx _ => ?_) (fun x hx _ => ?_) (fun q _ hq => ?_) (fun q hq => .inl (by rw [epc]; exact hq))
      (touch_fault s h.fault hg.1) (fun x _ => ?_) (fun x _ hx => ?_) (fun q h1 h2 => absurd (by rw [epc] at h2; exact h2) h1) ?_
    · rw [epc] at hx
      exact htn x fun e => hx (by rw [e]; exact List.mem_cons_self)
    · rw [epc] at hx
      have := hh x
      have e1 : ¬ s.own p = some x := fun e => hx (by rw [h1] at e; cases e; exact List.mem_cons_self)
      rw [if_neg e1] at this
      simp at this
      exact this
    · rw [epc] at hq
      have : q ≠ p := fun e => hq (by rw [e]; rfl)
      exact ⟨put_other _ _ this, rfl⟩
    · show holders n (put s.own p none) x ≤ (put s.tok o { s.tok o with rc := r - 1 } x).rc
      have := hh x
      have hc := h.count x
      by_cases ex : x = o
      · subst ex
        rw [hto]
        rw [if_pos h1] at this
        simp at this
        show _ ≤ r - 1
        omega
      · rw [htn x ex]
        simp at this
        split at this <;> omega
    · show Good (put s.tok o { s.tok o with rc := r - 1 } x)
      replace hx : 0 < holders n (put s.own p none) x := hx
      by_cases ex : x = o
      · subst ex; rw [hto]; exact hg
      · rw [htn x ex]
        have := hh x
        simp at this
        refine h.live x ?_
        split at this <;> omega
    · refine ⟨put_same _ _ _, h2, ?_, ?_⟩
      · show Good (put s.tok o { s.tok o with rc := r - 1 } m)
        rw [htn m (Ne.symm h2)]; exact h3
      · show Good (put s.tok o { s.tok o with rc := r - 1 } o)
        rw [hto]; exact hg
  · rename_i p o m
    cases e
    obtain ⟨h1, h2, h3, h4⟩ := hf
    refine h.moves hA rfl rfl rfl rfl (touch_fault s h.fault h4.1) hA' ?_ ?_ ?_
    · intro q hq; rw [epc]; split at hq <;> exact .inl hq
    · intro q k1 k2; rw [epc] at k2; split at k1 <;> exact absurd k2 k1
    · split
      · exact ⟨h1, h3⟩
      · rename_i e; exact ⟨h1, h2, h3, h4, by omega⟩
  · rename_i p o m
    cases e
    obtain ⟨h1, h2, h3, h4, h5⟩ := hf
    refine h.moves hA rfl rfl rfl rfl (touch_fault s h.fault h4.1) hA' ?_ ?_ ?_
    · intro q hq; rw [epc]; split at hq <;> exact .inl hq
    · intro q k1 k2; rw [epc] at k2; split at k1 <;> exact absurd k2 k1
    · split
      · rename_i e; exact ⟨h1, h2, h3, h4.1, h4.2 e, h5⟩
      · exact ⟨h1, h2, h3, h4.1, h5⟩
  · rename_i p o m
    cases e
    obtain ⟨h1, h2, h3, h4, h5, h6⟩ := hf
    have hz : holders n s.own o = 0 := by have := h.count o; omega
    refine h.writes hA (k := o) rfl rfl rfl rfl (freePayload_fault h.fault h4 h5) hA' (by rw [epc]; exact .inl List.mem_cons_self)
      (by rw [epc]; rfl) (by rw [hz]; exact Nat.zero_le _) (fun x => by omega) ⟨h1, h2, ?_, ?_⟩
    · show Good (put s.tok o _ m)
      rw [put_other _ _ (Ne.symm h2)]; exact h3
    · show (put s.tok o _ o).place = _ ∧ (put s.tok o _ o).rc = 0
      rw [put_same]; exact ⟨h4, h6⟩
  · rename_i p o m
    cases e
    obtain ⟨h1, h2, h3, h4, h6⟩ := hf
    have hz : holders n s.own o = 0 := by have := h.count o; omega
    refine h.writes hA (k := o) rfl rfl rfl rfl (touch_fault s h.fault h4) hA' (by rw [epc]; exact .inl List.mem_cons_self)
      (by rw [epc]; rfl) (by rw [hz]; exact Nat.zero_le _) (fun x => by omega) ⟨h1, h2, ?_, ?_⟩
    · show Good (put s.tok o _ m)
      rw [put_other _ _ (Ne.symm h2)]; exact h3
    · show (put s.tok o _ o).place = _ ∧ (put s.tok o _ o).rc = 0
      rw [put_same]; exact ⟨h4, h6⟩
  · rename_i p o m
    cases e
    obtain ⟨h1, h2, h3, h4, h6⟩ := hf
    have hz : holders n s.own o = 0 := by have := h.count o; omega
    refine h.writes hA (k := o) rfl rfl rfl rfl (touch_fault s h.fault h4) hA' (by rw [epc]; exact .inl List.mem_cons_self)
      (by rw [epc]; rfl) (by rw [hz]; exact Nat.zero_le _) (fun x => by omega) ⟨h1, ?_⟩
    show Good (put s.tok o _ m)
    rw [put_other _ _ (Ne.symm h2)]; exact h3
  · rename_i p m
    cases e
    exact h.moves hA rfl rfl rfl rfl (touch_fault s h.fault hf.2.1) hA' (fun q hq => .inl (by rw [epc]; exact hq))
      (fun q h1 h2 => absurd (by rw [epc] at h2; exact h2) h1) ⟨hf.1, hf.2, rfl⟩
  · rename_i p m r
    cases e
    obtain ⟨h1, h2, h3⟩ := hf
    have hc := h.count m
    refine h.writes hA (k := m) rfl rfl rfl rfl (touch_fault s h.fault h2.1) hA' (by rw [epc]; exact .inl List.mem_cons_self)
      (by rw [epc]; rfl) (by show _ ≤ r + 1; omega) (fun _ => h2) ⟨h1, ?_⟩
    show Good (put s.tok m _ m) ∧ _ ≤ (put s.tok m _ m).rc
    rw [put_same]
    exact ⟨h2, by show holders n s.own m + 1 ≤ r + 1; omega⟩
  · rename_i p m
    cases e
    obtain ⟨h1, h2, h3⟩ := hf
    exact h.gets hA rfl rfl rfl rfl h.fault hA' (by rw [epc]; rfl) (by rw [epc]; exact List.mem_cons_self)
      (fun o e => by rw [h1] at e; cases e) (.inr h3) h2
  · rename_i p o
    split at e
    · rename_i o
      cases e
      have hg := h.good_port hr hf
      refine h.moves hA rfl rfl rfl rfl (touch_fault s h.fault hg.1) hA' ?_ ?_ ?_
      · intro q hq; rw [epc]; split at hq <;> exact .inl hq
      · intro q k1 k2; rw [epc] at k2; split at k1 <;> exact absurd k2 k1
      · split
        · rename_i e; exact ⟨hf, e⟩
        · exact hf
    · cases e
      exact h.moves hA rfl rfl rfl rfl h.fault hA' (fun q hq => .inl (by rw [epc]; exact hq))
        (fun q h1 h2 => absurd (by rw [epc] at h2; exact h2) h1) hf
  · rename_i p o
    obtain ⟨h1, h2⟩ := hf
    have hg := h.good_port hr h1
    have hc := h.count o
    split at e
    · rename_i ev
      cases e
      have hpay := hg.2 ev
      refine h.writes hA (k := o) (t := { s.tok o with payload := false, value := false }) ?_ rfl rfl rfl ?_ hA'
        (by rw [epc]; exact .inl List.mem_cons_self) (by rw [epc]; rfl) hc (fun _ => ⟨hg.1, fun x => by cases x⟩) ⟨h1, ?_⟩
      · show put (put s.tok o _) o _ = put s.tok o _
        funext x
        by_cases ex : x = o
        · subst ex
          simp only [put_same]
          show ({ put s.tok x { s.tok x with payload := false } x with value := false } : Tok) = _
          rw [put_same]
        · simp only [put_other _ _ ex]
      · show ((freePayload s o).fault || decide ((put s.tok o { s.tok o with payload := false } o).place = .freed)) = false
        rw [freePayload_fault h.fault hg.1 hpay, put_same]
        show (false || decide ((s.tok o).place = .freed)) = false
        rw [hg.1]; rfl
      · show (put (put s.tok o _) o _ o).rc = 1
        rw [put_same]
        show (put s.tok o { s.tok o with payload := false } o).rc = 1
        rw [put_same]; exact h2
    · cases e
      exact h.moves hA rfl rfl rfl rfl h.fault hA' (fun q hq => .inl (by rw [epc]; exact hq))
        (fun q h1 h2 => absurd (by rw [epc] at h2; exact h2) h1) ⟨h1, h2⟩
  · rename_i p k'
    cases e
    obtain ⟨h1, h2⟩ := hf
    have hg := h.good_port hr h1
    have hc := h.count k'
    refine h.writes hA (k := k') rfl rfl rfl rfl (touch_fault s h.fault hg.1) hA' (by rw [epc]; exact .inl List.mem_cons_self)
      (by rw [epc]; rfl) hc (fun _ => ⟨hg.1, fun _ => rfl⟩) ⟨?_, .inl ⟨h1, rfl⟩⟩
    show Good (put s.tok k' _ k')
    rw [put_same]; exact ⟨hg.1, fun _ => rfl⟩
  · rename_i p o
    split at e
    · cases e
    · rename_i hpl
      cases e
      have hz : holders n s.own k = 0 := by
        by_contra hne
        exact hpl (h.live k (by omega)).1
      refine h.writes hA (k := k) rfl rfl rfl rfl h.fault hA' (.inr List.mem_cons_self) (by rw [epc]; rfl) (by rw [hz]; exact Nat.zero_le _)
        (fun x => by omega) ⟨hf, ?_, hz⟩
      show (put s.tok k _ k).place = _
      rw [put_same]
  · rename_i p o k'
    cases e
    obtain ⟨h1, h2, h3⟩ := hf
    refine h.writes hA (k := k') rfl rfl rfl rfl (touch_fault s h.fault h2) hA' (by rw [epc]; exact .inl List.mem_cons_self)
      (by rw [epc]; rfl) (by rw [h3]; exact Nat.zero_le _) (fun x => by omega) ⟨?_, .inr ⟨h1, h3, ?_⟩⟩
    · show Good (put s.tok k' _ k')
      rw [put_same]; exact ⟨h2, fun _ => rfl⟩
    · show 1 ≤ (put s.tok k' _ k').rc
      rw [put_same]; exact Nat.le_refl _
  · rename_i p o k'
    cases e
    obtain ⟨h1, h2⟩ := hf
    refine h.gets hA rfl rfl rfl rfl h.fault hA' (by rw [epc]; rfl) (by rw [epc]; exact List.mem_cons_self) (fun x ex => ?_) ?_ h1
    · rw [epc]
      rcases h2 with ⟨k1, k2⟩ | ⟨k1, k2, k3⟩
      · rw [k1] at ex; cases ex; exact List.mem_cons_self
      · rw [k1] at ex; rw [ex]; exact List.mem_cons_of_mem _ (List.mem_singleton.2 rfl)
    · rcases h2 with ⟨k1, k2⟩ | ⟨k1, k2, k3⟩
      · exact .inl k1
      · exact .inr (by omega)
  · rename_i p
    split at e
    · cases e
    · rename_i hpl
      cases e
      have hz : holders n s.own k = 0 := by
        by_contra hne
        exact hpl (h.live k (by omega)).1
      refine h.writes hA (k := k) rfl rfl rfl rfl h.fault hA' (.inr List.mem_cons_self) (by rw [epc]; rfl) (by rw [hz]; exact Nat.zero_le _)
        (fun x => by omega) ⟨hf, ?_, hz⟩
      show (put s.tok k _ k).place = _
      rw [put_same]
  · rename_i p k'
    cases e
    obtain ⟨h1, h2, h3⟩ := hf
    refine h.replaces hA (s0 := write s k' { place := (s.tok k').place, rc := 0, value := true, payload := true }) ?_ rfl rfl rfl
      (touch_fault s h.fault h2) hA' (.inl (by rw [epc]; rfl)) h1 ?_ (.inr ⟨by rw [epc]; exact List.mem_cons_self, h3⟩)
    · show put s.tok k' _ = put s.tok k' (put s.tok k' _ k')
      rw [put_same]
    · show Good (put s.tok k' _ k')
      rw [put_same]; exact ⟨h2, fun _ => rfl⟩

/-- One act. -/
theorem Inv.step (h : Inv n s) (hA : Apart s) {a : Act} (hp : Pre n s a) (e : exec s a = some s') (hA' : Apart s') : Inv n s' := by
  cases a with
  | forward i p q k =>
    cases e
    obtain ⟨h1, h2, h3, h4, h5, h6⟩ := hp
    have hq : s.own q = some k := by rw [h.same q h5]; exact h6
    refine h.replaces hA ?_ rfl rfl rfl h.fault hA' (.inr ⟨h2, h4, h1⟩) (h.same p h4) (h.good_port h3 hq) (.inl rfl)
    funext x
    by_cases ex : x = k
    · subst ex; rw [put_same]
    · rw [put_other _ _ ex]
  | set i p =>
    cases e
    obtain ⟨h1, h2, h3⟩ := hp
    refine h.moves hA rfl rfl rfl rfl h.fault hA' (fun q hq => ?_) (fun q _ hq => by rw [h1] at hq; cases hq) (h.same p h3)
    cases hq; exact .inr ⟨h2, h3⟩
  | send i p =>
    cases e
    obtain ⟨h1, h2, h3⟩ := hp
    refine h.moves hA rfl rfl rfl rfl h.fault hA' (fun q hq => ?_) (fun q _ hq => by rw [h1] at hq; cases hq) (h.same p h3)
    cases hq; exact .inr ⟨h2, h3⟩
  | go i k full => exact h.next hA e hA'

theorem replace_other {s : State} {i p k j : Nat} (h : j ≠ i) : (replace s i p k).pc j = s.pc j := by
  unfold replace
  split
  · split <;> exact put_other _ _ h
  · exact put_other _ _ h

theorem exec_other {a : Act} (e : exec s a = some s') {j : Nat} (h : j ≠ a.thread) : s'.pc j = s.pc j := by
  cases a with
  | forward i p q k => cases e; exact replace_other h
  | set i p => cases e; exact put_other _ _ h
  | send i p => cases e; exact put_other _ _ h
  | go i k full =>
    replace h : j ≠ i := h
    replace e : Threads.next s i k full = some s' := e
    unfold Threads.next at e
    split at e
    all_goals try split at e
    all_goals first
      | (cases e; done)
      | (cases e; exact put_other _ _ h)
      | (cases e; exact replace_other h)

/-- The acts of a program leave its threads apart. -/
def Keeps (s : State) (a : Act) : Prop := ∀ s', exec s a = some s' → Apart s'

theorem Reach.apart (h : Reach n Keeps s) : Apart s := by
  cases h with
  | start => intro i j _ k hk; cases hk
  | step a _ _ hA e => exact hA _ e

theorem Reach.inv (h : Reach n Keeps s) : Inv n s := by
  induction h with
  | start => exact Inv.start n
  | step a hr hp hA e ih => exact ih.step hr.apart hp e (hA _ e)

end

end ReactorC.Token.Threads
