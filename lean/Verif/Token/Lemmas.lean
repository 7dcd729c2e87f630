import Verif.Token.Spec
import Mathlib.Tactic.Common
import Mathlib.Data.List.Nodup
import Mathlib.Data.List.Perm.Subperm

/-! # Invariants of the token memory -/

namespace ReactorC.Token

theorem upd_same {α : Type} (f : Nat → α) (i : Nat) (v : α) : upd f i v i = v := by simp [upd]

theorem upd_other {α : Type} (f : Nat → α) {i j : Nat} (v : α) (h : j ≠ i) : upd f i v j = f j := by
  simp [upd, h]

/-- Consistency of the token memory when `H k` references to token `k` are to be honoured and the
tokens in `U` are in the hands of reactions without being counted. -/
structure Mem (s : State) (H : Nat → Nat) (U : Nat → Prop) : Prop where
  live : ∀ k, 0 < H k → (s.tok k).st = .live
  count : ∀ k, H k ≤ (s.tok k).rc
  uncounted : ∀ k, U k → (s.tok k).st = .live
  inj : ∀ k k' p, (s.tok k).val = some p → (s.tok k').val = some p → k = k'
  alloc : ∀ k p, (s.tok k).val = some p → s.pay p ≠ none
  dead : ∀ k, (s.tok k).st ≠ .live → (s.tok k).val = none ∧ (s.tok k).rc = 0
  bin : ∀ k, k ∈ s.bin ↔ (s.tok k).st = .bin
  nodup : s.bin.Nodup
  freshTok : ∀ k, s.nTok ≤ k → (s.tok k).st = .freed
  freshPay : ∀ p, s.nPay ≤ p → s.pay p = none
  ok : s.fault = false

theorem Mem.weaken {s : State} {H H' : Nat → Nat} {U U' : Nat → Prop} (h : Mem s H U) (hH : ∀ k, H' k ≤ H k)
    (hU : ∀ k, U' k → U k) : Mem s H' U' :=
  { h with
    live := fun k hk => h.live k (Nat.lt_of_lt_of_le hk (hH k))
    count := fun k => Nat.le_trans (hH k) (h.count k)
    uncounted := fun k hk => h.uncounted k (hU k hk) }

/-- `Mem` does not look at the holders' own data. -/
theorem Mem.congr {s s' : State} {H : Nat → Nat} {U : Nat → Prop} (h : Mem s H U) (h1 : s'.tok = s.tok)
    (h2 : s'.pay = s.pay) (h3 : s'.bin = s.bin) (h4 : s'.nTok = s.nTok) (h5 : s'.nPay = s.nPay)
    (h6 : s'.fault = s.fault) : Mem s' H U := by
  obtain ⟨a, b, c, d, e, f, g, i, j, k, l⟩ := h
  constructor
  · rw [h1]; exact a
  · rw [h1]; exact b
  · rw [h1]; exact c
  · rw [h1]; exact d
  · rw [h1, h2]; exact e
  · rw [h1]; exact f
  · rw [h1, h3]; exact g
  · rw [h3]; exact i
  · rw [h1, h4]; exact j
  · rw [h2, h5]; exact k
  · rw [h6]; exact l

theorem Mem.touch {s : State} {H : Nat → Nat} {U : Nat → Prop} (h : Mem s H U) {k : Nat}
    (hk : (s.tok k).st ≠ .freed) : Mem (touch s k) H U :=
  h.congr rfl rfl rfl rfl rfl (by simp [Token.touch, hk])

/-- Freeing the value of a live token. -/
theorem Mem.freeValue {s : State} {H : Nat → Nat} {U : Nat → Prop} (h : Mem s H U) (k : Nat) :
    Mem (freeValue s k) H U := by
  unfold Token.freeValue
  cases hv : (s.tok k).val with
  | none => exact h
  | some p =>
    have hst : ∀ j, (upd s.tok k { s.tok k with val := none } j).st = (s.tok j).st := by
      intro j; by_cases hj : j = k
      · subst hj; simp [upd_same]
      · simp [upd_other _ _ hj]
    have hrc : ∀ j, (upd s.tok k { s.tok k with val := none } j).rc = (s.tok j).rc := by
      intro j; by_cases hj : j = k
      · subst hj; simp [upd_same]
      · simp [upd_other _ _ hj]
    have hval : ∀ j q, (upd s.tok k { s.tok k with val := none } j).val = some q → j ≠ k ∧ (s.tok j).val = some q := by
      intro j q hq; by_cases hj : j = k
      · subst hj; simp [upd_same] at hq
      · rw [upd_other _ _ hj] at hq; exact ⟨hj, hq⟩
    refine ⟨?_, ?_, ?_, ?_, ?_, ?_, ?_, h.nodup, ?_, ?_, ?_⟩
    · intro j hj; rw [hst]; exact h.live j hj
    · intro j; rw [hrc]; exact h.count j
    · intro j hj; rw [hst]; exact h.uncounted j hj
    · intro i j q hi hj; exact h.inj i j q (hval i q hi).2 (hval j q hj).2
    · intro j q hq
      obtain ⟨hne, hq'⟩ := hval j q hq
      have hpq : q ≠ p := by intro hpq; rw [hpq] at hq'; exact hne (h.inj j k _ hq' hv)
      simp only [upd_other _ _ hpq]; exact h.alloc j q hq'
    · intro j hj
      rw [hst] at hj
      obtain ⟨h1, h2⟩ := h.dead j hj
      refine ⟨?_, by rw [hrc]; exact h2⟩
      by_cases hjk : j = k
      · subst hjk; simp [upd_same]
      · simp only [upd_other _ _ hjk]; exact h1
    · intro j; rw [hst]; exact h.bin j
    · intro j hj; rw [hst]; exact h.freshTok j hj
    · intro q hq
      by_cases hpq : q = p
      · subst hpq; simp [upd_same]
      · simp only [upd_other _ _ hpq]; exact h.freshPay q hq
    · have := h.alloc k p hv
      simp only [h.ok, Bool.false_or]
      cases hp : s.pay p with
      | none => exact absurd hp this
      | some c => rfl

theorem freeValue_tok (s : State) (k j : Nat) :
    ((freeValue s k).tok j).st = (s.tok j).st ∧ ((freeValue s k).tok j).rc = (s.tok j).rc ∧
    ((freeValue s k).tok j).len = (s.tok j).len ∧
    ((freeValue s k).tok j).val = if j = k then none else (s.tok j).val := by
  unfold freeValue
  cases hv : (s.tok k).val with
  | none =>
    simp only [true_and]
    by_cases hj : j = k
    · subst hj; simp [hv]
    · simp [hj]
  | some p =>
    by_cases hj : j = k
    · subst hj; simp [upd_same]
    · simp [upd_other _ _ hj, hj]

theorem freeValue_pay (s : State) (k p : Nat) (h : (s.tok k).val ≠ some p) : (freeValue s k).pay p = s.pay p := by
  unfold freeValue
  cases hv : (s.tok k).val with
  | none => rfl
  | some q =>
    have : p ≠ q := by rintro rfl; exact h hv
    simp [upd_other _ _ this]

theorem freeValue_bin (s : State) (k : Nat) : (freeValue s k).bin = s.bin := by
  unfold freeValue; cases (s.tok k).val <;> rfl

/-- The parts of the state the memory functions leave alone. -/
structure SameHolders (s s' : State) : Prop where
  tmpl : s'.tmpl = s.tmpl
  queue : s'.queue = s.queue
  copies : s'.copies = s.copies
  nxt : s'.nxt = s.nxt
  user : s'.user = s.user

theorem SameHolders.refl (s : State) : SameHolders s s := ⟨rfl, rfl, rfl, rfl, rfl⟩

theorem SameHolders.trans {a b c : State} (h1 : SameHolders a b) (h2 : SameHolders b c) : SameHolders a c :=
  ⟨h2.tmpl.trans h1.tmpl, h2.queue.trans h1.queue, h2.copies.trans h1.copies, h2.nxt.trans h1.nxt, h2.user.trans h1.user⟩

theorem freeValue_same (s : State) (k : Nat) : SameHolders s (freeValue s k) := by
  unfold freeValue; cases (s.tok k).val <;> exact ⟨rfl, rfl, rfl, rfl, rfl⟩

theorem freeToken_same (s : State) (k : Nat) : SameHolders s (freeToken s k) := by
  unfold freeToken
  split
  · exact SameHolders.refl s
  · have := freeValue_same s k
    simp only
    split <;> exact ⟨this.tmpl, this.queue, this.copies, this.nxt, this.user⟩

theorem doneUsing_same (s : State) (k : Nat) : SameHolders s (doneUsing s k) := by
  unfold doneUsing
  simp only
  split
  · exact ⟨rfl, rfl, rfl, rfl, rfl⟩
  · obtain ⟨a, b, c, d, e⟩ := freeToken_same
      { touch s k with tok := upd (touch s k).tok k { (touch s k).tok k with rc := ((touch s k).tok k).rc - 1 } } k
    exact ⟨a, b, c, d, e⟩

/-- Reference function with one reference to `k` less. -/
def dec (H : Nat → Nat) (k : Nat) : Nat → Nat := fun j => if j = k then H j - 1 else H j

/-- Reference function with one reference to `k` more. -/
def inc (H : Nat → Nat) (k : Nat) : Nat → Nat := fun j => if j = k then H j + 1 else H j

/-- Releasing one of the references honoured. -/
theorem Mem.doneUsing {s : State} {H : Nat → Nat} {U : Nat → Prop} (h : Mem s H U) {k : Nat} (hk : 0 < H k)
    (hU : ¬ U k) : Mem (doneUsing s k) (dec H k) U := by
  have hlive := h.live k hk
  have hcount := h.count k
  have h1 : Mem (Token.touch s k) H U := h.touch (by rw [hlive]; decide)
  unfold Token.doneUsing
  simp only
  have htok : (Token.touch s k).tok = s.tok := rfl
  rw [htok, if_neg (by omega)]
  -- the state with the decremented count
  obtain ⟨s2, hs2⟩ : ∃ s2, s2 = { Token.touch s k with tok := upd s.tok k { s.tok k with rc := (s.tok k).rc - 1 } } :=
    ⟨_, rfl⟩
  rw [← hs2]
  have htk : ∀ j, j ≠ k → s2.tok j = s.tok j := by
    intro j hj; rw [hs2]; exact upd_other _ _ hj
  have htkk : s2.tok k = { s.tok k with rc := (s.tok k).rc - 1 } := by rw [hs2]; exact upd_same _ _ _
  have hst : ∀ j, (s2.tok j).st = (s.tok j).st := by
    intro j; by_cases hj : j = k
    · subst hj; rw [htkk]
    · rw [htk j hj]
  have hval : ∀ j, (s2.tok j).val = (s.tok j).val := by
    intro j; by_cases hj : j = k
    · subst hj; rw [htkk]
    · rw [htk j hj]
  have hm2 : Mem s2 (dec H k) U := by
    have e1 : s2.pay = s.pay := by rw [hs2]; rfl
    have e2 : s2.bin = s.bin := by rw [hs2]; rfl
    have e3 : s2.nTok = s.nTok := by rw [hs2]; rfl
    have e4 : s2.nPay = s.nPay := by rw [hs2]; rfl
    have e5 : s2.fault = (Token.touch s k).fault := by rw [hs2]
    refine ⟨?_, ?_, ?_, ?_, ?_, ?_, ?_, ?_, ?_, ?_, ?_⟩
    · intro j hj; rw [hst]; apply h.live; simp only [dec] at hj; split at hj <;> omega
    · intro j
      by_cases hj : j = k
      · subst hj; rw [htkk]; simp only [dec, if_true]; omega
      · rw [htk j hj]; simp only [dec, hj, if_false]; exact h.count j
    · intro j hj; rw [hst]; exact h.uncounted j hj
    · intro i j p; rw [hval, hval]; exact h.inj i j p
    · intro j p; rw [hval, e1]; exact h.alloc j p
    · intro j hj
      rw [hst] at hj
      obtain ⟨a, b⟩ := h.dead j hj
      refine ⟨by rw [hval]; exact a, ?_⟩
      by_cases hjk : j = k
      · subst hjk; rw [htkk]; simp only; omega
      · rw [htk j hjk]; exact b
    · intro j; rw [hst, e2]; exact h.bin j
    · rw [e2]; exact h.nodup
    · intro j; rw [hst, e3]; exact h.freshTok j
    · intro p; rw [e1, e4]; exact h.freshPay p
    · rw [e5]; exact h1.ok
  unfold freeToken
  split
  · exact hm2
  · rename_i hrc
    have hz : (s2.tok k).rc = 0 := by omega
    have hm3 := hm2.freeValue k
    have hfv := freeValue_tok s2 k
    have hHk : dec H k k = 0 := by
      have := hm2.count k; omega
    have hbk : k ∉ (Token.freeValue s2 k).bin := by
      rw [hm3.bin, (hfv k).1, hst, hlive]; decide
    have hck : ∀ (st' : St), st' ≠ .live → ∀ j, j ≠ k →
        (upd (Token.freeValue s2 k).tok k { (Token.freeValue s2 k).tok k with st := st' } j) = (Token.freeValue s2 k).tok j := by
      intro st' _ j hj; exact upd_other _ _ hj
    simp only
    rw [if_neg hbk]
    split
    · refine ⟨?_, ?_, ?_, ?_, ?_, ?_, ?_, ?_, ?_, hm3.freshPay, hm3.ok⟩
      · intro j hj
        have hjk : j ≠ k := by rintro rfl; omega
        simp only [upd_other _ _ hjk]; exact hm3.live j hj
      · intro j
        by_cases hjk : j = k
        · subst hjk; simp only [upd_same]; exact hm3.count j
        · simp only [upd_other _ _ hjk]; exact hm3.count j
      · intro j hj
        have hjk : j ≠ k := by rintro rfl; exact hU hj
        simp only [upd_other _ _ hjk]; exact hm3.uncounted j hj
      · intro i j p hi hj
        have hv : ∀ i, (upd (Token.freeValue s2 k).tok k { (Token.freeValue s2 k).tok k with st := .bin } i).val =
            ((Token.freeValue s2 k).tok i).val := by
          intro i; by_cases hik : i = k
          · subst hik; simp [upd_same]
          · simp [upd_other _ _ hik]
        rw [hv] at hi hj; exact hm3.inj i j p hi hj
      · intro j p hj
        by_cases hjk : j = k
        · subst hjk; simp only [upd_same] at hj; exact hm3.alloc j p hj
        · simp only [upd_other _ _ hjk] at hj; exact hm3.alloc j p hj
      · intro j hj
        by_cases hjk : j = k
        · subst hjk
          simp only [upd_same]
          rw [(hfv j).2.2.2, (hfv j).2.1]; simp [hz]
        · simp only [upd_other _ _ hjk] at hj ⊢; exact hm3.dead j hj
      · intro j
        by_cases hjk : j = k
        · subst hjk; simp [upd_same]
        · simp only [upd_other _ _ hjk, List.mem_cons, hjk, false_or]; exact hm3.bin j
      · exact List.nodup_cons.mpr ⟨hbk, hm3.nodup⟩
      · intro j hj
        have hjk : j ≠ k := by
          rintro rfl
          have := hm3.freshTok j hj
          rw [(hfv j).1, hst, hlive] at this; cases this
        simp only [upd_other _ _ hjk]; exact hm3.freshTok j hj
    · refine ⟨?_, ?_, ?_, ?_, ?_, ?_, ?_, hm3.nodup, ?_, hm3.freshPay, hm3.ok⟩
      · intro j hj
        have hjk : j ≠ k := by rintro rfl; omega
        simp only [upd_other _ _ hjk]; exact hm3.live j hj
      · intro j
        by_cases hjk : j = k
        · subst hjk; simp only [upd_same]; exact hm3.count j
        · simp only [upd_other _ _ hjk]; exact hm3.count j
      · intro j hj
        have hjk : j ≠ k := by rintro rfl; exact hU hj
        simp only [upd_other _ _ hjk]; exact hm3.uncounted j hj
      · intro i j p hi hj
        have hv : ∀ i, (upd (Token.freeValue s2 k).tok k { (Token.freeValue s2 k).tok k with st := .freed } i).val =
            ((Token.freeValue s2 k).tok i).val := by
          intro i; by_cases hik : i = k
          · subst hik; simp [upd_same]
          · simp [upd_other _ _ hik]
        rw [hv] at hi hj; exact hm3.inj i j p hi hj
      · intro j p hj
        by_cases hjk : j = k
        · subst hjk; simp only [upd_same] at hj; exact hm3.alloc j p hj
        · simp only [upd_other _ _ hjk] at hj; exact hm3.alloc j p hj
      · intro j hj
        by_cases hjk : j = k
        · subst hjk
          simp only [upd_same]
          rw [(hfv j).2.2.2, (hfv j).2.1]; simp [hz]
        · simp only [upd_other _ _ hjk] at hj ⊢; exact hm3.dead j hj
      · intro j
        by_cases hjk : j = k
        · subst hjk; simp only [upd_same]
          constructor
          · intro hb; exact absurd hb hbk
          · intro hb; cases hb
        · simp only [upd_other _ _ hjk]; exact hm3.bin j
      · intro j hj
        by_cases hjk : j = k
        · subst hjk; simp [upd_same]
        · simp only [upd_other _ _ hjk]; exact hm3.freshTok j hj

/-- What releasing a reference does to the other tokens and to payloads. -/
theorem doneUsing_other (s : State) (k j : Nat) (hj : j ≠ k) : (doneUsing s k).tok j = (s.tok j) := by
  unfold doneUsing
  simp only
  split
  · rfl
  · unfold freeToken
    split
    · exact upd_other _ _ hj
    · have h1 : ∀ s' : State, (freeValue s' k).tok j = s'.tok j := by
        intro s'
        unfold freeValue
        cases (s'.tok k).val with
        | none => rfl
        | some p => exact upd_other _ _ hj
      simp only
      split
      · simp only [upd_other _ _ hj, h1]; rfl
      · simp only [upd_other _ _ hj, h1]; rfl

theorem doneUsing_pay (s : State) (k p : Nat) (h : (s.tok k).val ≠ some p) : (doneUsing s k).pay p = s.pay p := by
  unfold doneUsing
  simp only
  split
  · rfl
  · unfold freeToken
    split
    · rfl
    · simp only
      have := freeValue_pay { touch s k with tok := upd (touch s k).tok k { (touch s k).tok k with rc := ((touch s k).tok k).rc - 1 } } k p
        (by simp only [upd_same]; exact h)
      split
      · exact this
      · exact this

/-- A token whose count stays positive keeps its value. -/
theorem doneUsing_keep (s : State) (k : Nat) (h : 2 ≤ (s.tok k).rc) :
    (doneUsing s k).tok k = { s.tok k with rc := (s.tok k).rc - 1 } ∧ (doneUsing s k).pay = s.pay ∧
    (doneUsing s k).bin = s.bin := by
  unfold doneUsing
  simp only
  have htok : (touch s k).tok = s.tok := rfl
  rw [htok, if_neg (by omega)]
  unfold freeToken
  rw [if_pos (by simp only [upd_same]; omega)]
  exact ⟨upd_same _ _ _, rfl, rfl⟩

theorem freeToken_binlen (s : State) (k : Nat) : (freeToken s k).bin.length ≤ s.bin.length + 1 := by
  unfold freeToken
  split
  · omega
  · simp only
    split
    · simp only
      split
      · rw [freeValue_bin]; omega
      · simp [freeValue_bin]
    · simp only [freeValue_bin]; omega

theorem doneUsing_binlen (s : State) (k : Nat) : (doneUsing s k).bin.length ≤ s.bin.length + 1 := by
  unfold doneUsing
  simp only
  split
  · simp [touch]
  · exact freeToken_binlen _ k

/-- With room in the bin, releasing never gives a token back to the C library. -/
theorem doneUsing_not_freed (s : State) (k : Nat) (hb : s.bin.length < binLimit) (hk : (s.tok k).st ≠ .freed) :
    ((doneUsing s k).tok k).st ≠ .freed := by
  unfold doneUsing
  simp only
  split
  · exact hk
  · unfold freeToken
    split
    · simp only [upd_same]; exact hk
    · simp only
      rw [if_pos (by rw [freeValue_bin]; exact hb)]
      simp [upd_same]

/-- Taking another reference. -/
theorem Mem.incRef {s : State} {H : Nat → Nat} {U : Nat → Prop} (h : Mem s H U) {k : Nat}
    (hk : (s.tok k).st = .live) : Mem (incRef s k) (inc H k) U := by
  have h1 : Mem (Token.touch s k) H U := h.touch (by rw [hk]; decide)
  obtain ⟨s2, hs2⟩ : ∃ s2, s2 = Token.incRef s k := ⟨_, rfl⟩
  rw [← hs2]
  have htk : ∀ j, j ≠ k → s2.tok j = s.tok j := by
    intro j hj; rw [hs2]; exact upd_other _ _ hj
  have htkk : s2.tok k = { s.tok k with rc := (s.tok k).rc + 1 } := by
    rw [hs2]; simp only [Token.incRef, setRc, Token.touch, upd_same]
  have hst : ∀ j, (s2.tok j).st = (s.tok j).st := by
    intro j; by_cases hj : j = k
    · subst hj; rw [htkk]
    · rw [htk j hj]
  have hval : ∀ j, (s2.tok j).val = (s.tok j).val := by
    intro j; by_cases hj : j = k
    · subst hj; rw [htkk]
    · rw [htk j hj]
  have e1 : s2.pay = s.pay := by rw [hs2]; rfl
  have e2 : s2.bin = s.bin := by rw [hs2]; rfl
  have e3 : s2.nTok = s.nTok := by rw [hs2]; rfl
  have e4 : s2.nPay = s.nPay := by rw [hs2]; rfl
  have e5 : s2.fault = (Token.touch s k).fault := by rw [hs2]; rfl
  refine ⟨?_, ?_, ?_, ?_, ?_, ?_, ?_, ?_, ?_, ?_, ?_⟩
  · intro j hj; rw [hst]
    by_cases hjk : j = k
    · subst hjk; exact hk
    · apply h.live; simpa only [inc, hjk, if_false] using hj
  · intro j
    by_cases hj : j = k
    · subst hj; rw [htkk]; simp only [inc, if_true]; have := h.count j; omega
    · rw [htk j hj]; simp only [inc, hj, if_false]; exact h.count j
  · intro j hj; rw [hst]; exact h.uncounted j hj
  · intro i j p; rw [hval, hval]; exact h.inj i j p
  · intro j p; rw [hval, e1]; exact h.alloc j p
  · intro j hj
    have hjk : j ≠ k := by rintro rfl; rw [hst] at hj; exact hj hk
    rw [hst] at hj
    rw [htk j hjk]; exact h.dead j hj
  · intro j; rw [hst, e2]; exact h.bin j
  · rw [e2]; exact h.nodup
  · intro j; rw [hst, e3]; exact h.freshTok j
  · intro p; rw [e1, e4]; exact h.freshPay p
  · rw [e5]; exact h1.ok

/-- Allocating a payload. -/
theorem Mem.allocPay {s : State} {H : Nat → Nat} {U : Nat → Prop} (h : Mem s H U) (c : Nat) :
    Mem (allocPay s c).1 H U := by
  refine { h with alloc := ?_, freshPay := ?_ }
  · intro k p hp
    have hlt : p ≠ s.nPay := by
      rintro rfl; exact h.alloc k _ hp (h.freshPay _ (Nat.le_refl _))
    simp only [Token.allocPay, upd_other _ _ hlt]; exact h.alloc k p hp
  · intro p hp
    simp only [Token.allocPay] at hp ⊢
    have hne : p ≠ s.nPay := by omega
    simp only [upd_other _ _ hne]; exact h.freshPay p (by omega)

/-- A new token is nobody's, and its memory is as asked for. -/
theorem newToken_spec {s : State} {H : Nat → Nat} {U : Nat → Prop} (h : Mem s H U) (pick : Nat) (val : Option Nat)
    (len : Nat) (hval : ∀ p, val = some p → s.pay p ≠ none ∧ ∀ k, (s.tok k).val ≠ some p) :
    ∃ k, (newToken s pick val len).2 = k ∧ (s.tok k).st ≠ .live ∧
      (newToken s pick val len).1.tok = upd s.tok k ⟨.live, 0, val, len⟩ ∧
      (newToken s pick val len).1.pay = s.pay ∧
      (newToken s pick val len).1.fault = s.fault ∧
      (∀ l, (∀ j ∈ l, (s.tok j).st = .live) → ∀ head, Chain s.nxt head l → Chain (newToken s pick val len).1.nxt head l) ∧
      (newToken s pick val len).1.tmpl = s.tmpl ∧ (newToken s pick val len).1.queue = s.queue ∧
      (newToken s pick val len).1.copies = s.copies ∧ (newToken s pick val len).1.user = s.user ∧
      (newToken s pick val len).1.nTok ≥ s.nTok ∧
      Mem (newToken s pick val len).1 H U := by
  have key : ∀ (s' : State) (k : Nat), (s.tok k).st ≠ .live → s'.tok = upd s.tok k ⟨.live, 0, val, len⟩ →
      s'.pay = s.pay → s'.nPay = s.nPay → s'.fault = s.fault → s'.bin.Nodup →
      (∀ j, j ∈ s'.bin ↔ j ∈ s.bin ∧ j ≠ k) → (∀ j, s'.nTok ≤ j → s.nTok ≤ j ∧ j ≠ k) → Mem s' H U := by
    intro s' k hk e1 e2 e3 e4 e5 e6 e7
    have hHk : H k = 0 := by
      by_contra hx; exact hk (h.live k (by omega))
    have hUk : ¬ U k := fun hu => hk (h.uncounted k hu)
    have ho : ∀ j, j ≠ k → s'.tok j = s.tok j := by intro j hj; rw [e1]; exact upd_other _ _ hj
    have hs : s'.tok k = ⟨.live, 0, val, len⟩ := by rw [e1]; exact upd_same _ _ _
    refine ⟨?_, ?_, ?_, ?_, ?_, ?_, ?_, e5, ?_, ?_, ?_⟩
    · intro j hj
      have : j ≠ k := by rintro rfl; omega
      rw [ho j this]; exact h.live j hj
    · intro j
      by_cases hj : j = k
      · subst hj; rw [hHk]; exact Nat.zero_le _
      · rw [ho j hj]; exact h.count j
    · intro j hj
      have : j ≠ k := by rintro rfl; exact hUk hj
      rw [ho j this]; exact h.uncounted j hj
    · intro i j p hi hj
      by_cases hik : i = k
      · by_cases hjk : j = k
        · rw [hik, hjk]
        · exfalso
          rw [hik, hs] at hi; rw [ho j hjk] at hj
          exact (hval p hi).2 j hj
      · by_cases hjk : j = k
        · exfalso
          rw [hjk, hs] at hj; rw [ho i hik] at hi
          exact (hval p hj).2 i hi
        · rw [ho i hik] at hi; rw [ho j hjk] at hj; exact h.inj i j p hi hj
    · intro j p hj
      rw [e2]
      by_cases hjk : j = k
      · rw [hjk, hs] at hj; exact (hval p hj).1
      · rw [ho j hjk] at hj; exact h.alloc j p hj
    · intro j hj
      have : j ≠ k := by rintro rfl; rw [hs] at hj; exact hj rfl
      rw [ho j this] at hj ⊢; exact h.dead j hj
    · intro j
      rw [e6]
      by_cases hjk : j = k
      · subst hjk; rw [hs]; simp
      · rw [ho j hjk, h.bin j]; simp [hjk]
    · intro j hj
      obtain ⟨h1, h2⟩ := e7 j hj
      rw [ho j h2]; exact h.freshTok j h1
    · intro p; rw [e2, e3]; exact h.freshPay p
    · rw [e4]; exact h.ok
  unfold newToken
  cases hb : s.bin with
  | nil =>
    have hk : (s.tok s.nTok).st ≠ .live := by rw [h.freshTok _ (Nat.le_refl _)]; decide
    refine ⟨s.nTok, rfl, hk, rfl, rfl, rfl, ?_, rfl, rfl, rfl, rfl, ?_, ?_⟩
    · intro l hl head hc
      induction hc with
      | nil => exact .nil
      | @cons k l hc ih =>
        have hkn : k ≠ s.nTok := by rintro rfl; exact hk (hl _ (by simp))
        refine .cons ?_
        simp only [upd_other _ _ hkn]
        exact ih fun j hj => hl j (by simp [hj])
    · simp
    · refine key _ s.nTok hk rfl rfl rfl rfl (by simp [hb]) ?_ ?_
      · intro j; simp [hb]
      · intro j hj; simp only at hj; omega
  | cons b bs =>
    obtain ⟨k, hkdef⟩ : ∃ k, k = (b :: bs).getD (pick % (b :: bs).length) b := ⟨_, rfl⟩
    have hmem : k ∈ s.bin := by
      rw [hb, hkdef]
      have hlt : pick % (b :: bs).length < (b :: bs).length := Nat.mod_lt _ (by simp)
      rw [List.getD_eq_getElem?_getD, List.getElem?_eq_getElem hlt]; exact List.getElem_mem hlt
    have hk : (s.tok k).st ≠ .live := by rw [(h.bin k).1 hmem]; decide
    dsimp only
    rw [← hkdef]
    refine ⟨k, rfl, hk, rfl, rfl, rfl, fun l _ head hc => hc, rfl, rfl, rfl, rfl, Nat.le_refl _, ?_⟩
    have hnd : (b :: bs).Nodup := by rw [← hb]; exact h.nodup
    refine key _ k hk rfl rfl rfl rfl ?_ ?_ ?_
    · exact hnd.erase _
    · intro j
      simp only [hb]
      rw [hnd.mem_erase_iff]
      exact and_comm
    · intro j hj
      refine ⟨hj, ?_⟩
      rintro rfl
      have h1 := h.freshTok j hj
      have h2 := (h.bin j).1 hmem
      rw [h1] at h2; cases h2

theorem Mem.addUser {s : State} {H : Nat → Nat} {U U' : Nat → Prop} (h : Mem s H U)
    (hk : ∀ j, U' j → U j ∨ (s.tok j).st = .live) : Mem s H U' :=
  { h with
    uncounted := fun j hj => by
      rcases hk j hj with hu | hl
      · exact h.uncounted j hu
      · exact hl }

/-- Setting the count of a live token. -/
theorem Mem.setRc {s : State} {H H' : Nat → Nat} {U : Nat → Prop} (h : Mem s H U) {k n : Nat}
    (hl : (s.tok k).st = .live) (hk : H' k ≤ n) (ho : ∀ j, j ≠ k → H' j ≤ H j) : Mem (setRc s k n) H' U := by
  have hov : ∀ j, j ≠ k → (Token.setRc s k n).tok j = s.tok j := fun j hj => upd_other _ _ hj
  have hsv : (Token.setRc s k n).tok k = { s.tok k with rc := n } := upd_same _ _ _
  have hst : ∀ j, ((Token.setRc s k n).tok j).st = (s.tok j).st := by
    intro j; by_cases hj : j = k
    · subst hj; rw [hsv]
    · rw [hov j hj]
  have hval : ∀ j, ((Token.setRc s k n).tok j).val = (s.tok j).val := by
    intro j; by_cases hj : j = k
    · subst hj; rw [hsv]
    · rw [hov j hj]
  refine ⟨?_, ?_, ?_, ?_, ?_, ?_, ?_, h.nodup, ?_, h.freshPay, h.ok⟩
  · intro j hj; rw [hst]
    by_cases hjk : j = k
    · subst hjk; exact hl
    · exact h.live j (Nat.lt_of_lt_of_le hj (ho j hjk))
  · intro j
    by_cases hjk : j = k
    · subst hjk; rw [hsv]; exact hk
    · rw [hov j hjk]; exact Nat.le_trans (ho j hjk) (h.count j)
  · intro j hj; rw [hst]; exact h.uncounted j hj
  · intro i j p; rw [hval, hval]; exact h.inj i j p
  · intro j p; rw [hval]; exact h.alloc j p
  · intro j hj
    have hjk : j ≠ k := by rintro rfl; rw [hst] at hj; exact hj hl
    rw [hst] at hj; rw [hov j hjk]; exact h.dead j hj
  · intro j; rw [hst]; exact h.bin j
  · intro j; rw [hst]; exact h.freshTok j

/-- Giving a live token a payload nobody else has. -/
theorem Mem.setVal {s s' : State} {H : Nat → Nat} {U : Nat → Prop} (h : Mem s H U) {k p len : Nat}
    (hl : (s.tok k).st = .live) (hp : s.pay p ≠ none) (hno : ∀ j, (s.tok j).val ≠ some p)
    (hs' : s' = { s with tok := upd s.tok k { s.tok k with val := some p, len := len } }) : Mem s' H U := by
  have hov : ∀ j, j ≠ k → s'.tok j = s.tok j := fun j hj => by rw [hs']; exact upd_other _ _ hj
  have hsv : s'.tok k = { s.tok k with val := some p, len := len } := by rw [hs']; exact upd_same _ _ _
  have hst : ∀ j, (s'.tok j).st = (s.tok j).st := by
    intro j; by_cases hj : j = k
    · subst hj; rw [hsv]
    · rw [hov j hj]
  have hrc : ∀ j, (s'.tok j).rc = (s.tok j).rc := by
    intro j; by_cases hj : j = k
    · subst hj; rw [hsv]
    · rw [hov j hj]
  have e1 : s'.pay = s.pay := by rw [hs']
  have e2 : s'.bin = s.bin := by rw [hs']
  have e3 : s'.nTok = s.nTok := by rw [hs']
  have e4 : s'.nPay = s.nPay := by rw [hs']
  have e5 : s'.fault = s.fault := by rw [hs']
  refine ⟨?_, ?_, ?_, ?_, ?_, ?_, ?_, ?_, ?_, ?_, ?_⟩
  · intro j hj; rw [hst]; exact h.live j hj
  · intro j; rw [hrc]; exact h.count j
  · intro j hj; rw [hst]; exact h.uncounted j hj
  · intro i j q hi hj
    by_cases hik : i = k
    · by_cases hjk : j = k
      · rw [hik, hjk]
      · exfalso; rw [hik, hsv] at hi; rw [hov j hjk] at hj
        simp only [Option.some.injEq] at hi; subst hi; exact hno j hj
    · by_cases hjk : j = k
      · exfalso; rw [hjk, hsv] at hj; rw [hov i hik] at hi
        simp only [Option.some.injEq] at hj; subst hj; exact hno i hi
      · rw [hov i hik] at hi; rw [hov j hjk] at hj; exact h.inj i j q hi hj
  · intro j q hj
    rw [e1]
    by_cases hjk : j = k
    · rw [hjk, hsv] at hj; simp only [Option.some.injEq] at hj; subst hj; exact hp
    · rw [hov j hjk] at hj; exact h.alloc j q hj
  · intro j hj
    have hjk : j ≠ k := by rintro rfl; rw [hst] at hj; exact hj hl
    rw [hst] at hj; rw [hov j hjk]; exact h.dead j hj
  · intro j; rw [hst, e2]; exact h.bin j
  · rw [e2]; exact h.nodup
  · intro j; rw [hst, e3]; exact h.freshTok j
  · intro q; rw [e1, e4]; exact h.freshPay q
  · rw [e5]; exact h.ok

end ReactorC.Token
