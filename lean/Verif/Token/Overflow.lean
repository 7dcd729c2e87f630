import Verif.Token.Steps

/-! # What happens when the recycling bin overflows while copies are released -/

namespace ReactorC.Token

theorem touch_fault {s : State} (k : Nat) (h : s.fault = true) : (touch s k).fault = true := by simp [touch, h]

theorem freeValue_fault {s : State} (k : Nat) (h : s.fault = true) : (freeValue s k).fault = true := by
  unfold freeValue; split
  · exact h
  · simp [h]

theorem freeToken_fault {s : State} (k : Nat) (h : s.fault = true) : (freeToken s k).fault = true := by
  unfold freeToken; split
  · exact h
  · dsimp only; split <;> exact freeValue_fault k h

theorem doneUsing_fault {s : State} (k : Nat) (h : s.fault = true) : (doneUsing s k).fault = true := by
  unfold doneUsing; dsimp only; split
  · exact touch_fault k h
  · exact freeToken_fault k (touch_fault k h)

theorem freeCopies_fault (fuel : Nat) : ∀ s : State, s.fault = true → (freeCopies fuel s).fault = true := by
  induction fuel with
  | zero => intro s _; rfl
  | succ fuel ih =>
    intro s h
    unfold freeCopies
    split
    · exact h
    · exact ih _ (touch_fault _ (doneUsing_fault _ h))

/-- Releasing the last reference to a token. -/
theorem doneUsing_last (s : State) (k : Nat) (h : (s.tok k).rc = 1) (hk : k ∉ s.bin) :
    (s.bin.length < binLimit → (doneUsing s k).bin.length = s.bin.length + 1) ∧
    (binLimit ≤ s.bin.length → ((doneUsing s k).tok k).st = .freed) := by
  unfold doneUsing
  have e0 : (touch s k).tok = s.tok := rfl
  dsimp only
  rw [e0, if_neg (by omega)]
  generalize hs1 : ({ touch s k with tok := upd s.tok k { s.tok k with rc := (s.tok k).rc - 1 } } : State) = s1
  have hb : s1.bin = s.bin := by rw [← hs1]; rfl
  have hr : (s1.tok k).rc = 0 := by rw [← hs1]; simp [upd_same, h]
  unfold freeToken
  rw [if_neg (by omega)]
  dsimp only
  rw [freeValue_bin, hb]
  constructor
  · intro hl
    rw [if_pos hl, if_neg hk]; rfl
  · intro hl
    rw [if_neg (by omega)]; simp [upd_same]

/-- More copies than the bin has room for: the loop reads a freed token. -/
theorem freeCopies_overflow (L : List Nat) : ∀ (s : State) (fuel : Nat), Inv s L →
    (∀ j ∈ L, (s.tok j).rc = 1) → s.bin.length ≤ binLimit → binLimit < s.bin.length + L.length →
    (freeCopies fuel s).fault = true := by
  induction L with
  | nil => intro s fuel _ _ h1 h2; simp at h2; omega
  | cons k L ih =>
    intro s fuel h hr hb1 hb2
    cases fuel with
    | zero => rfl
    | succ fuel =>
      obtain ⟨hcp, hch⟩ : s.copies = some k ∧ Chain s.nxt (s.nxt k) L := by
        have := h.chain
        cases hcp : s.copies with
        | none => rw [hcp] at this; cases this
        | some k' =>
          rw [hcp] at this
          cases this with
          | cons hx => exact ⟨rfl, hx⟩
      have hpos : 0 < hold s (k :: L) k := hold_pos_copies (by simp)
      have hlive := h.mem.live k hpos
      have hkb : k ∉ s.bin := by
        intro hx; rw [h.mem.bin k, hlive] at hx; cases hx
      obtain ⟨l1, l2⟩ := doneUsing_last s k (hr k (by simp)) hkb
      have hsame := doneUsing_same s k
      have hnk := List.nodup_cons.mp h.nodup
      simp only [List.length_cons] at hb2
      unfold freeCopies
      simp only [hcp]
      by_cases hfull : s.bin.length < binLimit
      · have l1 := l1 hfull
        have hnf := doneUsing_not_freed s k hfull (by rw [hlive]; decide)
        have hm := h.mem.doneUsing hpos (h.not_user hpos)
        refine ih _ fuel ?_ ?_ ?_ ?_
        · refine ⟨?_, ?_, ?_, ?_, hnk.2⟩
          · show Chain (doneUsing s k).nxt ((doneUsing s k).nxt k) L
            rw [hsame.nxt]; exact hch
          · have hm1 := hm.touch (k := k) hnf
            have hm2 := Mem.congr (s' := { touch (doneUsing s k) k with copies := (touch (doneUsing s k) k).nxt k })
              hm1 rfl rfl rfl rfl rfl rfl
            refine hm2.weaken ?_ ?_
            · intro j
              have e1 : (doneUsing s k).tmpl = s.tmpl := hsame.tmpl
              have e2 : (doneUsing s k).queue = s.queue := hsame.queue
              simp only [hold, touch, e1, e2, dec, List.count_cons, beq_iff_eq]
              by_cases hj : j = k
              · rw [if_pos hj, if_pos hj.symm]; omega
              · rw [if_neg hj, if_neg (fun hx => hj hx.symm)]; omega
            · intro j hj
              have : (touch (doneUsing s k) k).user = s.user := hsame.user
              simp only [this] at hj; exact hj
          · intro j hj
            have : (touch (doneUsing s k) k).user = s.user := hsame.user
            simp only [this] at hj
            have hjk : j ≠ k := by rintro rfl; exact h.not_user hpos hj
            show ((doneUsing s k).tok j).rc = 0
            rw [doneUsing_other _ _ _ hjk]; exact h.userRc j hj
          · show (doneUsing s k).user.Nodup
            rw [hsame.user]; exact h.userNodup
        · intro j hj
          have hjk : j ≠ k := by rintro rfl; exact hnk.1 hj
          show ((doneUsing s k).tok j).rc = 1
          rw [doneUsing_other _ _ _ hjk]; exact hr j (List.mem_cons_of_mem _ hj)
        · show (doneUsing s k).bin.length ≤ binLimit
          omega
        · show binLimit < (doneUsing s k).bin.length + L.length
          omega
      · refine freeCopies_fault fuel _ ?_
        show (touch (doneUsing s k) k).fault = true
        simp [touch, l2 (by omega)]

/-- A port whose payload is read by two reactions, and `n` writable copies made of it. -/
structure CopyState (s : State) (L : List Nat) (k : Nat) : Prop where
  inv : Inv s L
  tm : tmplTok s 0 = some k
  val : ∃ p, (s.tok k).val = some p
  len : (s.tok k).len = 1
  rc : ∀ j ∈ L, (s.tok j).rc = 1
  bin : s.bin = []
  len_tm : s.tmpl.length = 1

theorem copyState_step {s : State} {L : List Nat} {k : Nat} (h : CopyState s L k) :
    ∃ k', CopyState (writableCopy s 0 0 ⟨1, false, 2⟩).1 (k' :: L) k := by
  rcases writableCopy_spec h.inv 0 0 ⟨1, false, 2⟩ with ⟨e, _⟩ | ⟨k1, hk1, hc⟩
  · rw [h.tm] at e; cases e
  · have : k1 = k := by rw [h.tm] at hk1; exact (Option.some.inj hk1).symm
    subst this
    rcases hc with ⟨e, _⟩ | ⟨_, e, _⟩ | hc
    · cases e
    · rw [h.len] at e; simp at e
    · obtain ⟨p, hp⟩ := h.val
      obtain ⟨s', k', e, a1, a2, a3, a4, a5, a6, a7, a8⟩ := hc p hp
      rw [e]
      have hlive := h.inv.mem.live k1 (hold_pos_tmpl h.tm)
      have hkk : k1 ≠ k' := by rintro rfl; exact a1 hlive
      have ho : ∀ j, j ≠ k' → s'.tok j = s.tok j := fun j hj => by rw [a2, upd_other _ _ hj]
      have hz : hold s L k' = 0 := by
        by_contra hx; exact a1 (h.inv.mem.live k' (by omega))
      have hL : k' ∉ L := fun hx => by have := hold_pos_copies (s := s) hx; omega
      refine ⟨k', ⟨a7, ?_, ?_, ?_, List.nodup_cons.mpr ⟨hL, h.inv.nodup⟩⟩, ?_, ⟨p, ?_⟩, ?_, ?_, ?_, ?_⟩
      · exact a8.weaken (fun _ => Nat.le_refl _) (fun j hj => by simp only [a6] at hj; exact hj)
      · intro j hj
        simp only [a6] at hj
        have hjk : j ≠ k' := by rintro rfl; exact a1 (h.inv.mem.uncounted j hj)
        simp only [ho j hjk]; exact h.inv.userRc j hj
      · simp only [a6]; exact h.inv.userNodup
      · rw [tmplTok_congr a4]; exact h.tm
      · simp only [ho k1 hkk]; exact hp
      · simp only [ho k1 hkk]; exact h.len
      · intro j hj
        by_cases hjk : j = k'
        · subst hjk; simp only [a2, upd_same]
        · simp only [ho j hjk]
          rcases List.mem_cons.mp hj with hj | hj
          · exact absurd hj hjk
          · exact h.rc j hj
      · apply List.eq_nil_iff_forall_not_mem.mpr
        intro j hj
        have := (a8.bin j).mp hj
        by_cases hjk : j = k'
        · subst hjk; rw [a2, upd_same] at this; cases this
        · rw [ho j hjk] at this
          have h3 := (h.inv.mem.bin j).mpr this
          rw [h.bin] at h3; simp at h3
      · simp only [a4]; exact h.len_tm

theorem copyState_run {s : State} {L : List Nat} {k : Nat} (h : CopyState s L k) (n : Nat) :
    ∃ L', L'.length = L.length + n ∧ CopyState (run s (List.replicate n (.writableCopy 0 0 ⟨1, false, 2⟩))) L' k ∧
      Follows (fun _ _ => True) s (List.replicate n (.writableCopy 0 0 ⟨1, false, 2⟩)) := by
  induction n generalizing s L with
  | zero => exact ⟨L, rfl, h, trivial⟩
  | succ n ih =>
    obtain ⟨k', h'⟩ := copyState_step h
    obtain ⟨L', e, h2, h3⟩ := ih h'
    refine ⟨L', by simp at e; omega, h2, ⟨?_, ?_⟩, trivial, h3⟩
    · rw [h.len_tm]; exact Nat.one_pos
    · intro j hj
      rw [h.tm] at hj
      have := Option.some.inj hj
      subst this
      obtain ⟨p, hp⟩ := h.val
      rw [hp]; simp

theorem copyState_start : CopyState (run (start 1) [.initTemplate 0 0, .set 0 0 7 1]) [] 0 := by
  have hf : Follows BinHasRoom (start 1) [.initTemplate 0 0, .set 0 0 7 1] :=
    ⟨by simp [Allowed, start], trivial, by simp [Allowed, exec, initTemplate, tmplTok, start, setRc, newToken], trivial, trivial⟩
  obtain ⟨L, hL⟩ := run_inv (start_inv 1) _ hf
  have : L = [] := by
    have h1 := hL.chain
    have h2 : (run (start 1) [.initTemplate 0 0, .set 0 0 7 1]).copies = none := rfl
    rw [h2] at h1; cases h1; rfl
  subst this
  exact ⟨hL, rfl, ⟨0, rfl⟩, rfl, by simp, rfl, rfl⟩

theorem follows_append {C : State → Op → Prop} {s : State} {a b : List Op} (ha : Follows C s a)
    (hb : Follows C (run s a) b) : Follows C s (a ++ b) := by
  induction a generalizing s with
  | nil => exact hb
  | cons o os ih => exact ⟨ha.1, ha.2.1, ih ha.2.2 hb⟩

theorem run_append (s : State) (a b : List Op) : run s (a ++ b) = run (run s a) b := List.foldl_append ..

end ReactorC.Token
