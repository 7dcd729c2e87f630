import Verif.Vector.Memory

/-! # C34: the memory of a vector that is used is kept -/

namespace ReactorC.Vector

theorem resize_required (u : Vec) (n : Nat) : (resize u n).votesRequired = u.votesRequired := by unfold resize; split <;> rfl

theorem resize_votes (u : Vec) (n : Nat) : (resize u n).votes ≤ u.votes := by unfold resize; split <;> simp

theorem growTo_ge {size idx n : Nat} (h : growTo size idx = some n) : size ≤ n := by
  induction hd : idx + 1 - size using Nat.strongRecOn generalizing size with
  | _ d ih =>
    unfold growTo at h
    split at h
    · cases h
    · split at h
      · have := ih (idx + 1 - size * 2) (by omega) h rfl
        omega
      · cases h; omega

theorem storeAll_votes (xs : List Nat) : ∀ (u : Vec) i, (storeAll u i xs).votesRequired = u.votesRequired ∧ (storeAll u i xs).votes = u.votes := by
  induction xs with
  | nil => intro u i; exact ⟨rfl, rfl⟩
  | cons x xs ih => intro u i; rw [storeAll]; exact ih _ _

theorem at_kept (v : Vec) (i : Nat) : v.votesRequired ≤ («at» v i).votesRequired ∧ («at» v i).votes ≤ v.votes ∧ v.buf.length ≤ («at» v i).buf.length := by
  unfold «at»
  dsimp only
  generalize hw : (if i + 1 > v.next then { v with next := i + 1 } else v) = w
  have h1 : w.votesRequired = v.votesRequired := by rw [← hw]; split <;> rfl
  have h2 : w.votes = v.votes := by rw [← hw]; split <;> rfl
  have h3 : w.buf = v.buf := by rw [← hw]; split <;> rfl
  split
  · cases he : growTo (w.buf.length * 2) i with
    | none => simp only [h1, h2, h3]; omega
    | some n =>
      have := growTo_ge he
      have h4 := resize_votes { w with votesRequired := w.votesRequired + 1 } n
      simp only [resize_required, resize_length]
      rw [h3] at *
      refine ⟨by omega, by simp only at h4; omega, ?_⟩
      split <;> omega
  · rw [h1, h2, h3]; omega

/-- An operation before the necessary number of votes gives nothing back. -/
theorem exec_kept (v : Vec) (o : Op) (h : v.votes < v.votesRequired) : v.votesRequired ≤ (exec v o).1.votesRequired ∧
    (exec v o).1.votes ≤ v.votes + (if o = .vote then 1 else 0) ∧ v.buf.length ≤ (exec v o).1.buf.length := by
  cases o with
  | push x =>
    simp only [exec, push, store, makeRoom, List.length_set]
    split
    · have h4 := resize_votes { v with votesRequired := v.votesRequired + 1 } (v.buf.length * 2)
      simp only [resize_required, resize_length]
      simp only at h4
      refine ⟨by omega, by omega, ?_⟩
      split <;> omega
    · simp
  | pushall xs =>
    simp only [exec, pushall, storeAll_votes, storeAll_length]
    split
    · have h4 := resize_votes v ((v.next + xs.length) * 2)
      simp only [resize_required, resize_length]
      refine ⟨by omega, by omega, ?_⟩
      split <;> omega
    · simp
  | pop =>
    simp only [exec_pop, pop]
    split
    · rw [if_neg (by omega)]; simp
    · simp
  | readAt i =>
    obtain ⟨h1, h2, h3⟩ := at_kept v i
    simp only [exec, readAt]
    exact ⟨h1, by omega, h3⟩
  | writeAt i x =>
    obtain ⟨h1, h2, h3⟩ := at_kept v i
    simp only [exec, writeAt, store, List.length_set]
    exact ⟨h1, by omega, h3⟩
  | vote =>
    simp only [exec, vote]
    refine ⟨Nat.le_refl _, ?_, Nat.le_refl _⟩
    split <;> simp

theorem run_kept (rest : List Op) : ∀ v : Vec, v.votes + rest.count .vote < v.votesRequired → v.buf.length ≤ (run v rest).1.buf.length := by
  induction rest with
  | nil => intro v _; exact Nat.le_refl _
  | cons o os ih =>
    intro v h
    obtain ⟨h1, h2, h3⟩ := exec_kept v o (by omega)
    rw [List.count_cons] at h
    have := ih (exec v o).1 (by
      by_cases e : o = .vote
      · subst e; simp only [if_true, beq_self_eq_true] at *; omega
      · have : (o == Op.vote) = false := by simp [e]
        simp only [if_neg e, this] at *
        simp at h
        omega)
    exact Nat.le_trans h3 this

/-- **C34**: the memory of a vector that is used is kept.  After a vote at which more than a quarter of the memory is in use, whatever is done, nothing is given back before as
many further votes as are necessary: the earlier votes no longer count. -/
theorem C34_memory_in_use_is_kept (cap : Nat) (ops rest : List Op)
    (hu : (run (new cap) ops).1.buf.length < 4 * size (run (new cap) ops).1) (hr : rest.count .vote < (run (new cap) ops).1.votesRequired) :
    (run (new cap) ops).1.buf.length ≤ (run (new cap) (ops ++ .vote :: rest)).1.buf.length := by
  rw [run_append_fst]
  generalize (run (new cap) ops).1 = v at *
  unfold size at hu
  have := run_kept rest (vote v) (by simp only [vote]; rw [if_neg (by omega)]; omega)
  exact this

/-- **C34**: nothing is given back before 15 votes. -/
theorem C34_memory_is_kept_at_first (cap : Nat) (ops : List Op) (h : ops.count .vote < 15) : cap ≤ (run (new cap) ops).1.buf.length := by
  have := run_kept ops (new cap) (by simpa [new] using h)
  simpa [new] using this

/-- Fourteen votes for an empty vector of eight elements, then one for a vector with three: the two votes that follow do not lead to the loss of memory. -/
example : (run (new 8) (List.replicate 14 .vote ++ [.push 1, .push 2, .push 3])).1.buf.length < 4 * size (run (new 8) (List.replicate 14 .vote ++ [.push 1, .push 2, .push 3])).1 ∧
    [Op.pop, .pop, .pop, .vote, .vote, .pop].count .vote < (run (new 8) (List.replicate 14 .vote ++ [.push 1, .push 2, .push 3])).1.votesRequired ∧
    (run (new 8) (List.replicate 14 .vote ++ [.push 1, .push 2, .push 3] ++ .vote :: [Op.pop, .pop, .pop, .vote, .vote, .pop])).1.buf.length = 8 ∧
    (run (new 8) (List.replicate 14 .vote ++ [.vote, .pop])).1.buf.length = 4 := by decide

end ReactorC.Vector
