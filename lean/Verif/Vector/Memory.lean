import Verif.Vector.Props
import Mathlib.Data.List.Induction

/-! # C34: the memory of a vector is bounded by what it has held, and is given back -/

namespace ReactorC.Vector

theorem growTo_le {size idx n : Nat} (h : growTo size idx = some n) : n ≤ max size (2 * idx) := by
  induction hd : idx + 1 - size using Nat.strongRecOn generalizing size with
  | _ d ih =>
    unfold growTo at h
    split at h
    · cases h
    · split at h
      · have := ih (idx + 1 - size * 2) (by omega) h rfl
        omega
      · cases h; omega

theorem storeAll_length (xs : List Nat) : ∀ (v : Vec) (i : Nat), (storeAll v i xs).buf.length = v.buf.length := by
  induction xs with
  | nil => intro v i; rfl
  | cons x xs ih => intro v i; rw [storeAll, ih]; simp [store]

theorem resize_length (v : Vec) (n : Nat) : (resize v n).buf.length = if n = 0 then v.buf.length else n := by
  unfold resize; split <;> simp [length_realloc]

theorem at_length {v : Vec} (h : Ok v) (idx : Nat) : («at» v idx).buf.length ≤ max v.buf.length (2 * max v.next (idx + 1)) := by
  unfold «at»
  dsimp only
  generalize hv : (if idx + 1 > v.next then { v with next := idx + 1 } else v) = w
  have h1 : w.buf = v.buf := by rw [← hv]; split <;> rfl
  have h2 : w.next = max v.next (idx + 1) := by rw [← hv]; split <;> simp <;> omega
  split
  · rename_i hge
    cases he : growTo (w.buf.length * 2) idx with
    | none => simp only [h1]; omega
    | some n =>
      have := growTo_le he
      simp only [resize_length]
      rw [h1] at hge this ⊢
      split <;> omega
  · rw [h1]; omega

theorem exec_pop (v : Vec) : (exec v .pop).1 = (pop v).1 := by
  simp only [exec]; split <;> rename_i e <;> rw [e]

theorem exec_length {v : Vec} (h : Ok v) (o : Op) :
    (exec v o).1.buf.length ≤ max v.buf.length (2 * (exec v o).1.next) := by
  cases o with
  | push x =>
    simp only [exec, push, store, List.length_set, makeRoom]
    split
    · simp only [resize_length]; simp only [resize]; split <;> (try split) <;> (try simp only) <;> omega
    · omega
  | pushall xs =>
    simp only [exec, pushall, storeAll_length]
    split
    · simp only [resize_length]; simp only [resize]; split <;> (try split) <;> (try simp only) <;> omega
    · omega
  | pop =>
    simp only [exec_pop, pop]
    split
    · rename_i h0
      simp only
      split
      · split
        · simp only [resize_length]; split <;> omega
        · omega
      · omega
    · simp only; omega
  | readAt i =>
    have := at_length h i
    have h2 := (at_ok h i).2.2.1
    simp only [exec, readAt]; rw [h2]; exact this
  | writeAt i x =>
    have := at_length h i
    have h2 := (at_ok h i).2.2.1
    simp only [exec, writeAt, store, List.length_set]; rw [h2]; exact this
  | vote => simp only [exec, vote]; omega

theorem run_snoc (v : Vec) (os : List Op) (o : Op) : (run v (os ++ [o])).1 = (exec (run v os).1 o).1 := by
  induction os generalizing v with
  | nil => rfl
  | cons p os ih => simp only [List.cons_append, run]; exact ih _

/-- **C34**: the memory of a vector is never more than twice what it needed at some time, or what it was created with. -/
theorem C34_memory_is_bounded (cap : Nat) (hc : 1 ≤ cap) (ops : List Op) (most : Nat)
    (hm : ∀ before after, ops = before ++ after → size (run (new cap) before).1 ≤ most) :
    (run (new cap) ops).1.buf.length ≤ max cap (2 * most) := by
  have h0 : Ok (new cap) := ⟨by simp [new]; omega, by simp [new], rfl⟩
  induction ops using List.reverseRecOn with
  | nil => simp [run, new]
  | append_singleton os o ih =>
    have h1 := ih fun b a e => hm b (a ++ [o]) (by rw [e, List.append_assoc])
    have h2 := exec_length (run_ok h0 os).1 o
    have h3 := hm (os ++ [o]) [] (by simp)
    rw [run_snoc] at h3 ⊢
    unfold size at h3
    omega

theorem votes_empty : ∀ (k : Nat) (v : Vec), v.next = 0 → (run v (List.replicate k .vote)).1 = { v with votes := v.votes + k } := by
  intro k
  induction k with
  | zero => intro v _; rfl
  | succ k ih =>
    intro v h
    rw [List.replicate_succ]
    simp only [run, exec]
    rw [ih _ (by simpa [vote] using h)]
    simp [vote, h]
    omega

theorem run_append_fst (v : Vec) (os os' : List Op) : (run v (os ++ os')).1 = (run (run v os).1 os').1 := by
  induction os generalizing v with
  | nil => rfl
  | cons p os ih => simp only [List.cons_append, run]; exact ih _

/-- **C34**: memory is given back: a vector that is found empty often enough halves its memory, down to one element.  The number of votes needed is 15 and one for each time that the vector
has grown by pushing or accessing one element. -/
theorem C34_memory_is_given_back (cap : Nat) (hc : 1 ≤ cap) (ops : List Op) (he : size (run (new cap) ops).1 = 0) (k : Nat)
    (hk : (run (new cap) ops).1.votesRequired ≤ k) :
    (run (new cap) (ops ++ List.replicate k .vote ++ [.pop])).1.buf.length = max 1 ((run (new cap) ops).1.buf.length / 2) ∧
    size (run (new cap) (ops ++ List.replicate k .vote ++ [.pop])).1 = 0 ∧ (run (new cap) ops).1.votesRequired ≤ 15 + ops.length := by
  have h0 : Ok (new cap) := ⟨by simp [new]; omega, by simp [new], rfl⟩
  have h1 := (run_ok h0 ops).1.cap
  have hq : (run (new cap) ops).1.votesRequired ≤ 15 + ops.length := by
    clear he hk h1
    induction ops using List.reverseRecOn with
    | nil => simp [run, new]
    | append_singleton os o ih =>
      rw [run_snoc]
      generalize (run (new cap) os).1 = v at ih
      simp only [List.length_append, List.length_cons, List.length_nil]
      suffices (exec v o).1.votesRequired ≤ v.votesRequired + 1 by omega
      have hr : ∀ (u : Vec) n, (resize u n).votesRequired = u.votesRequired := by intro u n; unfold resize; split <;> rfl
      have ha : ∀ i, («at» v i).votesRequired ≤ v.votesRequired + 1 := by
        intro i
        unfold «at»
        dsimp only
        generalize hw : (if i + 1 > v.next then { v with next := i + 1 } else v) = w
        have h1 : w.votesRequired = v.votesRequired := by rw [← hw]; split <;> rfl
        split
        · split
          · rw [hr]; simp only; omega
          · simp only; omega
        · omega
      have hs : ∀ (xs : List Nat) (u : Vec) i, (storeAll u i xs).votesRequired = u.votesRequired := by
        intro xs
        induction xs with
        | nil => intro u i; rfl
        | cons x xs ih => intro u i; rw [storeAll, ih]; rfl
      cases o with
      | push x => simp only [exec, push, store, makeRoom]; split <;> simp [hr]
      | pushall xs => simp only [exec, pushall, hs]; split <;> simp [hr]
      | pop =>
        simp only [exec_pop, pop]
        split
        · simp only; split
          · split <;> simp [hr]
          · omega
        · simp
      | readAt i => simp only [exec, readAt]; exact ha i
      | writeAt i x => simp only [exec, writeAt, store]; exact ha i
      | vote => simp [exec, vote]
  rw [run_append_fst, run_append_fst, votes_empty k _ he]
  unfold size at he
  generalize (run (new cap) ops).1 = v at *
  refine ⟨?_, ?_, hq⟩
  · simp only [run, exec_pop, pop, if_pos he]
    rw [if_pos (by omega)]
    split
    · simp only [resize_length]; split <;> omega
    · simp only; omega
  · simp only [run, exec_pop, pop, if_pos he, size]
    rw [if_pos (by omega)]
    split
    · simp only [resize]; split <;> exact he
    · exact he

/-- The memory of a vector of capacity 2 grows to 4 elements with three elements and is halved after 16 votes. -/
example : (run (new 2) [.push 1, .push 2, .push 3, .pop, .pop, .pop]).1.buf.length = 4 ∧
    (run (new 2) [.push 1, .push 2, .push 3, .pop, .pop, .pop]).1.votesRequired = 16 ∧
    size (run (new 2) [.push 1, .push 2, .push 3, .pop, .pop, .pop]).1 = 0 ∧
    (run (new 2) ([.push 1, .push 2, .push 3, .pop, .pop, .pop] ++ List.replicate 16 .vote ++ [.pop])).1.buf.length = 2 := by decide

/-- What `C34_memory_is_bounded` demands, with 3 for the most. -/
example : ∀ before after, [Op.push 1, .push 2, .push 3, .pop] = before ++ after → size (run (new 2) before).1 ≤ 3 := by
  intro b a e
  have hb : b = [Op.push 1, .push 2, .push 3, .pop].take b.length := by rw [e]; simp
  have hl : b.length ≤ 4 := by have := congrArg List.length e; simp at this; omega
  rw [hb]
  generalize b.length = k at hl
  have : k = 0 ∨ k = 1 ∨ k = 2 ∨ k = 3 ∨ k = 4 := by omega
  rcases this with rfl | rfl | rfl | rfl | rfl <;> decide

end ReactorC.Vector
