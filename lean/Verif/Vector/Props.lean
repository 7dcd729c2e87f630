import Verif.Vector.Model
import Mathlib.Tactic.Common
import Mathlib.Data.List.Lemmas

/-! # C34: the vector behaves as a growable list -/

namespace ReactorC.Vector

/-! ## Specification -/

/-- A growable list of pointers.  `pad` stands for whatever the cells between the old end and a newly
accessed index contain. -/
inductive Spec : List (Option Nat) → Op → Res → List (Option Nat) → Prop
  | push (l : List (Option Nat)) (x : Nat) : Spec l (.push x) .unit (l ++ [some x])
  | pushall (l : List (Option Nat)) (xs : List Nat) : Spec l (.pushall xs) .unit (l ++ xs.map some)
  | popEmpty : Spec [] .pop .empty []
  | pop (l : List (Option Nat)) (x : Option Nat) : Spec (l ++ [x]) .pop (.value x) l
  | readIn (l : List (Option Nat)) (i : Nat) (h : i < l.length) : Spec l (.readAt i) (.value l[i]) l
  | readOut (l pad : List (Option Nat)) (x : Option Nat) :
      Spec l (.readAt (l.length + pad.length)) (.value x) (l ++ pad ++ [x])
  | writeIn (l : List (Option Nat)) (i x : Nat) (h : i < l.length) : Spec l (.writeAt i x) .unit (l.set i (some x))
  | writeOut (l pad : List (Option Nat)) (x : Nat) :
      Spec l (.writeAt (l.length + pad.length) x) .unit (l ++ pad ++ [some x])
  | vote (l : List (Option Nat)) : Spec l .vote .unit l

/-- Histories of the specification. -/
inductive SpecRun : List (Option Nat) → List Op → List Res → List (Option Nat) → Prop
  | nil (l : List (Option Nat)) : SpecRun l [] [] l
  | cons {l l' l'' : List (Option Nat)} {o : Op} {os : List Op} {r : Res} {rs : List Res} :
      Spec l o r l' → SpecRun l' os rs l'' → SpecRun l (o :: os) (r :: rs) l''

/-! ## Lemmas -/

/-- The list a vector stands for. -/
def items (v : Vec) : List (Option Nat) := v.buf.take v.next

structure Ok (v : Vec) : Prop where
  cap : 0 < v.buf.length
  le : v.next ≤ v.buf.length
  nf : v.fault = false

theorem items_length {v : Vec} (h : Ok v) : (items v).length = v.next := by
  simp [items, Nat.min_eq_left h.le]

theorem length_realloc (b : List (Option Nat)) (n : Nat) : (realloc b n).length = n := by
  simp only [realloc, List.length_append, List.length_take, List.length_replicate]; omega

theorem take_realloc (b : List (Option Nat)) (n k : Nat) (hk : k ≤ n) (hb : k ≤ b.length) :
    (realloc b n).take k = b.take k := by
  simp only [realloc, List.take_append, List.length_take]
  rw [List.take_take, Nat.min_eq_left hk]
  have : k - min n b.length = 0 := by omega
  simp [this]

theorem resize_ok {v : Vec} (h : Ok v) {n : Nat} (hn : v.next ≤ n) :
    Ok (resize v n) ∧ (resize v n).next = v.next ∧ items (resize v n) = items v ∧
      (0 < n → (resize v n).buf.length = n) := by
  unfold resize
  split
  · exact ⟨h, rfl, rfl, fun h => by omega⟩
  · refine ⟨⟨?_, ?_, ?_⟩, rfl, ?_, fun _ => length_realloc _ _⟩
    · simp only [length_realloc]; omega
    · simp only [length_realloc]; exact hn
    · simp [h.nf]; omega
    · simp only [items]; exact take_realloc _ _ _ hn h.le

theorem makeRoom_ok {v : Vec} (h : Ok v) :
    Ok (makeRoom v) ∧ items (makeRoom v) = items v ∧ (makeRoom v).next = v.next ∧ v.next < (makeRoom v).buf.length := by
  unfold makeRoom
  split
  · rename_i he
    obtain ⟨a, b, c, d⟩ := resize_ok (v := { v with votesRequired := v.votesRequired + 1 }) ⟨h.cap, h.le, h.nf⟩
      (n := v.buf.length * 2) (by have := h.cap; simp only; omega)
    refine ⟨a, c, b, ?_⟩
    have := h.cap
    rw [d (by omega)]; omega
  · exact ⟨h, rfl, rfl, by have := h.le; omega⟩

theorem take_set_succ {l : List (Option Nat)} {i : Nat} (h : i < l.length) (x : Option Nat) :
    (l.set i x).take (i + 1) = l.take i ++ [x] := by
  have hl : i < (l.set i x).length := by simpa using h
  rw [List.take_succ_eq_append_getElem hl, List.getElem_set_self]
  congr 1
  exact List.take_set_of_le (Nat.le_refl _)

theorem storeAll_ok (xs : List Nat) : ∀ (v : Vec) (i : Nat), i + xs.length ≤ v.buf.length → v.fault = false →
    (storeAll v i xs).fault = false ∧ (storeAll v i xs).buf.length = v.buf.length ∧
      (storeAll v i xs).buf.take (i + xs.length) = v.buf.take i ++ xs.map some := by
  induction xs with
  | nil => intro v i _ hf; exact ⟨hf, rfl, by simp [storeAll]⟩
  | cons x xs ih =>
    intro v i hle hf
    simp only [List.length_cons] at hle
    obtain ⟨a, b, c⟩ := ih (store v i (some x)) (i + 1) (by simp [store]; omega)
      (by simp [store, hf]; omega)
    refine ⟨a, by rw [storeAll, b]; simp [store], ?_⟩
    rw [storeAll]
    have : i + (x :: xs).length = i + 1 + xs.length := by simp; omega
    rw [this, c]
    simp only [store]
    rw [take_set_succ (by omega)]
    simp

theorem growTo_spec (size idx : Nat) (h : 0 < size) : ∃ n, growTo size idx = some n ∧ idx < n ∧ size ≤ n := by
  induction hd : idx + 1 - size using Nat.strongRecOn generalizing size with
  | _ d ih =>
    unfold growTo
    rw [if_neg (by omega)]
    split
    · rename_i hle
      obtain ⟨n, a, b, c⟩ := ih (idx + 1 - size * 2) (by omega) (size * 2) (by omega) rfl
      exact ⟨n, a, b, by omega⟩
    · exact ⟨size, rfl, by omega, Nat.le_refl _⟩

theorem at_ok {v : Vec} (h : Ok v) (idx : Nat) :
    Ok («at» v idx) ∧ idx < («at» v idx).buf.length ∧ («at» v idx).next = max v.next (idx + 1) ∧
      («at» v idx).buf.take v.next = v.buf.take v.next := by
  unfold «at»
  dsimp only
  generalize hv : (if idx + 1 > v.next then { v with next := idx + 1 } else v) = w
  have h1 : w.buf = v.buf := by rw [← hv]; split <;> rfl
  have h2 : w.next = max v.next (idx + 1) := by rw [← hv]; split <;> simp <;> omega
  have h3 : w.fault = false := by rw [← hv]; split <;> exact h.nf
  split
  · rename_i hge
    have hc := h.cap
    obtain ⟨n, e, hn1, hn2⟩ := growTo_spec (w.buf.length * 2) idx (by rw [h1]; omega)
    rw [e]
    simp only [resize, if_neg (show ¬ n = 0 by omega)]
    rw [h1] at hn2 hge
    have hle := h.le
    refine ⟨⟨?_, ?_, ?_⟩, ?_, h2, ?_⟩
    · simp only [length_realloc]; omega
    · simp only [length_realloc]; omega
    · simp [h3]; omega
    · simp only [length_realloc]; omega
    · rw [h1]; exact take_realloc _ _ _ (by omega) hle
  · rename_i hlt
    rw [h1] at hlt
    exact ⟨⟨by rw [h1]; exact h.cap, by rw [h1]; omega, h3⟩, by rw [h1]; omega, h2, by rw [h1]⟩

theorem split_items {b : List (Option Nat)} {n i : Nat} (hn : n ≤ i) (hi : i < b.length) :
    ∃ pad, pad.length = i - n ∧ b.take (i + 1) = b.take n ++ pad ++ [b[i]] := by
  refine ⟨(b.take i).drop n, by simp; omega, ?_⟩
  rw [List.take_succ_eq_append_getElem hi]
  congr 1
  have := List.take_append_drop n (b.take i)
  rw [List.take_take, Nat.min_eq_left hn] at this
  exact this.symm

theorem exec_ok {v : Vec} (h : Ok v) (o : Op) :
    Ok (exec v o).1 ∧ Spec (items v) o (exec v o).2 (items (exec v o).1) := by
  cases o with
  | push x =>
    obtain ⟨a, b, c, d⟩ := makeRoom_ok h
    refine ⟨⟨?_, ?_, ?_⟩, ?_⟩
    · simp only [exec, push, store, List.length_set]; exact a.cap
    · simp only [exec, push, store, List.length_set]; omega
    · simp [exec, push, store, a.nf]; omega
    · have : items (exec v (.push x)).1 = items v ++ [some x] := by
        simp only [exec, push, store, items]
        rw [take_set_succ (by omega)]
        have : (makeRoom v).buf.take (makeRoom v).next = items v := b
        rw [this]; rfl
      rw [this]; exact Spec.push _ _
  | pushall xs =>
    have hw : ∃ w, w = (if v.next + xs.length > v.buf.length then resize v ((v.next + xs.length) * 2) else v) ∧
        Ok w ∧ w.next = v.next ∧ items w = items v ∧ v.next + xs.length ≤ w.buf.length := by
      refine ⟨_, rfl, ?_⟩
      split
      · obtain ⟨a, b, c, d⟩ := resize_ok h (n := (v.next + xs.length) * 2) (by omega)
        have := h.cap
        exact ⟨a, b, c, by rw [d (by omega)]; omega⟩
      · exact ⟨h, rfl, rfl, by omega⟩
    obtain ⟨w, hw, a, b, c, d⟩ := hw
    obtain ⟨e1, e2, e3⟩ := storeAll_ok xs w w.next (by rw [b]; exact d) a.nf
    have hex : (exec v (.pushall xs)).1 = { storeAll w w.next xs with next := w.next + xs.length } := by
      simp only [exec, pushall, ← hw]
    rw [hex]
    refine ⟨⟨?_, ?_, e1⟩, ?_⟩
    · simp only [e2]; exact a.cap
    · show w.next + xs.length ≤ (storeAll w w.next xs).buf.length
      rw [e2, b]; exact d
    · have : items { storeAll w w.next xs with next := w.next + xs.length } = items v ++ xs.map some := by
        simp only [items, e3]
        have : w.buf.take w.next = items v := c
        rw [this]; rfl
      rw [this]; exact Spec.pushall _ _
  | pop =>
    simp only [exec, pop]
    by_cases hz : v.next = 0
    · simp only [hz, if_true]
      have hi : items v = [] := by simp [items, hz]
      rw [hi]
      have key : ∀ w : Vec, Ok w → w.next = 0 → Ok w ∧ Spec [] Op.pop Res.empty (items w) := by
        intro w hw hw0
        refine ⟨hw, ?_⟩
        have : items w = [] := by simp [items, hw0]
        rw [this]; exact Spec.popEmpty
      split
      · split
        · obtain ⟨a, b, c, d⟩ := resize_ok h (n := v.buf.length / 2) (by omega)
          exact key _ a (b.trans hz)
        · exact key _ h hz
      · exact key _ h hz
    · simp only [if_neg hz]
      have hle := h.le
      refine ⟨⟨h.cap, by simp only; omega, by simp [h.nf]; omega⟩, ?_⟩
      have hlt : v.next - 1 < v.buf.length := by omega
      have hi : items v = v.buf.take (v.next - 1) ++ [v.buf[v.next - 1]] := by
        simp only [items]
        conv => lhs; rw [show v.next = v.next - 1 + 1 by omega]
        exact List.take_succ_eq_append_getElem hlt
      rw [hi, List.getElem?_eq_getElem hlt]
      exact Spec.pop _ _
  | readAt i =>
    obtain ⟨a, b, c, d⟩ := at_ok h i
    refine ⟨⟨a.cap, a.le, by simp [exec, readAt, a.nf]; omega⟩, ?_⟩
    have hres : (exec v (.readAt i)).2 = .value («at» v i).buf[i] := by
      simp only [exec, readAt, List.getElem?_eq_getElem b, Option.join_some]
    have hit : items (exec v (.readAt i)).1 = («at» v i).buf.take (max v.next (i + 1)) := by
      simp only [exec, readAt, items, c]
    rw [hres, hit]
    by_cases hi : i < v.next
    · have : max v.next (i + 1) = v.next := by omega
      rw [this, d]
      have hl : i < (items v).length := by rw [items_length h]; exact hi
      have hv : («at» v i).buf[i] = (items v)[i] := by
        have h1 : (items v)[i]? = («at» v i).buf[i]? := by
          simp only [items]; rw [← d, List.getElem?_take, if_pos hi]
        rw [List.getElem?_eq_getElem hl, List.getElem?_eq_getElem b] at h1
        exact (Option.some.inj h1).symm
      rw [hv]; exact Spec.readIn _ i hl
    · have : max v.next (i + 1) = i + 1 := by omega
      rw [this]
      obtain ⟨pad, hp, he⟩ := split_items (n := v.next) (by omega) b
      rw [he, d]
      have hi' : i = (items v).length + pad.length := by rw [items_length h]; omega
      have := Spec.readOut (items v) pad («at» v i).buf[i]
      rw [← hi'] at this; exact this
  | writeAt i x =>
    obtain ⟨a, b, c, d⟩ := at_ok h i
    refine ⟨⟨?_, ?_, ?_⟩, ?_⟩
    · simp only [exec, writeAt, store, List.length_set]; exact a.cap
    · simp only [exec, writeAt, store, List.length_set]; exact a.le
    · simp [exec, writeAt, store, a.nf]; omega
    · have hit : items (exec v (.writeAt i x)).1 = ((«at» v i).buf.set i (some x)).take (max v.next (i + 1)) := by
        simp only [exec, writeAt, store, items, c]
      rw [hit]
      by_cases hi : i < v.next
      · have : max v.next (i + 1) = v.next := by omega
        rw [this, List.take_set, d]
        have hl : i < (items v).length := by rw [items_length h]; exact hi
        exact Spec.writeIn _ i x hl
      · have : max v.next (i + 1) = i + 1 := by omega
        rw [this]
        have b' : i < ((«at» v i).buf.set i (some x)).length := by simpa using b
        obtain ⟨pad, hp, he⟩ := split_items (n := v.next) (by omega) b'
        rw [he, List.getElem_set_self, List.take_set_of_le (by omega), d]
        have hi' : i = (items v).length + pad.length := by rw [items_length h]; omega
        have := Spec.writeOut (items v) pad x
        rw [← hi'] at this; exact this
  | vote => exact ⟨⟨h.cap, h.le, h.nf⟩, Spec.vote _⟩

theorem run_ok {v : Vec} (h : Ok v) (ops : List Op) :
    Ok (run v ops).1 ∧ SpecRun (items v) ops (run v ops).2 (items (run v ops).1) := by
  induction ops generalizing v with
  | nil => exact ⟨h, SpecRun.nil _⟩
  | cons o os ih =>
    obtain ⟨a, b⟩ := exec_ok h o
    obtain ⟨c, d⟩ := ih a
    exact ⟨c, SpecRun.cons b d⟩

/-! ## The property -/

/-- **C34** Every history on a vector created with capacity at least 1 behaves as on a growable list: no
access outside the array, no failed assertion, no endless loop, and the results are those of the list. -/
theorem C34_vector_is_growable_list (cap : Nat) (hc : 1 ≤ cap) (ops : List Op) :
    ∃ v rs l, run (new cap) ops = (v, rs) ∧ v.fault = false ∧ SpecRun [] ops rs l ∧ size v = l.length ∧
      v.next ≤ v.buf.length := by
  have h0 : Ok (new cap) := ⟨by simp [new]; omega, by simp [new], rfl⟩
  obtain ⟨a, b⟩ := run_ok h0 ops
  exact ⟨_, _, _, rfl, a.nf, b, (items_length a).symm, a.le⟩

/-- **C34** What was pushed last comes out first, whatever the vector did before and whatever resizing the
history of pushes and votes causes. -/
theorem C34_pop_returns_last_pushed (cap : Nat) (hc : 1 ≤ cap) (ops : List Op) (x : Nat) :
    ∃ v, v = (run (new cap) ops).1 ∧ (exec (exec v (.push x)).1 .pop).2 = .value (some x) ∧
      size (exec (exec v (.push x)).1 .pop).1 = size v := by
  have h0 : Ok (new cap) := ⟨by simp [new]; omega, by simp [new], rfl⟩
  obtain ⟨a, _⟩ := run_ok h0 ops
  refine ⟨_, rfl, ?_⟩
  generalize (run (new cap) ops).1 = v at a
  obtain ⟨b, c⟩ := exec_ok a (.push x)
  obtain ⟨d, e⟩ := exec_ok b .pop
  have inv : ∀ (l l' : List (Option Nat)) (r : Res), Spec l (.push x) r l' → l' = l ++ [some x] := by
    intro l l' r hs; cases hs; rfl
  have hp := inv _ _ _ c
  rw [hp] at e
  have key : ∀ (l l' : List (Option Nat)) (y : Option Nat) (r : Res), Spec (l ++ [y]) .pop r l' → r = .value y ∧ l' = l := by
    intro l l' y r hs
    generalize hg : l ++ [y] = m at hs
    cases hs with
    | popEmpty => simp at hg
    | pop l2 y2 =>
      obtain ⟨h1, h2⟩ := List.append_inj' hg rfl
      simp only [List.cons.injEq, and_true] at h2
      exact ⟨by rw [h2], h1.symm⟩
  obtain ⟨k1, k2⟩ := key _ _ _ _ e
  refine ⟨k1, ?_⟩
  have h1 := items_length d
  have h2 := items_length a
  rw [k2] at h1
  simp only [size]; omega

/-- **C34**, a documented behaviour that the code does not have: "if no element at `idx` has been
previously set, then the value pointed to by the returned pointer will be NULL".  The cell is not
initialized, or holds an element that was popped before. -/
theorem C34_unset_element_is_not_null :
    (run (new 4) [.readAt 2]).2 = [.value none] ∧
    (run (new 4) [.push 7, .pop, .readAt 0]).2 = [.unit, .value (some 7), .value (some 7)] := by decide

/-- **C34** needs capacity at least 1: a push to a vector created with capacity 0 writes outside the array,
and `vector_at` does not return. -/
theorem C34_capacity_zero_faults (x i : Nat) :
    (run (new 0) [.push x]).1.fault = true ∧ (run (new 0) [.readAt i]).1.fault = true := by
  constructor
  · simp [run, exec, push, makeRoom, resize, store, new]
  · simp [run, exec, readAt, «at», new, growTo]

/-- A history that grows, reads, writes and shrinks: the hypotheses are met and the results are as listed. -/
example : (run (new 1) [.push 5, .push 6, .pushall [7, 8, 9], .readAt 1, .writeAt 0 4, .pop, .vote, .readAt 0]).2 =
    [.unit, .unit, .unit, .value (some 6), .unit, .value (some 9), .unit, .value (some 4)] := by decide

end ReactorC.Vector
