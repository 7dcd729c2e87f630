import Verif.Memory.Inv

/-! # The accesses of the functions that free memory -/

namespace Verif.Memory

theorem lfFree_targets {l : List (Nat × Nat)} {a : Nat} (h : a ∈ targets (lfFree l)) : a ∈ recs l := by
  rw [mem_targets] at h
  simp only [lfFree, recs, List.mem_flatMap, List.mem_cons, List.not_mem_nil, or_false, Act.read.injEq, Act.free.injEq,
    Option.some.injEq, reduceCtorEq, false_or] at h ⊢
  rcases h with ⟨q, hq, h⟩ | ⟨q, hq, h⟩
  · exact ⟨q, hq, .inl (by tauto)⟩
  · exact ⟨q, hq, by tauto⟩

theorem lfFree_frees {l : List (Nat × Nat)} {a : Nat} : a ∈ frees (lfFree l) ↔ a ∈ recs l := by
  refine ⟨fun h => lfFree_targets (frees_targets h), ?_⟩
  intro h
  rw [mem_frees]
  simp only [lfFree, recs, List.mem_flatMap, List.mem_cons, List.not_mem_nil, or_false, Act.free.injEq,
    Option.some.injEq, reduceCtorEq, false_or] at h ⊢
  obtain ⟨q, hq, h⟩ := h
  exact ⟨q, hq, by tauto⟩

theorem lfFree_ordered {l : List (Nat × Nat)} (h : (recs l).Nodup) : Ordered (lfFree l) := by
  refine ordered_flatMap (obj := fun q : Nat × Nat => [q.1, q.2]) ?_ ?_ h
  · intro q hq
    have : q.1 ≠ q.2 := by
      have := (List.nodup_flatMap.1 h).1 q hq
      simpa using this
    simp [Ordered, targets, Ne.symm this]
  · intro q hq a ha
    simp [targets] at ha
    simp
    tauto

theorem freeReactor_targets {s : St} {r a : Nat} (h : a ∈ targets (freeReactor s r)) : a ∈ memOf s.allocs r := by
  rw [mem_targets] at h
  simp only [freeReactor, List.cons_append, List.mem_cons, List.mem_append, Act.read.injEq, Option.some.injEq,
    List.not_mem_nil, or_false, reduceCtorEq, false_or, Act.free.injEq] at h
  simp only [memOf, List.mem_cons]
  have h1 := @lfFree_targets (s.allocs r) a
  rw [mem_targets] at h1
  tauto

theorem freeReactor_frees {s : St} {r a : Nat} : a ∈ frees (freeReactor s r) ↔ a ∈ memOf s.allocs r := by
  refine ⟨fun h => freeReactor_targets (frees_targets h), ?_⟩
  intro h
  have h1 := @lfFree_frees (s.allocs r) a
  rw [mem_frees] at h1 ⊢
  simp only [freeReactor, List.cons_append, List.mem_cons, List.mem_append, List.not_mem_nil, or_false, reduceCtorEq,
    false_or, Act.free.injEq, Option.some.injEq]
  simp only [memOf, List.mem_cons] at h
  tauto

theorem freeReactor_ordered {s : St} {r : Nat} (h : (memOf s.allocs r).Nodup) : Ordered (freeReactor s r) := by
  obtain ⟨h1, h2⟩ := List.nodup_cons.1 h
  refine ⟨by simp, ordered_append (lfFree_ordered h2) ?_ ?_⟩
  · exact ⟨by simp [targets], trivial⟩
  · intro a ha
    rw [lfFree_frees] at ha
    simp only [targets, List.mem_cons, List.not_mem_nil, or_false]
    rintro rfl
    exact h1 ha

end Verif.Memory
