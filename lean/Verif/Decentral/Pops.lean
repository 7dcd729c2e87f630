import Verif.Decentral.Gen

/-! # Which deliveries popped events make -/

namespace ReactorC.Decentral

open ReactorC.Level (Config upd bump)

theorem pop1_ports (cur : Tag) (ds : List Delivery) (e : Ev) (h : (ds.map (·.port)).Nodup) :
    ((pop1 cur ds e).map (·.port)).Nodup := by
  unfold pop1
  cases hp : e.port with
  | none => exact h
  | some i =>
    simp only []
    split
    · rw [List.map_map]
      have : ((fun d : Delivery => d.port) ∘ fun d : Delivery => if d.port = i then { d with val := e.val } else d) =
          fun d : Delivery => d.port := by
        funext d
        simp only [Function.comp]
        split <;> rfl
      rw [this]; exact h
    · rename_i ha
      rw [List.map_append, List.map_cons, List.map_nil, List.nodup_append]
      refine ⟨h, List.nodup_singleton _, ?_⟩
      intro x hx y hy
      rw [List.mem_singleton] at hy
      obtain ⟨d, hd, rfl⟩ := List.mem_map.1 hx
      intro hxy
      apply ha
      rw [List.any_eq_true]
      exact ⟨d, hd, by rw [decide_eq_true_eq, hxy, hy]⟩

/-- Each port gets one delivery at most. -/
theorem pops_ports (cur : Tag) (l : List Ev) : ((pops cur l).map (·.port)).Nodup := by
  unfold pops
  suffices ∀ (l : List Ev) (ds : List Delivery), (ds.map (·.port)).Nodup → ((l.foldl (pop1 cur) ds).map (·.port)).Nodup by
    exact this l [] List.nodup_nil
  intro l
  induction l with
  | nil => intro ds h; exact h
  | cons e l ih => intro ds h; exact ih _ (pop1_ports cur ds e h)

/-- Each port with an event gets a delivery. -/
theorem pops_port (cur : Tag) (l : List Ev) (i : Nat) : (∃ d ∈ pops cur l, d.port = i) ↔ ∃ e ∈ l, e.port = some i := by
  unfold pops
  suffices ∀ (l : List Ev) (ds : List Delivery), (∃ d ∈ l.foldl (pop1 cur) ds, d.port = i) ↔
      (∃ d ∈ ds, d.port = i) ∨ ∃ e ∈ l, e.port = some i by
    rw [this l []]
    simp
  intro l
  induction l with
  | nil => intro ds; simp
  | cons e l ih =>
    intro ds
    rw [List.foldl_cons, ih, pop1_port]
    simp only [List.mem_cons, exists_eq_or_imp, or_assoc]

/-- If each port has one event at most. -/
def OnePerPort (l : List Ev) : Prop := l.Pairwise fun e e' => ∀ i, e.port = some i → e'.port ≠ some i

theorem OnePerPort.perm {l l' : List Ev} (h : OnePerPort l) (hp : l.Perm l') : OnePerPort l' := by
  refine hp.pairwise h ?_
  intro x y hxy i hy hx
  exact hxy i hx hy

/-- If each port has one event at most, every event is delivered. -/
theorem pops_all (cur : Tag) (l : List Ev) (h : OnePerPort l) (e : Ev) (he : e ∈ l) (i : Nat) (hi : e.port = some i) :
    ⟨i, e.intended, e.val, cur, decide (e.intended < cur)⟩ ∈ pops cur l := by
  unfold pops
  suffices ∀ (l : List Ev) (ds : List Delivery), OnePerPort l → (∀ x ∈ l, ∀ j, x.port = some j → ∀ d ∈ ds, d.port ≠ j) →
      (∀ d ∈ ds, d ∈ l.foldl (pop1 cur) ds) ∧
      (e ∈ l → ⟨i, e.intended, e.val, cur, decide (e.intended < cur)⟩ ∈ l.foldl (pop1 cur) ds) by
    exact (this l [] h (fun _ _ _ _ _ h => (by cases h))).2 he
  intro l
  induction l with
  | nil => intro ds _ _; exact ⟨fun d hd => hd, fun h => (by cases h)⟩
  | cons x l ih =>
    intro ds hl hds
    unfold OnePerPort at hl
    rw [List.pairwise_cons] at hl
    have hstep : pop1 cur ds x = ds ∨ ∃ j, x.port = some j ∧
        pop1 cur ds x = ds ++ [⟨j, x.intended, x.val, cur, decide (x.intended < cur)⟩] := by
      unfold pop1
      cases hp : x.port with
      | none => exact Or.inl rfl
      | some j =>
        right
        refine ⟨j, rfl, ?_⟩
        simp only []
        have : ¬ (ds.any fun d => decide (d.port = j)) = true := by
          rw [List.any_eq_true]
          rintro ⟨d, hd, hj⟩
          rw [decide_eq_true_eq] at hj
          exact hds x List.mem_cons_self j hp d hd hj
        rw [if_neg this]
        have hb : decide (lf_tag_compare x.intended cur < 0) = decide (x.intended < cur) := by
          rw [decide_eq_decide, cmp_lt_zero]
        rw [hb]
    have hsub : ∀ d ∈ ds, d ∈ pop1 cur ds x := by
      intro d hd
      rcases hstep with h1 | ⟨j, _, h1⟩
      · rw [h1]; exact hd
      · rw [h1]; exact List.mem_append_left _ hd
    have hnew : ∀ y ∈ l, ∀ j, y.port = some j → ∀ d ∈ pop1 cur ds x, d.port ≠ j := by
      intro y hy j hj d hd
      rcases hstep with h1 | ⟨k, hk, h1⟩
      · rw [h1] at hd; exact hds y (List.mem_cons_of_mem _ hy) j hj d hd
      · rw [h1] at hd
        rcases List.mem_append.1 hd with hd | hd
        · exact hds y (List.mem_cons_of_mem _ hy) j hj d hd
        · rw [List.mem_singleton] at hd
          subst hd
          intro hkj
          exact hl.1 y hy k hk (by rw [hj]; exact congrArg some hkj.symm)
    obtain ⟨h1, h2⟩ := ih (pop1 cur ds x) hl.2 hnew
    rw [List.foldl_cons]
    refine ⟨fun d hd => h1 d (hsub d hd), fun he => ?_⟩
    rcases List.mem_cons.1 he with rfl | he
    · apply h1
      rcases hstep with h3 | ⟨j, hj, h3⟩
      · exfalso
        have := (pop1_port cur ds e i).2 (Or.inr hi)
        rw [h3] at this
        obtain ⟨d, hd, hdi⟩ := this
        exact hds e List.mem_cons_self i hi d hd hdi
      · rw [h3]
        rw [hi] at hj
        cases hj
        exact List.mem_append_right _ List.mem_cons_self
    · exact h2 he

end ReactorC.Decentral
