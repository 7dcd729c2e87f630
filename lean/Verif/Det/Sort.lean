import Verif.Det.Swap

/-!
# The steps of a tag can be sorted

If the reactions that depend on each other are executed one after the other, the steps of a tag have the same result as the
reactions one after the other in the order of the program.
-/

namespace ReactorC.Det

open Np (put)

variable {Cell Val : Type} [DecidableEq Cell] {P : Program Cell Val} {first : Nat → Nat → Prop} {reads writes : Nat → Cell → Prop}

/-- The steps of one tag, of reactions that are left. -/
structure Steps (P : Program Cell Val) (first : Nat → Nat → Prop) (ord : List Nat) (l : List X) (c c' : Conf Cell Val) : Prop where
  exec : c.exec P l = some c'
  before : ∀ r, c.code r = none
  after : ∀ r, c'.code r = none
  left : ∀ x ∈ l, x.who ∈ ord
  order : l.Pairwise fun x y => ¬ first y.who x.who
  asked : ∀ r ∈ ord, (∃ x ∈ l, x.who = r) ↔ c'.trig r = true
  once : ∀ r, l.countP (fun x => decide (x.who = r) && decide (x.kind = .start)) ≤ 1

theorem turns (hP : P.Contract first reads writes) : ∀ (ord : List Nat), (∀ r ∈ ord, r ∈ P.order) →
    ord.Pairwise (fun r r' => r ≠ r' ∧ ¬ first r' r) → ∀ {l : List X} {c c' : Conf Cell Val}, Steps P first ord l c c' →
    ord.foldl P.turn (c.cells, c.trig) = (c'.cells, c'.trig)
  | [], _, _, l, c, c', h => by
    cases l with
    | nil => have := h.exec; cases this; rfl
    | cons x l => exact absurd (h.left x (by simp)) (by simp)
  | r :: ord, hin, hs, l, c, c', h => by
    rw [List.pairwise_cons] at hs
    have hb := hP.within
    have hok : c.Ok reads writes (fun r r' => first r r' ∧ r' ∈ P.order) := fun q k hk => by rw [h.before] at hk; cases hk
    have hind : l.Pairwise fun x y => x.who ≠ r → y.who = r → Indep reads writes x.who r := by
      refine (List.pairwise_iff_forall_sublist.2 ?_)
      intro x y hxy hx hy
      have hmem : x ∈ l := hxy.subset (by simp)
      have hno : ¬ first r x.who := by
        have := List.pairwise_iff_forall_sublist.1 h.order hxy
        rw [hy] at this; exact this
      have hxo : x.who ∈ ord := by
        rcases List.mem_cons.1 (h.left x hmem) with e | e
        · exact absurd e hx
        · exact e
      have hno' : ¬ first x.who r := (hs.1 _ hxo).2
      have hr1 := hin r (by simp)
      have hx1 := hin x.who (by simp [hxo])
      refine fun a => ⟨fun hw => ⟨fun k => ?_, fun k => ?_⟩, fun hw => ⟨fun k => ?_, fun k => ?_⟩⟩
      · exact (hP.conflict _ _ a hx1 hr1 hx hw (.inl k)).elim hno' hno
      · exact (hP.conflict _ _ a hx1 hr1 hx hw (.inr k)).elim hno' hno
      · exact (hP.conflict _ _ a hr1 hx1 (Ne.symm hx) hw (.inl k)).elim hno hno'
      · exact (hP.conflict _ _ a hr1 hx1 (Ne.symm hx) hw (.inr k)).elim hno hno'
    have hf := Conf.front hb hok hind h.exec
    rw [Conf.exec_append] at hf
    cases hm : c.exec P (l.filter fun x => decide (x.who = r)) with
    | none => rw [hm] at hf; cases hf
    | some c1 =>
      rw [hm] at hf
      have hf' : c1.exec P (l.filter fun x => decide (x.who ≠ r)) = some c' := hf
      have hmem1 : ∀ x ∈ l.filter (fun x => decide (x.who = r)), x.who = r := fun x hx => by
        rw [List.mem_filter, decide_eq_true_eq] at hx; exact hx.2
      have hmem2 : ∀ x ∈ l.filter (fun x => decide (x.who ≠ r)), x ∈ l ∧ x.who ≠ r := fun x hx => by
        rw [List.mem_filter, decide_eq_true_eq] at hx; exact hx
      have hc1r : c1.code r = none := by
        rw [← h.after r, Conf.exec_other hf' (fun x hx => (hmem2 x hx).2)]
      have hc1 : ∀ q, c1.code q = none := fun q => by
        by_cases e : q = r
        · rw [e]; exact hc1r
        · rw [Conf.exec_other hm (fun x hx => by rw [hmem1 x hx]; exact Ne.symm e)]; exact h.before q
      have hrest : Steps P first ord (l.filter fun x => decide (x.who ≠ r)) c1 c' := by
        refine ⟨hf', hc1, h.after, fun x hx => ?_, h.order.filter _, fun q hq => ?_, fun q => ?_⟩
        · rcases List.mem_cons.1 (h.left x (hmem2 x hx).1) with e | e
          · exact absurd e (hmem2 x hx).2
          · exact e
        · rw [← h.asked q (by simp [hq])]
          constructor
          · rintro ⟨x, hx, e⟩; exact ⟨x, (hmem2 x hx).1, e⟩
          · rintro ⟨x, hx, e⟩
            exact ⟨x, by rw [List.mem_filter, decide_eq_true_eq]; exact ⟨hx, by rw [e]; exact Ne.symm (hs.1 q hq).1⟩, e⟩
        · exact Nat.le_trans (List.Sublist.countP_le (List.filter_sublist ..)) (h.once q)
      have ih := turns hP ord (fun q hq => hin q (by simp [hq])) hs.2 hrest
      rw [List.foldl_cons]
      have key : P.turn (c.cells, c.trig) r = (c1.cells, c1.trig) := by
        have hfin := h.asked r (by simp)
        cases hfl : l.filter (fun x => decide (x.who = r)) with
        | nil =>
          rw [hfl] at hm; cases hm
          have : c.trig r ≠ true := by
            intro ht
            obtain ⟨x, hx, e⟩ := hfin.2 (Conf.exec_trig h.exec ht)
            have : x ∈ l.filter (fun x => decide (x.who = r)) := by rw [List.mem_filter, decide_eq_true_eq]; exact ⟨hx, e⟩
            rw [hfl] at this; cases this
          unfold Program.turn
          rw [if_neg this]
        | cons y f =>
          have hy : y ∈ l ∧ y.who = r := by
            have : y ∈ l.filter (fun x => decide (x.who = r)) := by rw [hfl]; simp
            rw [List.mem_filter, decide_eq_true_eq] at this; exact this
          have htr : c.trig r = true := by
            refine Conf.exec_trig_inv hb hok h.exec (fun x hx k => ?_) (hfin.1 ⟨y, hy⟩)
            rcases List.mem_cons.1 (h.left x hx) with e | e
            · rw [e] at k; exact hP.irrefl r k.1
            · exact (hs.1 _ e).2 k.1
          unfold Program.turn
          rw [if_pos htr]
          rw [hfl] at hm hmem1
          obtain ⟨c2, h1, h2⟩ := Conf.exec_cons hm
          have hcy := h.before r
          unfold Conf.step at h1
          rw [hy.2, hcy] at h1
          have hcount := h.once r
          cases hk : y.kind with
          | act => rw [hk] at h1; cases h1
          | finish => rw [hk] at h1; cases h1
          | start =>
            rw [hk] at h1; cases h1
            refine (Conf.alone hc1r (c := ⟨_, _, _⟩) (put_eq c.code r (some (P.body r))) (fun x hx => hmem1 x (by simp [hx])) (fun x hx hkx => ?_) h2).symm
            have e1 : l.countP (fun x => decide (x.who = r) && decide (x.kind = .start)) =
                (l.filter fun x => decide (x.who = r)).countP (fun x => decide (x.kind = .start)) := by
              rw [List.countP_filter]; congr 1; funext x; exact Bool.and_comm _ _
            rw [e1, hfl, List.countP_cons_of_pos (by simp [hk])] at hcount
            have : 0 < f.countP (fun x => decide (x.kind = .start)) := List.countP_pos_iff.2 ⟨x, hx, by simp [hkx]⟩
            omega
      rw [key]
      exact ih

end ReactorC.Det
