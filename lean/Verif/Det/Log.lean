import Verif.Det.Overlay
import Verif.Det.Sort

/-!
# Every execution has the results of the reactions one after the other
-/

namespace ReactorC.Det

open Np (Ev put thisTag starts finishes Good Complete)

/-! ### The record -/

theorem starts_split {y : Nat} : ∀ {q : List Ev}, starts y q ≠ 0 → ∃ later w before, q = later ++ .start w y :: before
  | [], h => absurd rfl h
  | .start w r :: q, h => by
    by_cases e : r = y
    · subst e; exact ⟨[], w, q, rfl⟩
    · have : starts y q ≠ 0 := by
        intro k; apply h; show (if r = y then 1 else 0) + starts y q = 0; rw [if_neg e, k]
      obtain ⟨l, w', b, k⟩ := starts_split this
      exact ⟨.start w r :: l, w', b, by rw [k]; rfl⟩
  | .trigger r :: q, h => by obtain ⟨l, w', b, k⟩ := starts_split (q := q) h; exact ⟨.trigger r :: l, w', b, by rw [k]; rfl⟩
  | .finish w r :: q, h => by obtain ⟨l, w', b, k⟩ := starts_split (q := q) h; exact ⟨.finish w r :: l, w', b, by rw [k]; rfl⟩
  | .advance :: q, h => by obtain ⟨l, w', b, k⟩ := starts_split (q := q) h; exact ⟨.advance :: l, w', b, by rw [k]; rfl⟩
  | .stop :: q, h => by obtain ⟨l, w', b, k⟩ := starts_split (q := q) h; exact ⟨.stop :: l, w', b, by rw [k]; rfl⟩

theorem finishes_cons_le (r : Nat) (e : Ev) (q : List Ev) : finishes r q ≤ finishes r (e :: q) := by
  cases e <;> first | exact Nat.le_refl _ | exact Nat.le_add_left _ _

theorem finishes_le (r : Nat) (b : List Ev) : ∀ l : List Ev, finishes r b ≤ finishes r (l ++ b)
  | [] => Nat.le_refl _
  | e :: l => Nat.le_trans (finishes_le r b l) (finishes_cons_le r e (l ++ b))

theorem finishes_before (r : Nat) {l b : List Ev} {e : Ev} : finishes r b ≤ finishes r (l ++ e :: b) :=
  Nat.le_trans (finishes_cons_le r e b) (finishes_le r _ l)

theorem thisTag_cons {e : Ev} (he : e ≠ .advance) (h : List Ev) : thisTag (e :: h) = e :: thisTag h := by
  cases e <;> first | rfl | exact absurd rfl he

/-- While a reaction executes, no reaction that depends on it has been started. -/
theorem running_first {first : Nat → Nat → Prop} {h : List Ev} (g : Good first h) {r y : Nat}
    (hr : finishes r (thisTag h) + 1 = starts r (thisTag h)) (hy : starts y (thisTag h) ≠ 0) : ¬ first r y := by
  intro hf
  obtain ⟨l, w, b, e⟩ := starts_split hy
  have h1 := g.order l w y b e r hf (by omega)
  have h2 : finishes r b ≤ finishes r (thisTag h) := by rw [e]; exact finishes_before r
  have h3 := (g.once r).1
  omega

variable {Cell Val : Type} [DecidableEq Cell] {σ : Type}

/-! ### The tags one after the other -/

/-- The memory at the start of a tag and the reactions that are due, after `n` tags. -/
def Program.at (P : Program Cell Val) : Nat → (Cell → Val) × List Nat
  | 0 => (P.memory, P.first)
  | n + 1 => P.next (P.tag (P.at n).1 (P.at n).2)

theorem tags_next (P : Program Cell Val) : ∀ (n k : Nat),
    P.tags (n + 1) (P.at k).1 (P.at k).2 = P.tags n (P.at k).1 (P.at k).2 ++ [P.tag (P.at (k + n)).1 (P.at (k + n)).2]
  | 0, k => rfl
  | n + 1, k => by
    have := tags_next P n (k + 1)
    rw [show k + 1 + n = k + (n + 1) by omega] at this
    show P.tag _ _ :: P.tags (n + 1) (P.at (k + 1)).1 (P.at (k + 1)).2 = _
    rw [this]; rfl

theorem results_next (P : Program Cell Val) (n : Nat) : P.results (n + 1) = P.results n ++ [P.tag (P.at n).1 (P.at n).2] := by
  have := tags_next P n 0
  rw [Nat.zero_add] at this
  exact this

theorem at_in_order {P : Program Cell Val} {first : Nat → Nat → Prop} {reads writes : Nat → Cell → Prop}
    (hP : P.Contract first reads writes) : ∀ n, ∀ r ∈ (P.at n).2, r ∈ P.order
  | 0, r, h => hP.start r h
  | n + 1, r, h => hP.later _ r h

/-! ### The invariant -/

/-- What holds during a tag: `l` are the steps of the reactions at this tag so far. -/
structure Live (S : Sys σ) (P : Program Cell Val) (first : Nat → Nat → Prop) (s : σ) (m : Mem Cell Val) (l : List X) (trig : Nat → Bool) :
    Prop where
  exec : (⟨(P.at m.ends.length).1, fun _ => none, fun r => decide (r ∈ (P.at m.ends.length).2)⟩ : Conf Cell Val).exec P l =
    some ⟨m.cells, m.code, trig⟩
  runs : ∀ r, m.code r ≠ none → finishes r (thisTag (S.hist s)) + 1 = starts r (thisTag (S.hist s))
  rests : ∀ r, m.code r = none → finishes r (thisTag (S.hist s)) = starts r (thisTag (S.hist s))
  who : ∀ r, (∃ x ∈ l, x.who = r) ↔ starts r (thisTag (S.hist s)) ≠ 0
  count : ∀ r, l.countP (fun x => decide (x.who = r) && decide (x.kind = .start)) = starts r (thisTag (S.hist s))
  order : l.Pairwise fun x y => ¬ first y.who x.who
  asked : ∀ r, trig r = true ↔ Ev.trigger r ∈ thisTag (S.hist s) ∨ r ∈ m.due
  known : ∀ r, trig r = true → r ∈ P.order

structure Inv (S : Sys σ) (P : Program Cell Val) (first : Nat → Nat → Prop) (s : σ) (m : Mem Cell Val) : Prop where
  reach : S.Reach s
  ends : m.ends.reverse = P.results m.ends.length
  due : ¬ S.popping s → m.due = []
  live : Ev.stop ∉ S.hist s → ∃ l trig, Live S P first s m l trig
  idle : Ev.stop ∈ S.hist s → ∀ r, m.code r = none

section
variable {S : Sys σ} {P : Program Cell Val} {first : Nat → Nat → Prop} {reads writes : Nat → Cell → Prop}
  {s s' : σ} {m : Mem Cell Val} {l : List X} {trig : Nat → Bool}

theorem Good.no_stop {h : List Ev} {e : Ev} (g : Good first (e :: h)) : Ev.stop ∉ h := by
  intro k
  obtain ⟨a, b, e'⟩ := List.append_of_mem k
  have := g.last (e :: a) b (by rw [e']; rfl)
  cases this

/-- At the end of a tag. -/
theorem Live.ends (hP : P.Contract first reads writes) (hL : Live S P first s m l trig) (g : Good first (S.hist s))
    (hc : Complete (thisTag (S.hist s))) (hd : m.due = []) :
    m.cells = P.tag (P.at m.ends.length).1 (P.at m.ends.length).2 ∧ ∀ r, m.code r = none := by
  have hcode : ∀ r, m.code r = none := by
    intro r
    by_contra k
    have h1 := hL.runs r k
    by_cases ht : Ev.trigger r ∈ thisTag (S.hist s)
    · have := (hc r).1 ht; omega
    · have := (hc r).2 ht; omega
  refine ⟨?_, hcode⟩
  have htr : ∀ r, starts r (thisTag (S.hist s)) ≠ 0 ↔ trig r = true := by
    intro r
    rw [hL.asked r, hd]
    constructor
    · intro h; exact .inl (g.asked r h)
    · rintro (h | h)
      · have := (hc r).1 h; omega
      · cases h
  have hst : Steps P first P.order l ⟨(P.at m.ends.length).1, fun _ => none, fun r => decide (r ∈ (P.at m.ends.length).2)⟩
      ⟨m.cells, m.code, trig⟩ := by
    refine ⟨hL.exec, fun _ => rfl, hcode, fun x hx => ?_, hL.order, fun r hr => ?_, fun r => ?_⟩
    · exact hL.known _ ((htr _).1 ((hL.who _).1 ⟨x, hx, rfl⟩))
    · rw [hL.who r]; exact htr r
    · rw [hL.count r]; exact (g.once r).1
  have := turns hP P.order (fun r h => h) hP.sorted hst
  unfold Program.tag
  rw [this]

/-- A step of an executing reaction that the scheduler does not see. -/
theorem Live.act (hL : Live S P first s m l trig) (g : Good first (S.hist s)) {q : Nat} {cells : Cell → Val}
    {k : Code Cell Val} (hq : m.code q ≠ none)
    (hs : (⟨m.cells, m.code, trig⟩ : Conf Cell Val).step P ⟨q, .act⟩ = some ⟨cells, put m.code q (some k), trig⟩) :
    Live S P first s { m with cells := cells, code := put m.code q (some k) } (l ++ [⟨q, .act⟩]) trig := by
  have hrun := hL.runs q hq
  refine ⟨?_, fun r hr => ?_, fun r hr => ?_, fun r => ?_, fun r => ?_, ?_, hL.asked, hL.known⟩
  · rw [Conf.exec_append, hL.exec]
    exact Conf.exec_cons_of hs rfl
  · by_cases e : r = q
    · rw [e]; exact hrun
    · dsimp only at hr; rw [put_other _ _ e] at hr; exact hL.runs r hr
  · by_cases e : r = q
    · dsimp only at hr; rw [e, put_eq] at hr; cases hr
    · dsimp only at hr; rw [put_other _ _ e] at hr; exact hL.rests r hr
  · rw [← hL.who r]
    constructor
    · rintro ⟨x, hx, e⟩
      rcases List.mem_append.1 hx with hx | hx
      · exact ⟨x, hx, e⟩
      · rw [List.mem_singleton] at hx
        subst hx
        dsimp only at e
        subst e
        exact (hL.who q).2 (by omega)
    · rintro ⟨x, hx, e⟩; exact ⟨x, List.mem_append_left _ hx, e⟩
  · rw [List.countP_append, hL.count r]
    have : List.countP (fun x : X => decide (x.who = r) && decide (x.kind = Kind.start)) [⟨q, .act⟩] = 0 := by simp
    omega
  · rw [List.pairwise_append]
    refine ⟨hL.order, List.pairwise_singleton _ _, fun x hx y hy => ?_⟩
    rw [List.mem_singleton] at hy
    subst hy
    exact running_first g hrun ((hL.who _).1 ⟨x, hx, rfl⟩)

theorem Live.ok (hP : P.Contract first reads writes) (hL : Live S P first s m l trig) :
    (⟨m.cells, m.code, trig⟩ : Conf Cell Val).Ok reads writes (fun r r' => first r r' ∧ r' ∈ P.order) :=
  Conf.Ok.exec (c := ⟨(P.at m.ends.length).1, fun _ => none, fun r => decide (r ∈ (P.at m.ends.length).2)⟩) hP.within
    (fun _ _ k => by cases k) hL.exec

theorem Run.inv (hS : S.Sound first) (hP : P.Contract first reads writes) (h : Run S P s m) : Inv S P first s m := by
  induction h with
  | init =>
    refine ⟨.init, rfl, fun k => absurd hS.start.2 k, fun _ => ⟨[], fun r => decide (r ∈ P.first), ?_⟩,
      fun k => by rw [hS.start.1] at k; cases k⟩
    refine ⟨rfl, fun r k => absurd rfl k, fun r _ => ?_, fun r => ?_, fun r => ?_, List.Pairwise.nil, fun r => ?_, fun r k => ?_⟩
    · rw [hS.start.1]; rfl
    · rw [hS.start.1]
      exact ⟨fun k => (by obtain ⟨x, hx, _⟩ := k; cases hx), fun k => absurd rfl k⟩
    · rw [hS.start.1]; rfl
    · rw [hS.start.1, decide_eq_true_eq]
      exact ⟨.inr, fun k => k.resolve_left (by simp [thisTag])⟩
    · exact hP.start r (of_decide_eq_true k)
  | @quiet s s' m h hs hh hpop ih =>
    refine ⟨.step ih.reach hs, ih.ends, fun k => ?_, fun k => ?_, fun k => ih.idle (by rw [← hh]; exact k)⟩
    · by_cases hp : S.popping s
      · exact (hpop hp).resolve_left k
      · exact ih.due hp
    · rw [hh] at k
      obtain ⟨l, trig, hL⟩ := ih.live k
      exact ⟨l, trig, hL.exec, by rw [hh]; exact hL.runs, by rw [hh]; exact hL.rests, by rw [hh]; exact hL.who,
        by rw [hh]; exact hL.count, hL.order, by rw [hh]; exact hL.asked, hL.known⟩
  | @event s s' m r h hs hh hpop hr hend ih =>
    have g' := hS.good _ (.step ih.reach hs)
    rw [hh] at g'
    have hns := Good.no_stop g'
    refine ⟨.step ih.reach hs, ih.ends, fun k => hend.resolve_left k, fun k => ?_, fun k => ?_⟩
    · obtain ⟨l, trig, hL⟩ := ih.live hns
      have ht : thisTag (S.hist s') = .trigger r :: thisTag (S.hist s) := by rw [hh]; rfl
      refine ⟨l, trig, hL.exec, ?_, ?_, ?_, ?_, hL.order, fun r' => ?_, hL.known⟩
      · rw [ht]; exact hL.runs
      · rw [ht]; exact hL.rests
      · rw [ht]; exact hL.who
      · rw [ht]; exact hL.count
      · rw [hL.asked r', ht, List.mem_cons]
        by_cases e : r' = r
        · subst e; exact ⟨fun _ => .inl (.inl rfl), fun _ => .inr hr⟩
        · constructor
          · rintro (k | k)
            · exact .inl (.inr k)
            · exact .inr ((List.mem_erase_of_ne e).2 k)
          · rintro ((k | k) | k)
            · cases k; exact absurd rfl e
            · exact .inl k
            · exact .inr (List.mem_of_mem_erase k)
    · rw [hh, List.mem_cons] at k
      exact (k.resolve_left (by simp) |> hns).elim
  | @trigger s s' m q r k h hs hh hpop hq ih =>
    have g' := hS.good _ (.step ih.reach hs)
    rw [hh] at g'
    have hns := Good.no_stop g'
    have g := hS.good _ ih.reach
    refine ⟨.step ih.reach hs, ih.ends, fun k => ?_, fun _ => ?_, fun k => ?_⟩
    · by_cases hp : S.popping s
      · exact (hpop hp).resolve_left k
      · exact ih.due hp
    · obtain ⟨l, trig, hL⟩ := ih.live hns
      have ht : thisTag (S.hist s') = .trigger r :: thisTag (S.hist s) := by rw [hh]; rfl
      have hrun := hL.runs q (by rw [hq]; simp)
      have hr : r ∈ P.order := by
        cases hL.ok hP q _ hq with
        | trigger h1 _ => exact h1.2
      refine ⟨l ++ [⟨q, .act⟩], put trig r true, ?_, fun r' hr' => ?_, fun r' hr' => ?_, fun r' => ?_, fun r' => ?_, ?_, fun r' => ?_,
        fun r' => ?_⟩
      · rw [Conf.exec_append, hL.exec]
        refine Conf.exec_cons_of (c1 := ⟨m.cells, put m.code q (some k), put trig r true⟩) ?_ rfl
        unfold Conf.step; dsimp only; rw [hq]; rfl
      · rw [ht]
        by_cases e : r' = q
        · rw [e]; exact hrun
        · dsimp only at hr'; rw [put_other _ _ e] at hr'; exact hL.runs r' hr'
      · rw [ht]
        by_cases e : r' = q
        · dsimp only at hr'; rw [e, put_eq] at hr'; cases hr'
        · dsimp only at hr'; rw [put_other _ _ e] at hr'; exact hL.rests r' hr'
      · rw [ht]
        show _ ↔ starts r' (thisTag (S.hist s)) ≠ 0
        rw [← hL.who r']
        constructor
        · rintro ⟨x, hx, e⟩
          rcases List.mem_append.1 hx with hx | hx
          · exact ⟨x, hx, e⟩
          · rw [List.mem_singleton] at hx
            subst hx
            dsimp only at e
            subst e
            exact (hL.who q).2 (by omega)
        · rintro ⟨x, hx, e⟩; exact ⟨x, List.mem_append_left _ hx, e⟩
      · rw [ht]
        show _ = starts r' (thisTag (S.hist s))
        rw [List.countP_append, hL.count r']
        have : List.countP (fun x : X => decide (x.who = r') && decide (x.kind = Kind.start)) [⟨q, .act⟩] = 0 := by simp
        omega
      · rw [List.pairwise_append]
        refine ⟨hL.order, List.pairwise_singleton _ _, fun x hx y hy => ?_⟩
        rw [List.mem_singleton] at hy
        subst hy
        exact running_first g hrun ((hL.who _).1 ⟨x, hx, rfl⟩)
      · rw [ht, List.mem_cons]
        by_cases e : r' = r
        · subst e; rw [put_eq]; exact ⟨fun _ => .inl (.inl rfl), fun _ => rfl⟩
        · rw [put_other _ _ e, hL.asked r']
          constructor
          · rintro (k | k)
            · exact .inl (.inr k)
            · exact .inr k
          · rintro ((k | k) | k)
            · cases k; exact absurd rfl e
            · exact .inl k
            · exact .inr k
      · intro k
        by_cases e : r' = r
        · rw [e]; exact hr
        · rw [put_other _ _ e] at k; exact hL.known r' k
    · rw [hh, List.mem_cons] at k
      exact (k.resolve_left (by simp) |> hns).elim
  | @start s s' m w r h hs hh ih =>
    have g' := hS.good _ (.step ih.reach hs)
    rw [hh] at g'
    have hns := Good.no_stop g'
    have g := hS.good _ ih.reach
    have hnp : ¬ S.popping s := fun k => by obtain ⟨_, e⟩ := hS.calm _ _ ih.reach hs _ hh k; cases e
    refine ⟨.step ih.reach hs, ih.ends, fun _ => ih.due hnp, fun _ => ?_, fun k => ?_⟩
    · obtain ⟨l, trig, hL⟩ := ih.live hns
      have ht : thisTag (S.hist s') = .start w r :: thisTag (S.hist s) := by rw [hh]; rfl
      have h1 : 1 + starts r (thisTag (S.hist s)) ≤ 1 := by
        have k : (if r = r then 1 else 0) + starts r (thisTag (S.hist s)) ≤ 1 := (g'.once r).1
        rw [if_pos rfl] at k; exact k
      have h0 : starts r (thisTag (S.hist s)) = 0 := by omega
      have hf0 : finishes r (thisTag (S.hist s)) = 0 := by have := (g.once r).2; omega
      have hnone : m.code r = none := by
        by_contra k
        have := hL.runs r k
        omega
      have hst : ∀ r', starts r' (thisTag (S.hist s')) = (if r = r' then 1 else 0) + starts r' (thisTag (S.hist s)) := fun r' => by
        rw [ht]; rfl
      have hfi : ∀ r', finishes r' (thisTag (S.hist s')) = finishes r' (thisTag (S.hist s)) := fun r' => by rw [ht]; rfl
      refine ⟨l ++ [⟨r, .start⟩], trig, ?_, fun r' hr' => ?_, fun r' hr' => ?_, fun r' => ?_, fun r' => ?_, ?_, fun r' => ?_, hL.known⟩
      · rw [Conf.exec_append, hL.exec]
        refine Conf.exec_cons_of (c1 := ⟨m.cells, put m.code r (some (P.body r)), trig⟩) ?_ rfl
        unfold Conf.step; dsimp only; rw [hnone]; rfl
      · rw [hst, hfi]
        by_cases e : r' = r
        · subst e; rw [if_pos rfl]; omega
        · dsimp only at hr'; rw [put_other _ _ e] at hr'; rw [if_neg (Ne.symm e)]; have := hL.runs r' hr'; omega
      · rw [hst, hfi]
        by_cases e : r' = r
        · dsimp only at hr'; rw [e, put_eq] at hr'; cases hr'
        · dsimp only at hr'; rw [put_other _ _ e] at hr'; rw [if_neg (Ne.symm e)]; have := hL.rests r' hr'; omega
      · rw [hst]
        constructor
        · rintro ⟨x, hx, e⟩
          rcases List.mem_append.1 hx with hx | hx
          · have := (hL.who r').1 ⟨x, hx, e⟩; omega
          · rw [List.mem_singleton] at hx
            subst hx
            dsimp only at e
            rw [if_pos e]; omega
        · intro k
          by_cases e : r = r'
          · exact ⟨⟨r, .start⟩, by simp, e⟩
          · rw [if_neg e] at k
            obtain ⟨x, hx, e⟩ := (hL.who r').2 (by omega)
            exact ⟨x, List.mem_append_left _ hx, e⟩
      · rw [List.countP_append, hL.count r', hst]
        have : List.countP (fun x : X => decide (x.who = r') && decide (x.kind = Kind.start)) [⟨r, .start⟩] = if r = r' then 1 else 0 := by
          by_cases e : r = r'
          · rw [if_pos e]; simp [e]
          · rw [if_neg e]; simp [e]
        omega
      · rw [List.pairwise_append]
        refine ⟨hL.order, List.pairwise_singleton _ _, fun x hx y hy hfr => ?_⟩
        rw [List.mem_singleton] at hy
        subst hy
        dsimp only at hfr
        have hx0 := (hL.who _).1 ⟨x, hx, rfl⟩
        obtain ⟨a, w', b, e⟩ := starts_split hx0
        have k := g'.order (.start w r :: a) w' x.who b (by show Ev.start w r :: thisTag (S.hist s) = _; rw [e]; rfl) r hfr (by
          show (if r = r then 1 else 0) + _ ≠ 0; rw [if_pos rfl]; omega)
        have : finishes r b ≤ finishes r (thisTag (S.hist s)) := by rw [e]; exact finishes_before r
        omega
      · rw [hL.asked r', ht, List.mem_cons]
        constructor
        · rintro (k | k)
          · exact .inl (.inr k)
          · exact .inr k
        · rintro ((k | k) | k)
          · cases k
          · exact .inl k
          · exact .inr k
    · rw [hh, List.mem_cons] at k
      exact (k.resolve_left (by simp) |> hns).elim
  | @read s m q c k h hq ih =>
    have g := hS.good _ ih.reach
    refine ⟨ih.reach, ih.ends, ih.due, fun hns => ?_, fun hst => ?_⟩
    · obtain ⟨l, trig, hL⟩ := ih.live hns
      refine ⟨_, trig, hL.act g (by rw [hq]; simp) (cells := m.cells) ?_⟩
      unfold Conf.step; dsimp only; rw [hq]; rfl
    · have := ih.idle hst q
      rw [hq] at this; cases this
  | @write s m q c v k h hq ih =>
    have g := hS.good _ ih.reach
    refine ⟨ih.reach, ih.ends, ih.due, fun hns => ?_, fun hst => ?_⟩
    · obtain ⟨l, trig, hL⟩ := ih.live hns
      refine ⟨_, trig, hL.act g (by rw [hq]; simp) ?_⟩
      unfold Conf.step; dsimp only; rw [hq]; rfl
    · have := ih.idle hst q
      rw [hq] at this; cases this
  | @finish s s' m w r h hs hh hr ih =>
    have g' := hS.good _ (.step ih.reach hs)
    rw [hh] at g'
    have hns := Good.no_stop g'
    have g := hS.good _ ih.reach
    have hnp : ¬ S.popping s := fun k => by obtain ⟨_, e⟩ := hS.calm _ _ ih.reach hs _ hh k; cases e
    refine ⟨.step ih.reach hs, ih.ends, fun _ => ih.due hnp, fun _ => ?_, fun k => ?_⟩
    · obtain ⟨l, trig, hL⟩ := ih.live hns
      have ht : thisTag (S.hist s') = .finish w r :: thisTag (S.hist s) := by rw [hh]; rfl
      have hrun := hL.runs r (by rw [hr]; simp)
      have hst : ∀ r', starts r' (thisTag (S.hist s')) = starts r' (thisTag (S.hist s)) := fun r' => by rw [ht]; rfl
      have hfi : ∀ r', finishes r' (thisTag (S.hist s')) = (if r = r' then 1 else 0) + finishes r' (thisTag (S.hist s)) := fun r' => by
        rw [ht]; rfl
      refine ⟨l ++ [⟨r, .finish⟩], trig, ?_, fun r' hr' => ?_, fun r' hr' => ?_, fun r' => ?_, fun r' => ?_, ?_, fun r' => ?_, hL.known⟩
      · rw [Conf.exec_append, hL.exec]
        refine Conf.exec_cons_of (c1 := ⟨m.cells, put m.code r none, trig⟩) ?_ rfl
        unfold Conf.step; dsimp only; rw [hr]; rfl
      · rw [hst, hfi]
        by_cases e : r' = r
        · dsimp only at hr'; rw [e, put_eq] at hr'; exact absurd rfl hr'
        · dsimp only at hr'; rw [put_other _ _ e] at hr'; rw [if_neg (Ne.symm e)]; have := hL.runs r' hr'; omega
      · rw [hst, hfi]
        by_cases e : r' = r
        · subst e; rw [if_pos rfl]; omega
        · dsimp only at hr'; rw [put_other _ _ e] at hr'; rw [if_neg (Ne.symm e)]; have := hL.rests r' hr'; omega
      · rw [hst, ← hL.who r']
        constructor
        · rintro ⟨x, hx, e⟩
          rcases List.mem_append.1 hx with hx | hx
          · exact ⟨x, hx, e⟩
          · rw [List.mem_singleton] at hx
            subst hx
            dsimp only at e
            subst e
            exact (hL.who r).2 (by omega)
        · rintro ⟨x, hx, e⟩; exact ⟨x, List.mem_append_left _ hx, e⟩
      · rw [List.countP_append, hL.count r', hst]
        have : List.countP (fun x : X => decide (x.who = r') && decide (x.kind = Kind.start)) [⟨r, .finish⟩] = 0 := by simp
        omega
      · rw [List.pairwise_append]
        refine ⟨hL.order, List.pairwise_singleton _ _, fun x hx y hy => ?_⟩
        rw [List.mem_singleton] at hy
        subst hy
        exact running_first g hrun ((hL.who _).1 ⟨x, hx, rfl⟩)
      · rw [hL.asked r', ht, List.mem_cons]
        constructor
        · rintro (k | k)
          · exact .inl (.inr k)
          · exact .inr k
        · rintro ((k | k) | k)
          · cases k
          · exact .inl k
          · exact .inr k
    · rw [hh, List.mem_cons] at k
      exact (k.resolve_left (by simp) |> hns).elim
  | @advance s s' m h hs hh ih =>
    have g' := hS.good _ (.step ih.reach hs)
    rw [hh] at g'
    have hns := Good.no_stop g'
    have g := hS.good _ ih.reach
    have hnp : ¬ S.popping s := fun k => by obtain ⟨_, e⟩ := hS.calm _ _ ih.reach hs _ hh k; cases e
    obtain ⟨l, trig, hL⟩ := ih.live hns
    obtain ⟨he, hc⟩ := hL.ends hP g (g'.past [] _ _ rfl (.inl rfl)).1 (ih.due hnp)
    refine ⟨.step ih.reach hs, ?_, fun k => absurd (hS.opens _ _ ih.reach hs hh) k, fun _ => ?_, fun k => ?_⟩
    · show (m.cells :: m.ends).reverse = P.results (m.ends.length + 1)
      rw [List.reverse_cons, ih.ends, results_next, he]
    · have e1 : P.at (m.ends.length + 1) = P.next m.cells := by rw [he]; rfl
      have ht : thisTag (S.hist s') = [] := by rw [hh]; rfl
      refine ⟨[], fun r => decide (r ∈ (P.next m.cells).2), ?_, fun r k => absurd (hc r) k, fun r _ => by rw [ht]; rfl, fun r => ?_,
        fun r => by rw [ht]; rfl, List.Pairwise.nil, fun r => ?_, fun r k => ?_⟩
      · show some _ = some _
        have e2 : (fun _ => none) = m.code := by funext r; exact (hc r).symm
        simp only [List.length_cons, e1, e2]
      · rw [ht]; exact ⟨fun k => (by obtain ⟨x, hx, _⟩ := k; cases hx), fun k => absurd rfl k⟩
      · rw [ht, decide_eq_true_eq]; exact ⟨.inr, fun k => k.resolve_left (by simp)⟩
      · exact hP.later _ r (of_decide_eq_true k)
    · rw [hh, List.mem_cons] at k
      exact (k.resolve_left (by simp) |> hns).elim
  | @stop s s' m h hs hh ih =>
    have g' := hS.good _ (.step ih.reach hs)
    rw [hh] at g'
    have hns := Good.no_stop g'
    have g := hS.good _ ih.reach
    have hnp : ¬ S.popping s := fun k => by obtain ⟨_, e⟩ := hS.calm _ _ ih.reach hs _ hh k; cases e
    obtain ⟨l, trig, hL⟩ := ih.live hns
    obtain ⟨he, hc⟩ := hL.ends hP g (g'.past [] _ _ rfl (.inr rfl)).1 (ih.due hnp)
    refine ⟨.step ih.reach hs, ?_, fun _ => ih.due hnp, fun k => ?_, fun _ => hc⟩
    · show (m.cells :: m.ends).reverse = P.results (m.ends.length + 1)
      rw [List.reverse_cons, ih.ends, results_next, he]
    · rw [hh] at k; exact absurd (by simp) k

end

end ReactorC.Det
