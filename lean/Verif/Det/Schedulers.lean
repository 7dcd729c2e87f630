import Verif.Det.Overlay
import Verif.Np.Ledger
import Verif.Gedf.Ledger
import Verif.Adaptive.Always
import Verif.Uni.Inv

/-!
# The three schedulers and the runtime without threads as systems
-/

namespace ReactorC.Det

open Np (Ev put Good)

theorem sound_of {σ : Type} {S : Sys σ} {first : Nat → Nat → Prop} (h1 : S.hist S.init = []) (h2 : S.popping S.init)
    (h3 : ∀ s, S.Reach s → Good first (S.hist s))
    (h4 : ∀ s s', S.Reach s → S.Step s s' → S.hist s' = S.hist s ∨ (∃ r, S.hist s' = .trigger r :: S.hist s) ∨
      ((∃ e, S.hist s' = e :: S.hist s ∧ (e = .advance → S.popping s')) ∧ ¬ S.popping s)) : S.Sound first where
  start := ⟨h1, h2⟩
  good := h3
  one s s' hr hs := by
    rcases h4 s s' hr hs with k | ⟨r, k⟩ | ⟨⟨e, k, _⟩, _⟩
    · exact .inl k
    · exact .inr ⟨_, k⟩
    · exact .inr ⟨_, k⟩
  calm s s' hr hs e hh hp := by
    rcases h4 s s' hr hs with k | ⟨r, k⟩ | ⟨⟨e, k, _⟩, hn⟩
    · have := congrArg List.length (hh.symm.trans k); simp at this
    · exact ⟨r, (List.cons.inj (hh.symm.trans k)).1⟩
    · exact absurd hp hn
  opens s s' hr hs hh := by
    rcases h4 s s' hr hs with k | ⟨r, k⟩ | ⟨⟨e, k, ho⟩, hn⟩
    · have := congrArg List.length (hh.symm.trans k); simp at this
    · cases (List.cons.inj (hh.symm.trans k)).1
    · exact ho (List.cons.inj (hh.symm.trans k)).1.symm

/-! ### The non-preemptive scheduler -/

/-- The scheduler of Verif.Np. -/
def np (C : Np.Config) : Sys Np.State where
  init := Np.init C
  Step s s' := ∃ a : Np.Act, a.allowed C s ∧ Np.exec C s a = some s'
  hist := Np.State.hist
  popping s := ∃ w, (s.pc w).opening = true

theorem np_reach {C : Np.Config} {s : Np.State} (h : (np C).Reach s) : Np.Reach C s := by
  induction h with
  | init => exact .init
  | step _ hs ih => obtain ⟨a, ha, he⟩ := hs; exact .step a ih ha he

theorem np_event {C : Np.Config} {s s' : Np.State} {w : Nat} (h : Np.Step C s w s') :
    s'.hist = s.hist ∨ (∃ r, s'.hist = .trigger r :: s.hist) ∨
    ((∃ e, s'.hist = e :: s.hist ∧ (e = .advance → (s'.pc w).opening = true)) ∧
      ((∃ i r, s.pc w = .clear i (some r)) ∨ (∃ r, s.pc w = .run r) ∨ s.pc w = .tag)) := by
  cases h with
  | clear i r e => exact .inr (.inr ⟨⟨_, rfl, fun k => (by cases k)⟩, .inl ⟨i, r, e⟩⟩)
  | finish r e => exact .inr (.inr ⟨⟨_, rfl, fun k => (by cases k)⟩, .inr (.inl ⟨r, e⟩)⟩)
  | advance e => exact .inr (.inr ⟨⟨_, rfl, fun _ => (by dsimp only; rw [Np.put_same]; rfl)⟩, .inr (.inr e)⟩)
  | stop e => exact .inr (.inr ⟨⟨_, rfl, fun k => (by cases k)⟩, .inr (.inr e)⟩)
  | triggerAgain who r e => exact .inr (.inl ⟨r, rfl⟩)
  | triggerNew who r e => exact .inr (.inl ⟨r, rfl⟩)
  | _ => exact .inl rfl

theorem np_calm {C : Np.Config} {s : Np.State} {w x : Nat} (h : Np.Pool C s)
    (ht : if s.started then w < C.n else w = C.n)
    (hw : (∃ i r, s.pc w = .clear i (some r)) ∨ (∃ r, s.pc w = .run r) ∨ s.pc w = .tag) (hx : (s.pc x).opening = true) : False := by
  have hne : s.pc w ≠ .acquire ∧ s.pc w ≠ .exited ∧ s.pc w ≠ .check ∧ s.pc w ≠ .halt ∧ (s.pc w).booting = false ∧ (s.pc w).opening = false := by
    rcases hw with ⟨i, r, e⟩ | ⟨r, e⟩ | e <;> rw [e] <;> exact ⟨by simp, by simp, by simp, by simp, rfl, rfl⟩
  obtain ⟨n1, n2, n3, n4, n5, n6⟩ := hne
  have hwx : w ≠ x := fun e => by rw [e, hx] at n6; cases n6
  cases hst : s.started with
  | false =>
    rw [hst] at ht
    replace ht : w = C.n := ht
    have := (h.early hst).2.1
    rw [← ht, n5] at this; cases this
  | true =>
    rw [hst] at ht
    replace ht : w < C.n := ht
    have hxn : x < C.n := by
      rcases Nat.lt_trichotomy x C.n with k | k | k
      · exact k
      · subst k; rw [h.main hst] at hx; cases hx
      · rw [h.beyond x k] at hx; cases hx
    cases hs : s.stop with
    | true => rcases h.stop_pc hs ht with k | k | k | k <;> first | exact n1 k | exact n2 k | exact n3 k | exact n4 k
    | false =>
      rcases Np.Pc.opening_cases hx with k | k
      · rw [h.no_boot hs hst x] at k; cases k
      · rcases h.others hs hst hxn (Np.Pc.top_charge k) w hwx with k | k
        · exact n1 k
        · exact n2 k

theorem np_sound {C : Np.Config} (hC : C.Ok) : (np C).Sound fun r r' => C.level r < C.level r' := by
  refine sound_of rfl ⟨C.n, ?_⟩ (fun s h => ((np_reach h).ledger hC).2) (fun s s' hr hs => ?_)
  · show (if C.n < C.n then Np.Pc.check else if C.n = C.n then Np.Pc.boot else Np.Pc.exited).opening = true
    rw [if_neg (Nat.lt_irrefl _), if_pos rfl]; rfl
  · obtain ⟨a, ha, he⟩ := hs
    rcases np_event (Np.exec_step ha he) with k | k | ⟨⟨e, k, ho⟩, hw⟩
    · exact .inl k
    · exact .inr (.inl k)
    · exact .inr (.inr ⟨⟨e, k, fun h => ⟨_, ho h⟩⟩, fun ⟨x, hx⟩ => np_calm ((np_reach hr).inv hC).pool ha.1 hw hx⟩)

/-! ### The scheduler that follows deadlines -/

/-- The scheduler of Verif.Gedf. -/
def gedf (C : Gedf.Config) : Sys Gedf.State where
  init := Gedf.init C
  Step s s' := ∃ a : Gedf.Act, a.allowed C s ∧ Gedf.exec C s a = some s'
  hist := Gedf.State.hist
  popping s := ∃ w, (s.pc w).opening = true

theorem gedf_reach {C : Gedf.Config} {s : Gedf.State} (h : (gedf C).Reach s) : Gedf.Reach C s := by
  induction h with
  | init => exact .init
  | step _ hs ih => obtain ⟨a, ha, he⟩ := hs; exact .step a ih ha he

theorem gedf_event {C : Gedf.Config} {s s' : Gedf.State} {w : Nat} (h : Gedf.Step C s w s') :
    s'.hist = s.hist ∨ (∃ r, s'.hist = .trigger r :: s.hist) ∨
    ((∃ e, s'.hist = e :: s.hist ∧ (e = .advance → (s'.pc w).opening = true)) ∧
      (s.pc w = .loop ∨ (∃ r, s.pc w = .run r) ∨ s.pc w = .tag)) := by
  cases h with
  | take r e => exact .inr (.inr ⟨⟨_, rfl, fun k => (by cases k)⟩, .inl e⟩)
  | takeSignal r x e => exact .inr (.inr ⟨⟨_, rfl, fun k => (by cases k)⟩, .inl e⟩)
  | finish r e => exact .inr (.inr ⟨⟨_, rfl, fun k => (by cases k)⟩, .inr (.inl ⟨r, e⟩)⟩)
  | advance e => exact .inr (.inr ⟨⟨_, rfl, fun _ => (by dsimp only; rw [Np.put_same]; rfl)⟩, .inr (.inr e)⟩)
  | stop e => exact .inr (.inr ⟨⟨_, rfl, fun k => (by cases k)⟩, .inr (.inr e)⟩)
  | triggerAgain who r e => exact .inr (.inl ⟨r, rfl⟩)
  | triggerNew who r e => exact .inr (.inl ⟨r, rfl⟩)
  | _ => exact .inl rfl

theorem gedf_opening {p : Gedf.Pc} (h : p.opening = true) : p.booting = true ∨ p.charge = true := by
  cases p with
  | boot => exact .inl rfl
  | events => exact .inr rfl
  | lock who r => cases who <;> first | exact .inl rfl | exact .inr rfl | cases h
  | insert who r => cases who <;> first | exact .inl rfl | exact .inr rfl | cases h
  | _ => cases h

theorem gedf_calm {C : Gedf.Config} {s : Gedf.State} {w x : Nat} (h : Gedf.Crew C s)
    (hw : s.pc w = .loop ∨ (∃ r, s.pc w = .run r) ∨ s.pc w = .tag) (hx : (s.pc x).opening = true) : False := by
  have ho : (s.pc w).opening = false := by rcases hw with e | ⟨r, e⟩ | e <;> rw [e] <;> rfl
  have hwx : w ≠ x := fun e => by rw [e, hx] at ho; cases ho
  have hown := (h.mutex x).2 (Gedf.Pc.opening_inside hx)
  rcases hw with e | ⟨r, e⟩ | e
  · have := (h.mutex w).2 (by rw [e]; rfl)
    rw [hown] at this; cases this; exact hwx rfl
  · have hwn : w < C.n ∧ s.pc C.n = .exited := by
      rcases h.is_worker (w := w) (by rw [e]; simp) (by rw [e]; rfl) with k | ⟨_, k⟩
      · exact k
      · rw [e] at k; cases k
    rcases gedf_opening hx with k | k
    · have := h.is_main k
      subst this
      rw [hwn.2] at hx; cases hx
    · rcases h.alone x w k hwn.1 hwx with k | k <;> rw [e] at k <;> cases k
  · have := (h.mutex w).2 (by rw [e]; rfl)
    rw [hown] at this; cases this; exact hwx rfl

theorem gedf_sound {C : Gedf.Config} (hC : C.Ok) : (gedf C).Sound C.dep := by
  refine sound_of rfl ⟨C.n, ?_⟩ (fun s h => ((gedf_reach h).ledger hC).2) (fun s s' hr hs => ?_)
  · show (if C.n < C.n then Gedf.Pc.enter else if C.n = C.n then Gedf.Pc.boot else Gedf.Pc.exited).opening = true
    rw [if_neg (Nat.lt_irrefl _), if_pos rfl]; rfl
  · obtain ⟨a, ha, he⟩ := hs
    obtain ⟨h1, h2⟩ := (gedf_reach hr).inv hC
    rcases gedf_event (Gedf.exec_step h1 h2 ha he) with k | k | ⟨⟨e, k, ho⟩, hw⟩
    · exact .inl k
    · exact .inr (.inl k)
    · exact .inr (.inr ⟨⟨e, k, fun h => ⟨_, ho h⟩⟩, fun ⟨x, hx⟩ => gedf_calm h1 hw hx⟩)

/-! ### The adaptive scheduler -/

/-- A thread triggers the reactions of a new tag, or of the start tag. -/
def pops : Adaptive.Pc → Bool
  | .boot | .events => true
  | .fetch .boot _ | .store .boot _ _ _ | .fetch .events _ | .store .events _ _ _ => true
  | _ => false

/-- The scheduler of Verif.Adaptive. -/
def adaptive (C : Adaptive.Config) : Sys Adaptive.State where
  init := Adaptive.init C
  Step s s' := ∃ a : Adaptive.Act, a.allowed C s ∧ Adaptive.exec C s a = some s'
  hist := Adaptive.State.hist
  popping s := ∃ w, pops (s.pc w) = true

theorem adaptive_reach {C : Adaptive.Config} {s : Adaptive.State} (h : (adaptive C).Reach s) : Adaptive.Reach C s := by
  induction h with
  | init => exact .init
  | step _ hs ih => obtain ⟨a, ha, he⟩ := hs; exact .step a ih ha he

theorem adaptive_good {C : Adaptive.Config} {s : Adaptive.State} (hC : C.Ok) (h : Adaptive.Reach C s) :
    Good (fun r r' => C.level r < C.level r') s.hist := by
  obtain ⟨loc, hi⟩ := h.inv hC
  have ok := hi.abs.ok
  have h1 : ∀ r, (Np.starts r (Np.thisTag s.hist) ≤ 1 ∧ Np.finishes r (Np.thisTag s.hist) ≤ Np.starts r (Np.thisTag s.hist)) ∧
      (Np.starts r (Np.thisTag s.hist) ≠ 0 → Ev.trigger r ∈ Np.thisTag s.hist) := by
    intro r
    have k := ok.now r
    change Adaptive.Agrees (Np.thisTag s.hist) r _ at k
    cases hst : (Adaptive.absOf s loc).st r with
    | idle =>
      rw [hst] at k
      by_cases ht : Ev.trigger r ∈ Np.thisTag s.hist
      · obtain ⟨k1, k2⟩ := k.1 ht
        exact ⟨⟨by omega, by omega⟩, fun _ => ht⟩
      · obtain ⟨k1, k2⟩ := k.2 ht
        exact ⟨⟨by omega, by omega⟩, fun hne => (hne k1).elim⟩
    | waiting => rw [hst] at k; exact ⟨⟨by have := k.2.1; omega, by have := k.2; omega⟩, fun _ => k.1⟩
    | running => rw [hst] at k; exact ⟨⟨by have := k.2.1; omega, by have := k.2; omega⟩, fun _ => k.1⟩
    | ended => rw [hst] at k; exact ⟨⟨by have := k.2.1; omega, by have := k.2; omega⟩, fun _ => k.1⟩
  exact ⟨fun r => (h1 r).1, fun r => (h1 r).2, ok.order, ok.past, ok.last⟩

theorem adaptive_event {C : Adaptive.Config} {s s' : Adaptive.State} {a : Adaptive.Act} (ha : a.allowed C s)
    (he : Adaptive.exec C s a = some s') :
    s'.hist = s.hist ∨ (∃ r, s'.hist = .trigger r :: s.hist) ∨
    ∃ w, (if s.started then w < C.n else w = C.n) ∧ (∃ e, s'.hist = e :: s.hist ∧ (e = .advance → pops (s'.pc w) = true)) ∧
      ((∃ v i, s.pc w = .took v i) ∨ (∃ r, s.pc w = .run r) ∨ s.pc w = .tag) := by
  cases a with
  | go w =>
    cases hp : s.pc w with
    | took v i =>
      simp only [Adaptive.exec, hp] at he
      cases hr : s.arr s.cur v i with
      | none => simp only [hr, Option.some.injEq] at he; subst he; exact .inl rfl
      | some r =>
        simp only [hr, Option.some.injEq] at he; subst he
        exact .inr (.inr ⟨w, ha, ⟨_, rfl, fun k => (by cases k)⟩, .inl ⟨v, i, hp⟩⟩)
    | _ =>
      left
      simp only [Adaptive.exec, hp] at he
      repeat' split at he
      all_goals first
        | (cases he; done)
        | (simp only [Option.some.injEq] at he; subst he; rfl)
        | (simp only [Option.some.injEq, Adaptive.State.goto] at he; subst he; rfl)
  | trigger w r =>
    right; left
    cases hp : s.pc w with
    | boot => simp only [Adaptive.exec, hp, Option.some.injEq] at he; subst he; refine ⟨r, ?_⟩; unfold Adaptive.trigger; dsimp only; split <;> rfl
    | run r' => simp only [Adaptive.exec, hp, Option.some.injEq] at he; subst he; refine ⟨r, ?_⟩; unfold Adaptive.trigger; dsimp only; split <;> rfl
    | events => simp only [Adaptive.exec, hp, Option.some.injEq] at he; subst he; refine ⟨r, ?_⟩; unfold Adaptive.trigger; dsimp only; split <;> rfl
    | _ => simp only [Adaptive.exec, hp] at he; cases he
  | finish w =>
    cases hp : s.pc w with
    | run r =>
      simp only [Adaptive.exec, hp, Option.some.injEq] at he; subst he
      exact .inr (.inr ⟨w, ha, ⟨_, rfl, fun k => (by cases k)⟩, .inr (.inl ⟨r, hp⟩)⟩)
    | _ => simp only [Adaptive.exec, hp] at he; cases he
  | close w f =>
    cases hp : s.pc w with
    | close => simp only [Adaptive.exec, hp, Option.some.injEq] at he; subst he; exact .inl rfl
    | _ => simp only [Adaptive.exec, hp] at he; cases he
  | advance w =>
    cases hp : s.pc w with
    | tag =>
      simp only [Adaptive.exec, hp, Option.some.injEq] at he; subst he
      exact .inr (.inr ⟨w, ha, ⟨_, rfl, fun _ => (by dsimp only; rw [Adaptive.put_same]; rfl)⟩, .inr (.inr hp)⟩)
    | _ => simp only [Adaptive.exec, hp] at he; cases he
  | retry w =>
    cases hp : s.pc w with
    | tag => simp only [Adaptive.exec, hp, Option.some.injEq] at he; subst he; exact .inl rfl
    | _ => simp only [Adaptive.exec, hp] at he; cases he
  | stop w =>
    cases hp : s.pc w with
    | tag =>
      simp only [Adaptive.exec, hp, Option.some.injEq] at he; subst he
      exact .inr (.inr ⟨w, ha, ⟨_, rfl, fun k => (by cases k)⟩, .inr (.inr hp)⟩)
    | _ => simp only [Adaptive.exec, hp] at he; cases he
  | spurious w =>
    cases hp : s.pc w with
    | asleep sn =>
      simp only [Adaptive.exec, hp] at he
      split at he
      · simp only [Option.some.injEq] at he; subst he; exact .inl rfl
      · cases he
    | _ => simp only [Adaptive.exec, hp] at he; cases he
  | outsideLock =>
    simp only [Adaptive.exec] at he
    split at he
    · simp only [Option.some.injEq] at he; subst he; exact .inl rfl
    · cases he
  | outsideUnlock =>
    simp only [Adaptive.exec] at he
    split at he
    · simp only [Option.some.injEq] at he; subst he; exact .inl rfl
    · cases he

theorem pops_cases {p : Adaptive.Pc} (h : pops p = true) : p.booting = true ∨ p.top = true := by
  cases p with
  | boot => exact .inl rfl
  | events => exact .inr rfl
  | fetch who r => cases who <;> first | exact .inl rfl | exact .inr rfl | cases h
  | store who r v i => cases who <;> first | exact .inl rfl | exact .inr rfl | cases h
  | _ => cases h

theorem adaptive_calm {C : Adaptive.Config} {s : Adaptive.State} {w x : Nat} (h : Adaptive.Crew C s)
    (ht : if s.started then w < C.n else w = C.n)
    (hw : (∃ v i, s.pc w = .took v i) ∨ (∃ r, s.pc w = .run r) ∨ s.pc w = .tag) (hx : pops (s.pc x) = true) : False := by
  have ho : pops (s.pc w) = false ∧ (s.pc w).booting = false := by
    rcases hw with ⟨v, i, e⟩ | ⟨r, e⟩ | e <;> rw [e] <;> exact ⟨rfl, rfl⟩
  have hwx : w ≠ x := fun e => by rw [e, hx] at ho; cases ho.1
  have hm := h.main
  cases hst : s.started with
  | false =>
    rw [hst] at ht hm
    replace ht : w = C.n := ht
    replace hm : (s.pc C.n).booting = true := hm
    rw [← ht, ho.2] at hm; cases hm
  | true =>
    rw [hst] at ht hm
    replace ht : w < C.n := ht
    replace hm : s.pc C.n = .exited := hm
    have hxn : x < C.n := by
      rcases Nat.lt_trichotomy x C.n with k | k | k
      · exact k
      · subst k; rw [hm] at hx; cases hx
      · rw [h.beyond x k] at hx; cases hx
    rcases h.phase with hk | hb
    · rcases pops_cases hx with k | k
      · rw [h.not_booting hst hk x] at k; cases k
      · obtain ⟨k1, k2⟩ := hk.alone x hxn k w ht
        rcases hw with ⟨v, i, e⟩ | ⟨r, e⟩ | e
        · unfold Adaptive.awake at k1; rw [e] at k1; cases k1
        · unfold Adaptive.awake at k1; rw [e] at k1; cases k1
        · exact hwx (k2 (by rw [e]; rfl))
    · rcases hb.thr x hxn with k | ⟨k | k, _⟩ | ⟨sn, k, _⟩ <;> rw [k] at hx <;> cases hx

theorem adaptive_sound {C : Adaptive.Config} (hC : C.Ok) : (adaptive C).Sound fun r r' => C.level r < C.level r' := by
  refine sound_of rfl ⟨C.n, ?_⟩ (fun s h => adaptive_good hC (adaptive_reach h)) (fun s s' hr hs => ?_)
  · show pops (if C.n < C.n then Adaptive.Pc.snap else if C.n = C.n then Adaptive.Pc.boot else Adaptive.Pc.exited) = true
    rw [if_neg (Nat.lt_irrefl _), if_pos rfl]; rfl
  · obtain ⟨a, ha, he⟩ := hs
    rcases adaptive_event ha he with k | k | ⟨w, ht, ⟨e, k, ho⟩, hw⟩
    · exact .inl k
    · exact .inr (.inl k)
    · exact .inr (.inr ⟨⟨e, k, fun h => ⟨_, ho h⟩⟩, fun ⟨x, hx⟩ => adaptive_calm ((adaptive_reach hr).crew hC) ht hw hx⟩)

/-! ### The runtime without threads -/

/-- The runtime of Verif.Uni. -/
def uni (C : Uni.Config) : Sys Uni.State where
  init := Uni.init
  Step s s' := ∃ a : Uni.Act, a.allowed C s ∧ Uni.exec C s a = some s'
  hist := Uni.State.hist
  popping s := s.phase = .opening

theorem uni_reach {C : Uni.Config} {s : Uni.State} (h : (uni C).Reach s) : Uni.Reach C s := by
  induction h with
  | init => exact .init
  | step _ hs ih => obtain ⟨a, ha, he⟩ := hs; exact .step a ih ha he

theorem uni_sound {C : Uni.Config} (hC : C.Ok) : (uni C).Sound C.dep := by
  refine sound_of rfl rfl (fun s h => ((uni_reach h).inv hC).good) (fun s s' hr hs => ?_)
  obtain ⟨a, ha, he⟩ := hs
  have hi := (uni_reach hr).inv hC
  show s'.hist = s.hist ∨ (∃ r, s'.hist = .trigger r :: s.hist) ∨
    ((∃ e, s'.hist = e :: s.hist ∧ (e = .advance → s'.phase = .opening)) ∧ ¬ s.phase = .opening)
  have hbusy : s.active ≠ none → s.phase ≠ .opening := fun k kp => k (hi.rest (by rw [kp]; simp))
  cases a with
  | event r =>
    simp only [Uni.exec] at he
    split at he
    · cases he; exact .inr (.inl ⟨r, rfl⟩)
    · cases he
  | opened =>
    simp only [Uni.exec] at he
    split at he
    · cases he; exact .inl rfl
    · cases he
  | start r =>
    simp only [Uni.exec] at he
    split at he
    · rename_i k; cases he; exact .inr (.inr ⟨⟨_, rfl, fun k => (by cases k)⟩, by rw [k.1]; simp⟩)
    · cases he
  | output d =>
    right; left
    cases hx : s.exec with
    | none => simp only [Uni.exec, hx] at he; cases he
    | some r =>
      rw [Uni.exec_output hx] at he
      refine ⟨d, ?_⟩
      split at he
      · cases he; rfl
      · split at he
        · cases he; rfl
        · cases he; split <;> rfl
  | finish =>
    cases hx : s.exec with
    | none => simp only [Uni.exec, hx] at he; cases he
    | some r =>
      simp only [Uni.exec, hx] at he; cases he
      exact .inr (.inr ⟨⟨_, rfl, fun k => (by cases k)⟩, hbusy fun k => by rw [(hi.free k).1] at hx; cases hx⟩)
  | chain =>
    cases hx : s.exec with
    | some r => simp only [Uni.exec, hx] at he; cases he
    | none =>
      cases hd : s.cand with
      | none => simp only [Uni.exec, hx, hd] at he; cases he
      | some d =>
        simp only [Uni.exec, hx, hd] at he; cases he
        exact .inr (.inr ⟨⟨_, rfl, fun k => (by cases k)⟩, hbusy fun k => by rw [(hi.free k).2] at hd; cases hd⟩)
  | close =>
    simp only [Uni.exec] at he
    split at he
    · cases he; exact .inl rfl
    · cases he
  | advance =>
    simp only [Uni.exec] at he
    split at he
    · rename_i k; cases he; exact .inr (.inr ⟨⟨_, rfl, fun _ => rfl⟩, by rw [k]; simp⟩)
    · cases he
  | stop =>
    simp only [Uni.exec] at he
    split at he
    · rename_i k; cases he; exact .inr (.inr ⟨⟨_, rfl, fun k => (by cases k)⟩, by rw [k]; simp⟩)
    · cases he

end ReactorC.Det
