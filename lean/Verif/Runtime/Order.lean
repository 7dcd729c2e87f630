import Verif.Runtime.Lemmas

/-! Invariant about reactions: holds in every execution, in or outside the domain. -/

set_option linter.unusedSimpArgs false
set_option linter.unusedVariables false

namespace ReactorC.Runtime
open ReactorC ReactorC.Sched

theorem finishSchedule_cur (debug env t i tok id) :
    (finishSchedule debug env t i tok id).1.cur = env.cur := by
  have h : ∃ g, finishSchedule debug env t i tok id =
      if afterStop env g then (doneUsing env tok, 0)
      else ({ env with
              last := fun j => if j = t then g else env.last j
              q := ⟨id, g, some t, tok⟩ :: env.q
              handle := bumpHandle env.handle }, env.handle) := ⟨_, rfl⟩
  obtain ⟨g, hg⟩ := h
  rw [hg]; split <;> simp

theorem replaceToken_cur (env f tok) : (replaceToken env f tok).cur = env.cur := by
  simp only [replaceToken]; split <;> simp

/-- A schedule call never changes the current tag. -/
theorem schedule_cur (debug trigs env tr extra tok phys id) :
    (lf_schedule_trigger debug trigs env tr extra tok phys id).1.cur = env.cur := by
  unfold lf_schedule_trigger
  split
  · simp
  · cases tr with
    | none => simp
    | some t =>
      simp only []
      repeat' split
      all_goals simp [finishSchedule_cur, replaceToken_cur]

theorem trigger_mem {active rq r x} :
    x ∈ trigger active rq r ↔ x ∈ rq ∨ (x = r ∧ active ≠ some r) := by
  unfold trigger
  split
  · rename_i h
    constructor
    · exact Or.inl
    · rintro (h' | ⟨rfl, h'⟩)
      · exact h'
      · rcases h with h | h
        · exact h
        · exact absurd h h'
  · rename_i h
    simp only [not_or] at h
    simp only [List.mem_cons]
    constructor
    · rintro (rfl | h')
      · exact Or.inr ⟨rfl, h.2⟩
      · exact Or.inl h'
    · rintro (h' | ⟨rfl, _⟩)
      · exact Or.inr h'
      · exact Or.inl rfl

theorem trigger_nodup {active rq r} (h : rq.Nodup) : (trigger active rq r).Nodup := by
  unfold trigger
  split
  · exact h
  · rename_i h'
    exact List.nodup_cons.2 ⟨fun hm => h' (Or.inl hm), h⟩

theorem fold_trigger_mem {active} (rs : List Nat) : ∀ {rq x},
    x ∈ rs.foldl (trigger active) rq ↔ x ∈ rq ∨ (x ∈ rs ∧ active ≠ some x) := by
  induction rs with
  | nil => simp
  | cons r rs ih =>
    intro rq x
    rw [List.foldl_cons, ih, trigger_mem, List.mem_cons]
    constructor
    · rintro ((h | ⟨rfl, h⟩) | ⟨h, h'⟩)
      · exact Or.inl h
      · exact Or.inr ⟨Or.inl rfl, h⟩
      · exact Or.inr ⟨Or.inr h, h'⟩
    · rintro (h | ⟨rfl | h, h'⟩)
      · exact Or.inl (Or.inl h)
      · exact Or.inl (Or.inr ⟨rfl, h'⟩)
      · exact Or.inr ⟨h, h'⟩

theorem fold_trigger_nodup {active} (rs : List Nat) : ∀ {rq : List Nat}, rq.Nodup →
    (rs.foldl (trigger active) rq).Nodup := by
  induction rs with
  | nil => exact fun h => h
  | cons r rs ih => intro rq h; exact ih (trigger_nodup h)

/-- The two possible results of the output loop. -/
theorem outLoop_spec (P : Prog) (active : Option Nat) (r : Nat) :
    ∀ (outs : List Nat) (cand : Option Nat) (num : Nat) (rq : List Nat), rq.Nodup →
    (cand = none ∨ num = 1) →
    (∃ d, outLoop P active r outs cand num rq = (some d, rq) ∧
        ((cand = some d ∧ ∀ x ∈ outs, x = d) ∨
         (cand = none ∧ num = 0 ∧ d ∈ outs ∧ P.lastEnabling d = some r ∧ ∀ x ∈ outs, x = d))) ∨
    (∃ rq', outLoop P active r outs cand num rq = (none, rq') ∧ rq'.Nodup ∧
        (∀ x, x ∈ rq' ↔ x ∈ rq ∨ ((x ∈ outs ∨ cand = some x) ∧ active ≠ some x))) := by
  intro outs
  induction outs with
  | nil =>
    intro cand num rq hn _
    cases cand with
    | none => right; exact ⟨rq, rfl, hn, by simp⟩
    | some c => left; exact ⟨c, rfl, Or.inl ⟨rfl, by simp⟩⟩
  | cons d ds ih =>
    intro cand num rq hn hc
    unfold outLoop
    split
    · rename_i hcd
      subst hcd
      rcases ih (some d) num rq hn hc with ⟨d', h1, h2⟩ | ⟨rq', h1, h2, h3⟩
      · left
        refine ⟨d', h1, ?_⟩
        rcases h2 with ⟨h, h'⟩ | ⟨h, _⟩
        · left
          simp only [Option.some.injEq] at h
          subst h
          exact ⟨rfl, by simpa using h'⟩
        · cases h
      · right
        refine ⟨rq', h1, h2, ?_⟩
        intro x; rw [h3]
        simp only [List.mem_cons, Option.some.injEq]
        constructor
        · rintro (h | ⟨h | h, h'⟩)
          · exact Or.inl h
          · exact Or.inr ⟨Or.inl (Or.inr h), h'⟩
          · exact Or.inr ⟨Or.inr h, h'⟩
        · rintro (h | ⟨(h | h) | h, h'⟩)
          · exact Or.inl h
          · exact Or.inr ⟨Or.inr h.symm, h'⟩
          · exact Or.inr ⟨Or.inl h, h'⟩
          · exact Or.inr ⟨Or.inr h, h'⟩
    · rename_i hcd
      split
      · rename_i hle
        have hcn : cand = none := by rcases hc with h | h <;> [exact h; omega]
        subst hcn
        rcases ih (some d) 1 rq hn (Or.inr rfl) with ⟨d', h1, h2⟩ | ⟨rq', h1, h2, h3⟩
        · left
          refine ⟨d', h1, Or.inr ?_⟩
          rcases h2 with ⟨h, h'⟩ | ⟨h, _⟩
          · simp only [Option.some.injEq] at h
            subst h
            exact ⟨rfl, hle.1, by simp, hle.2, by simpa using h'⟩
          · cases h
        · right
          refine ⟨rq', h1, h2, ?_⟩
          intro x; rw [h3]
          simp only [List.mem_cons, Option.some.injEq, reduceCtorEq, or_false]
          constructor
          · rintro (h | ⟨h | h, h'⟩)
            · exact Or.inl h
            · exact Or.inr ⟨Or.inr h, h'⟩
            · exact Or.inr ⟨Or.inl h.symm, h'⟩
          · rintro (h | ⟨h | h, h'⟩)
            · exact Or.inl h
            · exact Or.inr ⟨Or.inr h.symm, h'⟩
            · exact Or.inr ⟨Or.inl h, h'⟩
      · simp only []
        have main : ∀ rq2 : List Nat, rq2.Nodup →
            (∀ x, x ∈ rq2 ↔ x ∈ rq ∨ (cand = some x ∧ active ≠ some x)) →
            ((∃ d', outLoop P active r ds none (num + 1) (trigger active rq2 d) = (some d', rq) ∧
              ((cand = some d' ∧ ∀ x ∈ d :: ds, x = d') ∨
               (cand = none ∧ num = 0 ∧ d' ∈ d :: ds ∧ P.lastEnabling d' = some r ∧
                ∀ x ∈ d :: ds, x = d'))) ∨
            (∃ rq', outLoop P active r ds none (num + 1) (trigger active rq2 d) = (none, rq') ∧
              rq'.Nodup ∧
              (∀ x, x ∈ rq' ↔ x ∈ rq ∨ ((x ∈ d :: ds ∨ cand = some x) ∧ active ≠ some x)))) := by
          intro rq2 hn2 hm2
          rcases ih none (num + 1) (trigger active rq2 d) (trigger_nodup hn2) (Or.inl rfl) with
            ⟨d', h1, h2⟩ | ⟨rq', h1, h2, h3⟩
          · rcases h2 with ⟨h, _⟩ | ⟨_, h, _⟩
            · cases h
            · omega
          · right
            refine ⟨rq', h1, h2, ?_⟩
            intro x; rw [h3, trigger_mem, hm2]
            simp only [List.mem_cons, reduceCtorEq, or_false]
            constructor
            · rintro (((h | ⟨h, h'⟩) | ⟨rfl, h'⟩) | ⟨h, h'⟩)
              · exact Or.inl h
              · exact Or.inr ⟨Or.inr h, h'⟩
              · exact Or.inr ⟨Or.inl (Or.inl rfl), h'⟩
              · exact Or.inr ⟨Or.inl (Or.inr h), h'⟩
            · rintro (h | ⟨(rfl | h) | h, h'⟩)
              · exact Or.inl (Or.inl (Or.inl h))
              · exact Or.inl (Or.inr ⟨rfl, h'⟩)
              · exact Or.inr ⟨h, h'⟩
              · exact Or.inl (Or.inl (Or.inr ⟨h, h'⟩))
        cases cand with
        | none => exact main rq hn (by simp)
        | some c =>
          refine main (trigger active rq c) (trigger_nodup hn) ?_
          intro x
          simp only [trigger_mem, Option.some.injEq]
          constructor
          · rintro (h | ⟨rfl, h⟩)
            · exact Or.inl h
            · exact Or.inr ⟨rfl, h⟩
          · rintro (h | ⟨rfl, h⟩)
            · exact Or.inl h
            · exact Or.inr ⟨rfl, h⟩

theorem Precedes.index_lt {P : Prog} (ht : Topological P) {a b : Nat} (h : Precedes P a b) :
    P.index a < P.index b := by
  induction h with
  | single h => exact ht _ _ h
  | tail _ h ih => exact Nat.lt_trans ih (ht _ _ h)

theorem Precedes.head {P : Prog} {a b c : Nat} (hab : b ∈ P.down a) (h : Precedes P b c) :
    Precedes P a c := by
  induction h with
  | single h => exact .tail (.single hab) h
  | tail _ h ih => exact .tail ih h

/-- What the log says about one tag. -/
structure TagOK (P : Prog) (rs : List Nat) : Prop where
  once : rs.Nodup
  order : rs.Pairwise (fun later earlier => ¬ Precedes P later earlier)
  index : (∀ d, P.lastEnabling d = none) →
    rs.Pairwise (fun later earlier => P.index earlier ≤ P.index later)

structure RInv (P : Prog) (s : St) : Prop where
  nodup_rq : s.rq.Nodup
  ok : TagOK P s.ran
  disj : ∀ x ∈ s.rq, x ∉ s.ran
  ahead : ∀ x ∈ s.rq, ∀ y ∈ s.ran, ¬ Precedes P x y
  ahead_idx : (∀ d, P.lastEnabling d = none) → ∀ x ∈ s.rq, ∀ y ∈ s.ran, P.index y ≤ P.index x
  act : ∀ a, s.active = some a → a ∈ s.ran
  exe : ∀ r k, s.exec = some (r, k) → s.ran.head? = some r
  sole : ∀ d r, P.lastEnabling d = some r → (d ∈ s.rq ∨ d ∈ s.ran) →
    r ∈ s.ran ∧ ∀ k, s.exec ≠ some (r, k)
  idle : s.phase ≠ .reacting → s.exec = none
  actexec : s.exec = none → s.active = none
  actexec' : s.active = none → s.exec = none
  quiet : s.phase ≠ .reacting → s.phase ≠ .popping → s.rq = []
  fresh : s.phase = .popping → s.ran = []
  runs_cur : runsAt s.env.cur s.log = s.ran
  runs_le : ∀ g r k p, Entry.run g r k p ∈ s.log → g ≤ s.env.cur
  runs_ok : ∀ g, TagOK P (runsAt g s.log)
  trig : ∀ x ∈ s.log, ∀ g r, Causes P x g r →
    r ∈ runsAt g s.log ∨ (g = s.env.cur ∧ r ∈ s.rq)
  outs : ∀ g r d, Entry.output g r d ∈ s.log → d ∈ runsAt g s.log ∨ (g = s.env.cur ∧ d ∈ s.rq)
  kind : ∀ g r k p, Entry.run g r k p ∈ s.log → k = invocation P g r p
  tag : (tagsOf s.log).head? = some s.env.cur
  tags : (tagsOf s.log).Pairwise (fun later earlier => earlier < later)
  popped_at : ∀ g e, Entry.popped g e ∈ s.log → g = e.tag ∧ g ∈ tagsOf s.log

theorem RInv.idxeq {P : Prog} (ht : Topological P) {s : St} (inv : RInv P s) {r k}
    (h : s.exec = some (r, k)) : r ∈ s.ran := by
  have := inv.exe r k h
  exact List.mem_of_mem_head? (by rw [this]; rfl)

/-- Changing only the event queue, the stop tag and irrelevant log entries. -/
theorem RInv.env {P : Prog} {s : St} (inv : RInv P s) (env' : Env) (hc : env'.cur = s.env.cur)
    (nid : Nat) (es : List Event) (ph : Phase) (hph : ph = s.phase) :
    RInv P { s with env := env', nextId := nid, phase := ph, log := es.map Entry.inserted ++ s.log } := by
  subst hph
  have hr : ∀ g, runsAt g (es.map Entry.inserted) = [] := by
    intro g
    induction es with
    | nil => rfl
    | cons e es ih => simpa [runsAt] using ih
  obtain ⟨l1, _, _, _, _⟩ := map_inserted_logs es
  obtain ⟨h1, h2, h3, h4, h5, h6, h7, h8, h9, h10, h10', h11, h12, h13, h14, h15, h16, h17, h18, h19, h20, h21⟩ := inv
  refine ⟨h1, h2, h3, h4, h5, h6, h7, h8, h9, h10, h10', h11, h12, ?_, ?_, ?_, ?_, ?_, ?_, ?_, ?_, ?_⟩
  · simpa [hr, hc] using h13
  · intro g r k p hm
    simp at hm
    simpa [hc] using h14 g r k p hm
  · intro g; simpa [hr] using h15 g
  · intro x hm g r hcz
    rcases List.mem_append.1 hm with hm | hm
    · obtain ⟨e, _, rfl⟩ := List.mem_map.1 hm
      cases hcz
    · simpa [hr, hc] using h16 x hm g r hcz
  · intro g r d hm
    simp at hm
    simpa [hr, hc] using h17 g r d hm
  · intro g r k p hm
    simp at hm
    exact h18 g r k p hm
  · simpa [l1, hc] using h19
  · simpa [l1] using h20
  · intro g e hm
    simp at hm
    simpa [l1] using h21 g e hm

theorem initTimer_RInv {P : Prog} {s : St} {t : Nat}
    (sole : SoleEnabler P) (hph : s.phase = .reacting) (hran : s.ran = []) (hex : s.exec = none)
    (hact : s.active = none) (inv : RInv P s) :
    RInv P (initTimer P s t) ∧ (initTimer P s t).phase = .reacting ∧
      (initTimer P s t).ran = [] ∧ (initTimer P s t).exec = none ∧ (initTimer P s t).active = none ∧
      (initTimer P s t).env.cur = s.env.cur := by
  have inv1 : RInv P { s with
      rq := (P.reactions t).foldl (trigger s.active) s.rq
      log := .timerAtStart s.env.cur t :: s.log } := by
    obtain ⟨h1, h2, h3, h4, h5, h6, h7, h8, h9, h10, h10', h11, h12, h13, h14, h15, h16, h17, h18, h19, h20, h21⟩ := inv
    refine ⟨fold_trigger_nodup _ h1, h2, ?_, ?_, ?_, h6, h7, ?_, h9, h10, h10', ?_, h12, h13, ?_, h15, ?_, ?_, ?_, h19, h20, ?_⟩
    · intro x _; simp [hran]
    · intro x _; simp [hran]
    · intro _ x _; simp [hran]
    · intro d r hle hm
      simp only [fold_trigger_mem] at hm
      rcases hm with (h | h) | h
      · exact h8 d r hle (Or.inl h)
      · exact absurd h.1 ((sole d r hle).2.1 t)
      · exact h8 d r hle (Or.inr h)
    · intro hp; exact absurd hph hp
    · intro g r k p hm; simp at hm; exact h14 g r k p hm
    · intro x hm g r hcz
      rcases List.mem_cons.1 hm with rfl | hm
      · cases hcz with
        | timer hr => exact Or.inr ⟨rfl, (fold_trigger_mem _).2 (Or.inr ⟨hr, by rw [hact]; simp⟩)⟩
      · rcases h16 x hm g r hcz with h | h
        · exact Or.inl h
        · exact Or.inr ⟨h.1, (fold_trigger_mem _).2 (Or.inl h.2)⟩
    · intro g r d hm; simp at hm
      rcases h17 g r d hm with h | h
      · exact Or.inl h
      · exact Or.inr ⟨h.1, (fold_trigger_mem _).2 (Or.inl h.2)⟩
    · intro g r k p hm; simp at hm; exact h18 g r k p hm
    · intro g e hm; simp at hm; exact h21 g e hm
  have key : ∀ (s1 : St) (g : Tag), RInv P s1 → RInv P { s1 with
      env := { s1.env with q := ⟨s1.nextId, g, some t, none⟩ :: s1.env.q }
      nextId := s1.nextId + 1
      log := .inserted ⟨s1.nextId, g, some t, none⟩ :: s1.log } := by
    intro s1 g h
    exact h.env { s1.env with q := ⟨s1.nextId, g, some t, none⟩ :: s1.env.q } rfl (s1.nextId + 1)
      [⟨s1.nextId, g, some t, none⟩] s1.phase rfl
  unfold initTimer
  simp only []
  by_cases ho : (P.trigs t).offset = 0
  · simp only [ho, if_true, true_and]
    by_cases hp : (P.trigs t).period = 0
    · simp only [hp, if_true]
      exact ⟨inv1, hph, hran, hex, hact, by simp⟩
    · simp only [hp, if_false]
      split
      · exact ⟨inv1, hph, hran, hex, hact, by simp⟩
      · exact ⟨key _ _ inv1, hph, hran, hex, hact, by simp⟩
  · simp only [ho, if_false, false_and]
    split
    · exact ⟨inv, hph, hran, hex, hact, by simp⟩
    · exact ⟨key _ _ inv, hph, hran, hex, hact, by simp⟩

theorem init_RInv {P : Prog} {start duration : Int} (sole : SoleEnabler P) :
    RInv P (init P start duration) := by
  let s1 : St := {
    env := initEnv start duration, rq := P.startup.foldl (trigger none) [],
    active := none, exec := none, phase := .reacting, nextId := 0, ran := [], log := [.startup ⟨start, 0⟩, .tag ⟨start, 0⟩] }
  have hok : TagOK P [] := ⟨List.nodup_nil, List.Pairwise.nil, fun _ => List.Pairwise.nil⟩
  have inv1 : RInv P s1 := by
    refine ⟨fold_trigger_nodup _ List.nodup_nil, hok, ?_, ?_, ?_, ?_, ?_, ?_, ?_, ?_, ?_, ?_, ?_, ?_, ?_, ?_, ?_, ?_, ?_, ?_, ?_, ?_⟩
    · simp [s1]
    · simp [s1]
    · simp [s1]
    · simp [s1]
    · simp [s1]
    · intro d r hle hm
      simp only [s1, fold_trigger_mem] at hm
      rcases hm with (h | h) | h
      · simp at h
      · exact absurd h.1 (sole d r hle).2.2.1
      · simp at h
    · simp [s1]
    · simp [s1]
    · simp [s1]
    · simp [s1]
    · simp [s1]
    · rfl
    · simp [s1]
    · intro g; exact hok
    · intro x hm g r hcz
      simp only [s1, List.mem_cons, List.not_mem_nil, or_false] at hm
      rcases hm with rfl | rfl
      · cases hcz with
        | startup hr => exact Or.inr ⟨rfl, (fold_trigger_mem _).2 (Or.inr ⟨hr, by simp⟩)⟩
      · cases hcz
    · simp [s1]
    · simp [s1]
    · rfl
    · simp [s1, tagsOf]
    · simp [s1]
  have hfold : ∀ (ts : List Nat) (s : St), s.phase = .reacting → s.ran = [] → s.exec = none →
      s.active = none → RInv P s →
      RInv P (ts.foldl (initTimer P) s) ∧ (ts.foldl (initTimer P) s).ran = [] ∧
      (ts.foldl (initTimer P) s).phase = .reacting := by
    intro ts
    induction ts with
    | nil => intro s h1 h2 _ _ h3; exact ⟨h3, h2, h1⟩
    | cons t ts ih =>
      intro s h1 h2 h3 h4 h5
      obtain ⟨g1, g2, g3, g4, g5, g6⟩ := initTimer_RInv (t := t) sole h1 h2 h3 h4 h5
      exact ih _ g2 g3 g4 g5 g1
  obtain ⟨inv2, hran2, hph2⟩ := hfold P.timers s1 rfl rfl rfl rfl inv1
  have hdef : init P start duration =
      if lf_tag_compare (P.timers.foldl (initTimer P) s1).env.cur
          (P.timers.foldl (initTimer P) s1).env.stop ≥ 0 then
        { P.timers.foldl (initTimer P) s1 with
          rq := P.shutdown.foldl (trigger none) (P.timers.foldl (initTimer P) s1).rq,
          log := .shutdown (P.timers.foldl (initTimer P) s1).env.cur ::
            (P.timers.foldl (initTimer P) s1).log }
      else P.timers.foldl (initTimer P) s1 := rfl
  rw [hdef]
  generalize P.timers.foldl (initTimer P) s1 = s at *
  split
  · obtain ⟨h1, h2, h3, h4, h5, h6, h7, h8, h9, h10, h10', h11, h12, h13, h14, h15, h16, h17, h18, h19, h20, h21⟩ := inv2
    refine ⟨fold_trigger_nodup _ h1, h2, ?_, ?_, ?_, h6, h7, ?_, h9, h10, h10', ?_, h12, h13, ?_, h15, ?_, ?_, ?_, h19, h20, ?_⟩
    · intro x _; simp [hran2]
    · intro x _; simp [hran2]
    · intro _ x _; simp [hran2]
    · intro d r hle hm
      simp only [fold_trigger_mem] at hm
      rcases hm with (h | h) | h
      · exact h8 d r hle (Or.inl h)
      · exact absurd h.1 (sole d r hle).2.2.2
      · exact h8 d r hle (Or.inr h)
    · intro hp; exact absurd hph2 hp
    · intro g r k p hm; simp at hm; exact h14 g r k p hm
    · intro x hm g r hcz
      rcases List.mem_cons.1 hm with rfl | hm
      · cases hcz with
        | shutdown hr => exact Or.inr ⟨rfl, (fold_trigger_mem _).2 (Or.inr ⟨hr, by simp⟩)⟩
      · rcases h16 x hm g r hcz with h | h
        · exact Or.inl h
        · exact Or.inr ⟨h.1, (fold_trigger_mem _).2 (Or.inl h.2)⟩
    · intro g r d hm; simp at hm
      rcases h17 g r d hm with h | h
      · exact Or.inl h
      · exact Or.inr ⟨h.1, (fold_trigger_mem _).2 (Or.inl h.2)⟩
    · intro g r k p hm; simp at hm; exact h18 g r k p hm
    · intro g e hm; simp at hm; exact h21 g e hm
  · exact inv2

theorem runsAt_run (g g' : Tag) (r k p) (l : List Entry) :
    runsAt g (.run g' r k p :: l) = if g' = g then r :: runsAt g l else runsAt g l := by
  simp only [runsAt, List.filterMap_cons]
  split <;> split <;> simp_all

/-- Executing a further reaction `r` at the current tag. -/
theorem TagOK.cons {P : Prog} {rs : List Nat} (h : TagOK P rs) {r : Nat} (hn : r ∉ rs)
    (ho : ∀ y ∈ rs, ¬ Precedes P r y)
    (hi : (∀ d, P.lastEnabling d = none) → ∀ y ∈ rs, P.index y ≤ P.index r) : TagOK P (r :: rs) :=
  ⟨List.nodup_cons.2 ⟨hn, h.once⟩, List.pairwise_cons.2 ⟨ho, h.order⟩,
    fun hl => List.pairwise_cons.2 ⟨hi hl, h.index hl⟩⟩

set_option maxHeartbeats 2000000 in
theorem step_RInv {P : Prog} (top : Topological P) (sole : SoleEnabler P) {s s' : St} {l : Label}
    (inv : RInv P s) (hstep : step P s l = some s') : RInv P s' := by
  cases l with
  | popEvent e =>
    simp only [step] at hstep
    split at hstep
    · rename_i hg
      obtain ⟨hph, hmem, hmin, hcmp⟩ := hg
      rw [cmp_eq_zero] at hcmp
      have hidle := inv.idle (by rw [hph]; decide)
      have hact := inv.actexec hidle
      have hran := inv.fresh hph
      have hrq : ∀ rs : List Nat, (∀ d r, P.lastEnabling d = some r → d ∉ rs) →
          (∀ t r, e.trigger = some t → r ∈ P.reactions t → r ∈ rs ∨ r ∈ s.rq) →
          RInv P { s with
            rq := rs.foldl (trigger s.active) s.rq
            env := { s.env with q := s.env.q.erase e }
            log := .popped s.env.cur e :: s.log } := by
        intro rs hrs hrs2
        obtain ⟨h1, h2, h3, h4, h5, h6, h7, h8, h9, h10, h10', h11, h12, h13, h14, h15, h16, h17, h18, h19, h20, h21⟩ := inv
        refine ⟨fold_trigger_nodup _ h1, h2, ?_, ?_, ?_, h6, h7, ?_, h9, h10, h10', ?_, h12, h13, ?_, h15, ?_, ?_, ?_, h19, h20, ?_⟩
        · intro x _; simp [hran]
        · intro x _; simp [hran]
        · intro _ x _; simp [hran]
        · intro d r hle hm
          simp only [fold_trigger_mem] at hm
          rcases hm with (h | h) | h
          · exact h8 d r hle (Or.inl h)
          · exact absurd h.1 (hrs d r hle)
          · exact h8 d r hle (Or.inr h)
        · intro hp hp'; exact absurd hph hp'
        · intro g r k p hm; simp at hm; exact h14 g r k p hm
        · intro x hm g r hcz
          rcases List.mem_cons.1 hm with rfl | hm
          · right
            cases hcz with
            | event ht hr =>
              refine ⟨rfl, (fold_trigger_mem _).2 ?_⟩
              rcases hrs2 _ r ht hr with h | h
              · exact Or.inr ⟨h, by rw [hact]; simp⟩
              · exact Or.inl h
          · rcases h16 x hm g r hcz with h | h
            · exact Or.inl h
            · exact Or.inr ⟨h.1, (fold_trigger_mem _).2 (Or.inl h.2)⟩
        · intro g r d hm; simp at hm
          rcases h17 g r d hm with h | h
          · exact Or.inl h
          · exact Or.inr ⟨h.1, (fold_trigger_mem _).2 (Or.inl h.2)⟩
        · intro g r k p hm; simp at hm; exact h18 g r k p hm
        · intro g e' hm; simp at hm
          rcases hm with ⟨rfl, rfl⟩ | hm
          · refine ⟨hcmp.symm, ?_⟩
            exact List.mem_of_mem_head? (by change (tagsOf s.log).head? = _; rw [h19])
          · exact h21 g e' hm
      split at hstep
      · rename_i hnone
        simp only [Option.some.injEq] at hstep
        subst hstep
        exact hrq [] (by simp) (by intro t r h; rw [hnone] at h; cases h)
      · rename_i t ht
        have hthis := hrq (P.reactions t) (fun d r hle => (sole d r hle).2.1 t) (by
          intro t' r h hr
          rw [ht] at h
          simp only [Option.some.injEq] at h
          subst h; exact Or.inl hr)
        split at hstep
        · simp only [Option.some.injEq] at hstep
          subst hstep
          unfold doSchedule
          simp only []
          exact hthis.env _ (by rw [schedule_cur]) _ _ _ rfl
        · simp only [Option.some.injEq] at hstep
          subst hstep
          exact hthis
    · exact absurd hstep (by simp)
  | donePop =>
    simp only [step] at hstep
    split at hstep
    · rename_i hg
      simp only [Option.some.injEq] at hstep
      subst hstep
      obtain ⟨h1, h2, h3, h4, h5, h6, h7, h8, h9, h10, h10', h11, h12, h13, h14, h15, h16, h17, h18, h19, h20, h21⟩ := inv
      exact ⟨h1, h2, h3, h4, h5, h6, h7, h8, by simp, h10, h10', by simp, by simp, h13, h14, h15, h16, h17,
        h18, h19, h20, h21⟩
    · exact absurd hstep (by simp)
  | start r phys =>
    simp only [step] at hstep
    split at hstep
    · rename_i hg
      obtain ⟨hph, hact, hex, hr, hmin⟩ := hg
      simp only [Option.some.injEq] at hstep
      subst hstep
      obtain ⟨h1, h2, h3, h4, h5, h6, h7, h8, h9, h10, h10', h11, h12, h13, h14, h15, h16, h17, h18, h19, h20, h21⟩ := inv
      have hsub : ∀ x, x ∈ s.rq.erase r → x ∈ s.rq ∧ x ≠ r := by
        intro x hx
        rw [h1.mem_erase_iff] at hx
        exact ⟨hx.2, hx.1⟩
      have hok : TagOK P (r :: s.ran) := h2.cons (h3 r hr) (h4 r hr) (fun hl => h5 hl r hr)
      have hin : ∀ x, x ∈ s.rq → x ∈ r :: s.ran ∨ x ∈ s.rq.erase r := by
        intro x hx
        by_cases hxr : x = r
        · left; simp [hxr]
        · right; rw [h1.mem_erase_iff]; exact ⟨hxr, hx⟩
      have hruns : ∀ g, runsAt g (.run s.env.cur r (invocation P s.env.cur r phys) phys :: s.log) =
          if s.env.cur = g then r :: runsAt g s.log else runsAt g s.log := fun g => runsAt_run _ _ _ _ _ _
      refine ⟨h1.erase r, hok, ?_, ?_, ?_, ?_, ?_, ?_, ?_, ?_, ?_, ?_, ?_, ?_, ?_, ?_, ?_, ?_, ?_, h19, h20, ?_⟩
      · intro x hx hm
        obtain ⟨hx1, hx2⟩ := hsub x hx
        rcases List.mem_cons.1 hm with h | h
        · exact hx2 h
        · exact h3 x hx1 h
      · intro x hx y hy hp
        obtain ⟨hx1, hx2⟩ := hsub x hx
        rcases List.mem_cons.1 hy with h | h
        · subst h
          have h' := hp.index_lt top
          have := hmin x hx1; omega
        · exact h4 x hx1 y h hp
      · intro hl x hx y hy
        obtain ⟨hx1, hx2⟩ := hsub x hx
        rcases List.mem_cons.1 hy with h | h
        · subst h; exact hmin x hx1
        · exact h5 hl x hx1 y h
      · intro a ha
        simp only [Option.some.injEq] at ha
        simp [ha]
      · intro r' k' h
        simp only [Option.some.injEq, Prod.mk.injEq] at h
        simp [h.1]
      · intro d r' hle hm
        simp only [List.mem_cons] at hm
        have hdr : d ∈ s.rq ∨ d ∈ s.ran := by
          rcases hm with h | h | h
          · exact Or.inl (hsub d h).1
          · subst h; exact Or.inl hr
          · exact Or.inr h
        obtain ⟨g1, g2⟩ := h8 d r' hle hdr
        refine ⟨by simp [g1], ?_⟩
        intro k h
        simp only [Option.some.injEq, Prod.mk.injEq] at h
        rw [← h.1] at g1
        exact h3 r hr g1
      · intro hp; exact absurd hph hp
      · intro h; cases h
      · intro h; cases h
      · intro hp; exact absurd hph hp
      · intro hp; rw [hph] at hp; cases hp
      · change runsAt s.env.cur _ = _
        rw [hruns, if_pos rfl, h13]
      · intro g r' k' p' hm
        rcases List.mem_cons.1 hm with h | h
        · simp only [Entry.run.injEq] at h
          rw [h.1]; exact Tag.le_refl _
        · exact h14 g r' k' p' h
      · intro g
        rw [hruns]
        split
        · rename_i hgc; subst hgc; rw [h13]; exact hok
        · exact h15 g
      · intro y hm g x hcz
        rw [hruns]
        rcases List.mem_cons.1 hm with rfl | hm
        · cases hcz
        rcases h16 y hm g x hcz with h | ⟨rfl, h⟩
        · left; split <;> simp [h]
        · rcases hin x h with h' | h'
          · left; simpa [h13] using h'
          · exact Or.inr ⟨rfl, h'⟩
      · intro g r' d hm
        simp at hm
        rw [hruns]
        rcases h17 g r' d hm with h | ⟨rfl, h⟩
        · left; split <;> simp [h]
        · rcases hin d h with h' | h'
          · left; simpa [h13] using h'
          · exact Or.inr ⟨rfl, h'⟩
      · intro g r' k' p' hm
        rcases List.mem_cons.1 hm with h | h
        · simp only [Entry.run.injEq] at h
          obtain ⟨rfl, rfl, rfl, rfl⟩ := h; rfl
        · exact h18 g r' k' p' h
      · intro g e hm; simp at hm; exact h21 g e hm
    · exact absurd hstep (by simp)
  | call t extra tok phys =>
    simp only [step] at hstep
    split at hstep
    · simp only [Option.some.injEq] at hstep
      subst hstep
      unfold doSchedule
      simp only []
      exact inv.env _ (by rw [schedule_cur]) _ _ _ rfl
    · exact absurd hstep (by simp)
  | requestStop =>
    simp only [step] at hstep
    split at hstep
    · simp only [Option.some.injEq] at hstep
      subst hstep
      exact inv.env (setStopTag s.env (stopSoon s.env)) (by simp) s.nextId [] s.phase rfl
    · exact absurd hstep (by simp)
  | finish outs phys =>
    simp only [step] at hstep
    split at hstep
    · exact absurd hstep (by simp)
    · rename_i r k hexec
      split at hstep
      · rename_i hg
        obtain ⟨hph, hdown, _⟩ := hg
        have hrran := inv.idxeq top hexec
        have hhead := inv.exe r k hexec
        obtain ⟨l1, _, _, _, _, l6⟩ := map_output_logs s.env.cur r outs
        obtain ⟨h1, h2, h3, h4, h5, h6, h7, h8, h9, h10, h10', h11, h12, h13, h14, h15, h16, h17, h18, h19, h20, h21⟩ := inv
        -- facts about a triggered reaction
        have hnew : ∀ d ∈ P.down r, d ∉ s.ran ∧ ∀ y ∈ s.ran, ¬ Precedes P d y := by
          obtain ⟨rest, hrest⟩ : ∃ rest, s.ran = r :: rest := by
            cases hs : s.ran with
            | nil => rw [hs] at hhead; cases hhead
            | cons a b => rw [hs] at hhead; simp at hhead; exact ⟨b, by rw [hhead]⟩
          have hord := h2.order
          rw [hrest] at hord ⊢
          rw [List.pairwise_cons] at hord
          intro d hd
          constructor
          · intro hm
            rcases List.mem_cons.1 hm with h | h
            · have := top r d hd; rw [h] at this; omega
            · exact hord.1 d h (.single hd)
          · intro y hy hp
            have hry : Precedes P r y := hp.head hd
            rcases List.mem_cons.1 hy with h | h
            · have := hry.index_lt top; rw [h] at this; omega
            · exact hord.1 y h hry
        have hidx : (∀ d, P.lastEnabling d = none) → ∀ d ∈ P.down r, ∀ y ∈ s.ran, P.index y ≤ P.index d := by
          intro hl d hd y hy
          obtain ⟨rest, hrest⟩ : ∃ rest, s.ran = r :: rest := by
            cases hs : s.ran with
            | nil => rw [hs] at hhead; cases hhead
            | cons a b => rw [hs] at hhead; simp at hhead; exact ⟨b, by rw [hhead]⟩
          have hord := h2.index hl
          rw [hrest] at hord hy
          rw [List.pairwise_cons] at hord
          have hrd := top r d hd
          rcases List.mem_cons.1 hy with h | h
          · subst h; omega
          · have := hord.1 y h; omega
        split at hstep
        · -- a downstream reaction is executed now
          rename_i d rq hloop
          simp only [Option.some.injEq] at hstep
          subst hstep
          rcases outLoop_spec P s.active r outs none 0 s.rq h1 (Or.inl rfl) with
            ⟨d', e1, e2⟩ | ⟨rq', e1, _⟩
          swap
          · rw [hloop] at e1; simp at e1
          rw [hloop] at e1
          simp only [Prod.mk.injEq, Option.some.injEq] at e1
          obtain ⟨rfl, rfl⟩ := e1
          rcases e2 with ⟨e2, _⟩ | ⟨_, _, hdout, hle, hall⟩
          · cases e2
          have hd := hdown d hdout
          obtain ⟨hdn, hdp⟩ := hnew d hd
          have hdrq : d ∉ s.rq := fun hm => (h8 d r hle (Or.inl hm)).2 k hexec
          have hok : TagOK P (d :: s.ran) := h2.cons hdn hdp (fun hl => hidx hl d hd)
          have hruns : ∀ g, runsAt g (.run s.env.cur d (invocation P s.env.cur d phys) phys ::
              (outs.map (Entry.output s.env.cur r) ++ s.log)) =
              if s.env.cur = g then d :: runsAt g s.log else runsAt g s.log := by
            intro g
            rw [runsAt_run]; simp [l6]
          refine ⟨h1, hok, ?_, ?_, ?_, ?_, ?_, ?_, ?_, ?_, ?_, ?_, ?_, ?_, ?_, ?_, ?_, ?_, ?_, ?_, ?_, ?_⟩
          · intro x hx hm
            rcases List.mem_cons.1 hm with h | h
            · subst h; exact hdrq hx
            · exact h3 x hx h
          · intro x hx y hy hp
            rcases List.mem_cons.1 hy with h | h
            · subst h
              have hlast : x = r ∨ Precedes P x r := by
                cases hp with
                | single h => exact Or.inl ((sole y r hle).1 x h)
                | tail h1 h2 =>
                  rename_i m
                  have := (sole y r hle).1 m h2
                  subst this; exact Or.inr h1
              rcases hlast with h | h
              · subst h; exact h3 x hx hrran
              · exact h4 x hx r hrran h
            · exact h4 x hx y h hp
          · intro hl; rw [hl d] at hle; cases hle
          · intro a ha; simp [h6 a ha]
          · intro r' k' h
            simp only [Option.some.injEq, Prod.mk.injEq] at h
            simp [h.1]
          · intro d' r' hle' hm
            simp only [List.mem_cons] at hm
            have : d' = d ∨ (d' ∈ s.rq ∨ d' ∈ s.ran) := by tauto
            rcases this with h | h
            · subst h
              rw [hle] at hle'
              simp only [Option.some.injEq] at hle'
              subst hle'
              refine ⟨by simp [hrran], ?_⟩
              intro k' hk'
              simp only [Option.some.injEq, Prod.mk.injEq] at hk'
              have := top r d' hd
              rw [hk'.1] at this; omega
            · obtain ⟨g1, g2⟩ := h8 d' r' hle' h
              refine ⟨by simp [g1], ?_⟩
              intro k' hk'
              simp only [Option.some.injEq, Prod.mk.injEq] at hk'
              rw [← hk'.1] at g1
              exact hdn g1
          · intro hp; exact absurd hph hp
          · intro h; cases h
          · intro h
            have := h10' h
            rw [hexec] at this; cases this
          · intro hp; exact absurd hph hp
          · intro hp; rw [hph] at hp; cases hp
          · change runsAt s.env.cur _ = _
            rw [hruns, if_pos rfl, h13]
          · intro g r' k' p' hm
            rcases List.mem_cons.1 hm with h | h
            · simp only [Entry.run.injEq] at h
              rw [h.1]; exact Tag.le_refl _
            · simp at h; exact h14 g r' k' p' h
          · intro g
            rw [hruns]
            split
            · rename_i hgc; subst hgc; rw [h13]; exact hok
            · exact h15 g
          · intro y hm g x hcz
            rw [hruns]
            rcases List.mem_cons.1 hm with rfl | hm
            · cases hcz
            rcases List.mem_append.1 hm with hm | hm
            · obtain ⟨e, _, rfl⟩ := List.mem_map.1 hm
              cases hcz
            rcases h16 y hm g x hcz with h | h
            · left; split <;> simp [h]
            · exact Or.inr h
          · intro g r' d' hm
            simp only [List.mem_cons, reduceCtorEq, List.mem_append, List.mem_map,
              Entry.output.injEq, false_or] at hm
            rw [hruns]
            rcases hm with ⟨x, hx, rfl, rfl, rfl⟩ | hm
            · left
              rw [if_pos rfl, hall x hx]; simp
            · rcases h17 g r' d' hm with h | h
              · left; split <;> simp [h]
              · exact Or.inr h
          · intro g r' k' p' hm
            rcases List.mem_cons.1 hm with h | h
            · simp only [Entry.run.injEq] at h
              obtain ⟨rfl, rfl, rfl, rfl⟩ := h; rfl
            · simp at h; exact h18 g r' k' p' h
          · change (tagsOf (_ ++ s.log)).head? = _
            rw [tagsOf_append, l1]; exact h19
          · change (tagsOf (_ ++ s.log)).Pairwise _
            rw [tagsOf_append, l1]; exact h20
          · intro g e hm
            simp at hm
            change _ ∧ g ∈ tagsOf (_ ++ s.log)
            rw [tagsOf_append, l1]; exact h21 g e hm
        · -- back to the queue
          rename_i rq hloop
          simp only [Option.some.injEq] at hstep
          subst hstep
          rcases outLoop_spec P s.active r outs none 0 s.rq h1 (Or.inl rfl) with
            ⟨d', e1, e2⟩ | ⟨rq', e1, e2, e3⟩
          · rw [hloop] at e1; simp at e1
          rw [hloop] at e1
          simp only [Prod.mk.injEq, true_and] at e1
          subst e1
          have hsub : ∀ x, x ∈ rq → x ∈ s.rq ∨ x ∈ P.down r := by
            intro x hx
            rcases (e3 x).1 hx with h | ⟨h | h, _⟩
            · exact Or.inl h
            · exact Or.inr (hdown x h)
            · cases h
          have hruns : ∀ g, runsAt g (outs.map (Entry.output s.env.cur r) ++ s.log) = runsAt g s.log := by
            intro g; simp [l6]
          refine ⟨e2, h2, ?_, ?_, ?_, ?_, ?_, ?_, ?_, ?_, ?_, ?_, ?_, ?_, ?_, ?_, ?_, ?_, ?_, ?_, ?_, ?_⟩
          · intro x hx
            rcases hsub x hx with h | h
            · exact h3 x h
            · exact (hnew x h).1
          · intro x hx
            rcases hsub x hx with h | h
            · exact h4 x h
            · exact (hnew x h).2
          · intro hl x hx
            rcases hsub x hx with h | h
            · exact h5 hl x h
            · exact hidx hl x h
          · intro a ha; cases ha
          · intro r' k' h; cases h
          · intro d' r' hle' hm
            refine ⟨?_, by simp⟩
            rcases hm with h | h
            · rcases hsub d' h with h | h
              · exact (h8 d' r' hle' (Or.inl h)).1
              · have := (sole d' r' hle').1 r h
                subst this; exact hrran
            · exact (h8 d' r' hle' (Or.inr h)).1
          · intro hp; exact absurd hph hp
          · intro _; rfl
          · intro _; rfl
          · intro hp; exact absurd hph hp
          · intro hp; rw [hph] at hp; cases hp
          · change runsAt s.env.cur _ = _
            rw [hruns]; exact h13
          · intro g r' k' p' hm; simp at hm; exact h14 g r' k' p' hm
          · intro g; rw [hruns]; exact h15 g
          · intro y hm g x hcz
            rw [hruns]
            rcases List.mem_append.1 hm with hm | hm
            · obtain ⟨e, _, rfl⟩ := List.mem_map.1 hm
              cases hcz
            rcases h16 y hm g x hcz with h | h
            · exact Or.inl h
            · exact Or.inr ⟨h.1, (e3 x).2 (Or.inl h.2)⟩
          · intro g r' d' hm
            simp only [List.mem_append, List.mem_map, Entry.output.injEq] at hm
            rw [hruns]
            rcases hm with ⟨x, hx, rfl, rfl, rfl⟩ | hm
            · by_cases hax : s.active = some x
              · left; rw [h13]; exact h6 x hax
              · exact Or.inr ⟨rfl, (e3 x).2 (Or.inr ⟨Or.inl hx, hax⟩)⟩
            · rcases h17 g r' d' hm with h | h
              · exact Or.inl h
              · exact Or.inr ⟨h.1, (e3 d').2 (Or.inl h.2)⟩
          · intro g r' k' p' hm; simp at hm; exact h18 g r' k' p' hm
          · change (tagsOf (_ ++ s.log)).head? = _
            rw [tagsOf_append, l1]; exact h19
          · change (tagsOf (_ ++ s.log)).Pairwise _
            rw [tagsOf_append, l1]; exact h20
          · intro g e hm
            simp at hm
            change _ ∧ g ∈ tagsOf (_ ++ s.log)
            rw [tagsOf_append, l1]; exact h21 g e hm
      · exact absurd hstep (by simp)
  | endStep =>
    simp only [step] at hstep
    split at hstep
    · rename_i hg
      have hact := inv.actexec hg.2.2
      have hall : ∀ ph : Phase, ph ≠ .popping → RInv P { s with phase := ph } := by
        intro ph hne
        obtain ⟨h1, h2, h3, h4, h5, h6, h7, h8, h9, h10, h10', h11, h12, h13, h14, h15, h16, h17, h18, h19, h20, h21⟩ := inv
        exact ⟨h1, h2, h3, h4, h5, h6, h7, h8, fun _ => hg.2.2, h10, h10', fun _ _ => hg.2.1,
          fun h => absurd h hne, h13, h14, h15, h16, h17, h18, h19, h20, h21⟩
      split at hstep
      · simp only [Option.some.injEq] at hstep
        subst hstep
        exact hall _ (by decide)
      · simp only [Option.some.injEq] at hstep
        subst hstep
        exact hall _ (by decide)
    · exact absurd hstep (by simp)
  | next =>
    simp only [step] at hstep
    split at hstep
    · rename_i hph
      have hrq := inv.quiet (by rw [hph]; decide) (by rw [hph]; decide)
      have hidle := inv.idle (by rw [hph]; decide)
      obtain ⟨p1, p2, p2', p3, p4, p5⟩ := planNext_spec P s.env
      split at hstep
      · simp only [Option.some.injEq] at hstep
        subst hstep
        obtain ⟨h1, h2, h3, h4, h5, h6, h7, h8, h9, h10, h10', h11, h12, h13, h14, h15, h16, h17, h18, h19, h20, h21⟩ := inv
        refine ⟨h1, h2, h3, h4, h5, h6, h7, h8, fun _ => hidle, h10, h10', fun _ _ => hrq, by simp, ?_, ?_,
          h15, ?_, ?_, h18, ?_, h20, h21⟩
        all_goals simp only [p1]
        all_goals assumption
      · rename_i hnf
        rw [Bool.not_eq_true] at hnf
        have hlt := advance_of_not_fails hnf
        rw [p1] at hlt
        generalize hE : (planNext P s.env).1 = env at *
        generalize hG : (planNext P s.env).2 = g at *
        have hok : TagOK P [] := ⟨List.nodup_nil, List.Pairwise.nil, fun _ => List.Pairwise.nil⟩
        have hnone : runsAt g s.log = [] := by
          rw [runsAt, List.filterMap_eq_nil_iff]
          intro x hx
          cases x with
          | run g' r k p =>
            have := inv.runs_le g' r k p hx
            simp only
            rw [if_neg]
            rintro rfl
            exact Tag.lt_irrefl _ (Tag.lt_of_le_of_lt this hlt)
          | _ => rfl
        have htl : ∀ x ∈ tagsOf s.log, x < g := by
          intro x hx
          have hh := inv.tag
          cases htags : tagsOf s.log with
          | nil => rw [htags] at hx; simp at hx
          | cons a b =>
            rw [htags] at hx hh
            simp at hh
            subst hh
            have hp := inv.tags
            rw [htags, List.pairwise_cons] at hp
            rcases List.mem_cons.1 hx with h | h
            · rw [h]; exact hlt
            · exact Tag.lt_trans (hp.1 x h) hlt
        have hall : ∀ (rs : List Nat) (es : List Entry), (∀ d r, P.lastEnabling d = some r → d ∉ rs) →
            (es = [] ∨ (es = [.shutdown g] ∧ rs = P.shutdown)) →
            RInv P { s with
              env := { env with cur := g }, rq := rs.foldl (trigger s.active) s.rq, ran := [],
              phase := .popping, log := es ++ (.tag g :: s.log) } := by
          intro rs es hrs hes
          have hr0 : ∀ g', runsAt g' (es ++ (.tag g :: s.log)) = runsAt g' s.log := by
            intro g'; rcases hes with rfl | ⟨rfl, _⟩ <;> rfl
          have ht0 : tagsOf (es ++ (.tag g :: s.log)) = g :: tagsOf s.log := by
            rcases hes with rfl | ⟨rfl, _⟩ <;> rfl
          have hmem : ∀ x, x ∈ es ++ (.tag g :: s.log) → (∀ g', x ≠ .tag g') → (∀ g', x ≠ .shutdown g') →
              x ∈ s.log := by
            intro x hx hn1 hn2
            rcases hes with rfl | ⟨rfl, _⟩ <;> simp at hx
            · rcases hx with h | h
              · exact absurd h (hn1 _)
              · exact h
            · rcases hx with h | h | h
              · exact absurd h (hn2 _)
              · exact absurd h (hn1 _)
              · exact h
          obtain ⟨h1, h2, h3, h4, h5, h6, h7, h8, h9, h10, h10', h11, h12, h13, h14, h15, h16, h17, h18, h19, h20, h21⟩ := inv
          have hact := h10 hidle
          refine ⟨fold_trigger_nodup _ h1, hok, ?_, ?_, ?_, ?_, ?_, ?_, fun _ => hidle, h10, h10', ?_, ?_, ?_,
            ?_, ?_, ?_, ?_, ?_, ?_, ?_, ?_⟩
          · simp
          · simp
          · simp
          · intro a ha; rw [hact] at ha; cases ha
          · intro r k h; rw [hidle] at h; cases h
          · intro d r hle hm
            simp only [fold_trigger_mem, hrq] at hm
            rcases hm with (h | h) | h
            · simp at h
            · exact absurd h.1 (hrs d r hle)
            · simp at h
          · simp
          · simp
          · change runsAt g _ = _
            rw [hr0, hnone]
          · intro g' r k p hm
            have := h14 g' r k p (hmem _ hm (by simp) (by simp))
            exact Tag.le_of_lt (Tag.lt_of_le_of_lt this hlt)
          · intro g'; rw [hr0]; exact h15 g'
          · intro y hm g' r hcz
            rw [hr0]
            have hm2 : y ∈ s.log ∨ (y = .shutdown g ∧ rs = P.shutdown) := by
              by_cases hy : ∃ g', y = .shutdown g'
              · rcases hes with rfl | ⟨rfl, hrs'⟩ <;> simp at hm
                · rcases hm with h | h
                  · subst h; cases hcz
                  · exact Or.inl h
                · rcases hm with h | h | h
                  · exact Or.inr ⟨h, hrs'⟩
                  · subst h; cases hcz
                  · exact Or.inl h
              · left
                refine hmem y hm ?_ (fun g' h => hy ⟨g', h⟩)
                intro g' h; subst h; cases hcz
            rcases hm2 with hm2 | ⟨rfl, hrs'⟩
            · rcases h16 y hm2 g' r hcz with h | h
              · exact Or.inl h
              · rw [hrq] at h; simp at h
            · cases hcz with
              | shutdown hr =>
                exact Or.inr ⟨rfl, (fold_trigger_mem _).2 (Or.inr ⟨by rw [hrs']; exact hr, by rw [hact]; simp⟩)⟩
          · intro g' r d hm
            rw [hr0]
            rcases h17 g' r d (hmem _ hm (by simp) (by simp)) with h | h
            · exact Or.inl h
            · rw [hrq] at h; simp at h
          · intro g' r k p hm
            exact h18 g' r k p (hmem _ hm (by simp) (by simp))
          · rw [ht0]; rfl
          · rw [ht0]; exact List.pairwise_cons.2 ⟨htl, h20⟩
          · intro g' e hm
            rw [ht0]
            obtain ⟨g1, g2⟩ := h21 g' e (hmem _ hm (by simp) (by simp))
            exact ⟨g1, by simp [g2]⟩
        split at hstep
        · simp only [Option.some.injEq] at hstep
          subst hstep
          exact hall P.shutdown [.shutdown g] (fun d r hle => (sole d r hle).2.2.2) (Or.inr ⟨rfl, rfl⟩)
        · simp only [Option.some.injEq] at hstep
          subst hstep
          exact hall [] [] (by simp) (Or.inl rfl)
    · exact absurd hstep (by simp)
  | interrupted =>
    simp only [step] at hstep
    split at hstep
    · simp only [Option.some.injEq] at hstep
      subst hstep
      exact inv.env (planNext P s.env).1 ((planNext_spec P s.env).1) s.nextId [] s.phase rfl
    · exact absurd hstep (by simp)

theorem exec_RInv {P : Prog} {start duration : Int} (top : Topological P) (sole : SoleEnabler P)
    {ls : List Label} {s : St} (h : Exec P start duration ls s) : RInv P s := by
  induction h with
  | init => exact init_RInv sole
  | step _ hstep ih => exact step_RInv top sole ih hstep

end ReactorC.Runtime
