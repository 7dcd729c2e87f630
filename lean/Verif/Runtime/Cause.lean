import Verif.Runtime.Order
import Verif.Runtime.Timers

/-! Invariants that hold in every execution, without any hypothesis on the program. -/

set_option linter.unusedSimpArgs false
set_option linter.unusedVariables false

namespace ReactorC.Runtime
open ReactorC ReactorC.Sched

theorem Caused.mono {P : Prog} {log log' : List Entry} {g r} (h : Caused P log g r)
    (hs : ∀ x ∈ log, x ∈ log') : Caused P log' g r := by
  rcases h with ⟨x, hx, hc⟩ | ⟨r', h⟩
  · exact Or.inl ⟨x, hs x hx, hc⟩
  · exact Or.inr ⟨r', hs _ h⟩

structure UInv (P : Prog) (s : St) : Prop where
  rq_caused : ∀ r ∈ s.rq, Caused P s.log s.env.cur r
  run_caused : ∀ g r k p, Entry.run g r k p ∈ s.log → Caused P s.log g r
  quiet : s.phase ≠ .reacting → s.phase ≠ .popping → s.rq = []
  tag : (tagsOf s.log).head? = some s.env.cur
  tags : (tagsOf s.log).Pairwise (fun later earlier => earlier < later)
  popped_at : ∀ g e, Entry.popped g e ∈ s.log → g = e.tag ∧ g ∈ tagsOf s.log
  tstart_at : ∀ g t, Entry.timerAtStart g t ∈ s.log → g ∈ tagsOf s.log

/-- A step that keeps the tag and adds no tag, popped or run entry. -/
theorem UInv.keep {P : Prog} {s s' : St} (inv : UInv P s) (es : List Entry)
    (hlog : s'.log = es ++ s.log) (hcur : s'.env.cur = s.env.cur)
    (hrq : ∀ r ∈ s'.rq, r ∈ s.rq ∨ Caused P s'.log s.env.cur r)
    (hq : s'.phase ≠ .reacting → s'.phase ≠ .popping → s'.rq = [])
    (htag : tagsOf es = [])
    (hpop : ∀ g e, Entry.popped g e ∈ es → g = s.env.cur ∧ e.tag = s.env.cur)
    (hrun : ∀ g r k p, Entry.run g r k p ∈ es → Caused P s'.log g r)
    (hts : ∀ g t, Entry.timerAtStart g t ∈ es → g = s.env.cur := by simp) : UInv P s' := by
  have hsub : ∀ x ∈ s.log, x ∈ s'.log := by rw [hlog]; intro x hx; simp [hx]
  have htg : tagsOf s'.log = tagsOf s.log := by rw [hlog, tagsOf_append, htag, List.nil_append]
  refine ⟨?_, ?_, hq, ?_, ?_, ?_, ?_⟩
  · intro r hr
    rw [hcur]
    rcases hrq r hr with h | h
    · exact (inv.rq_caused r h).mono hsub
    · exact h
  · intro g r k p hm
    rw [hlog] at hm
    rcases List.mem_append.1 hm with h | h
    · exact hrun g r k p h
    · exact (inv.run_caused g r k p h).mono hsub
  · rw [htg, hcur]; exact inv.tag
  · rw [htg]; exact inv.tags
  · intro g e hm
    rw [htg]
    rw [hlog] at hm
    rcases List.mem_append.1 hm with h | h
    · obtain ⟨h1, h2⟩ := hpop g e h
      refine ⟨by rw [h1, h2], ?_⟩
      rw [h1]
      exact List.mem_of_mem_head? (by rw [inv.tag]; rfl)
    · exact inv.popped_at g e h
  · intro g t hm
    rw [htg]
    rw [hlog] at hm
    rcases List.mem_append.1 hm with h | h
    · rw [hts g t h]
      exact List.mem_of_mem_head? (by rw [inv.tag]; rfl)
    · exact inv.tstart_at g t h

theorem initTimer_UInv {P : Prog} {s : St} {t : Nat} (hph : s.phase = .reacting) (inv : UInv P s) :
    UInv P (initTimer P s t) ∧ (initTimer P s t).phase = .reacting := by
  have h1 : UInv P { s with
      rq := (P.reactions t).foldl (trigger s.active) s.rq
      log := .timerAtStart s.env.cur t :: s.log } := by
    refine inv.keep [.timerAtStart s.env.cur t] rfl rfl ?_ ?_ rfl (by simp) (by simp)
    · intro r hr
      rcases (fold_trigger_mem _).1 hr with h | h
      · exact Or.inl h
      · exact Or.inr (Or.inl ⟨_, by simp, .timer h.1⟩)
    · intro h; exact absurd hph h
  have h2 : ∀ s1 : St, ∀ g : Tag, UInv P s1 → s1.phase = .reacting → UInv P { s1 with
      env := { s1.env with q := ⟨s1.nextId, g, some t, none⟩ :: s1.env.q }
      nextId := s1.nextId + 1
      log := .inserted ⟨s1.nextId, g, some t, none⟩ :: s1.log } := by
    intro s1 g i hp
    exact i.keep [.inserted ⟨s1.nextId, g, some t, none⟩] rfl rfl (fun r hr => Or.inl hr)
      (fun h => absurd hp h) rfl (by simp) (by simp)
  unfold initTimer
  simp only []
  by_cases ho : (P.trigs t).offset = 0
  · simp only [ho, if_true, true_and]
    by_cases hp : (P.trigs t).period = 0
    · simp only [hp, if_true]; exact ⟨h1, hph⟩
    · simp only [hp, if_false]
      split
      · exact ⟨h1, hph⟩
      · exact ⟨h2 _ _ h1 hph, hph⟩
  · simp only [ho, if_false, false_and]
    split
    · exact ⟨inv, hph⟩
    · exact ⟨h2 _ _ inv hph, hph⟩

theorem init_UInv {P : Prog} {start duration : Int} : UInv P (init P start duration) := by
  let s1 : St := {
    env := initEnv start duration, rq := P.startup.foldl (trigger none) [],
    active := none, exec := none, phase := .reacting, nextId := 0, ran := [],
    log := [.startup ⟨start, 0⟩, .tag ⟨start, 0⟩] }
  have inv1 : UInv P s1 := by
    refine ⟨?_, by simp [s1], by simp [s1], rfl, by simp [s1, tagsOf], by simp [s1], by simp [s1]⟩
    intro r hr
    rcases (fold_trigger_mem _).1 hr with h | h
    · simp at h
    · exact Or.inl ⟨.startup ⟨start, 0⟩, by simp [s1], .startup h.1⟩
  have hfold : ∀ (ts : List Nat) (s : St), s.phase = .reacting → UInv P s →
      UInv P (ts.foldl (initTimer P) s) ∧ (ts.foldl (initTimer P) s).phase = .reacting := by
    intro ts
    induction ts with
    | nil => intro s h1 h2; exact ⟨h2, h1⟩
    | cons t ts ih =>
      intro s h1 h2
      obtain ⟨g1, g2⟩ := initTimer_UInv (t := t) h1 h2
      exact ih _ g2 g1
  obtain ⟨inv2, hph2⟩ := hfold P.timers s1 rfl inv1
  have hdef : init P start duration =
      if lf_tag_compare (P.timers.foldl (initTimer P) s1).env.cur
          (P.timers.foldl (initTimer P) s1).env.stop ≥ 0 then
        { P.timers.foldl (initTimer P) s1 with
          rq := P.shutdown.foldl (trigger none) (P.timers.foldl (initTimer P) s1).rq,
          log := .shutdown (P.timers.foldl (initTimer P) s1).env.cur ::
            (P.timers.foldl (initTimer P) s1).log }
      else P.timers.foldl (initTimer P) s1 := rfl
  rw [hdef]
  generalize P.timers.foldl (initTimer P) s1 = s at *
  split
  · refine inv2.keep [.shutdown s.env.cur] rfl rfl ?_ ?_ rfl (by simp) (by simp)
    · intro r hr
      rcases (fold_trigger_mem _).1 hr with h | h
      · exact Or.inl h
      · exact Or.inr (Or.inl ⟨_, by simp, .shutdown h.1⟩)
    · intro h; exact absurd hph2 h
  · exact inv2

theorem doSchedule_UInv {P : Prog} {s : St} (inv : UInv P s) (t extra tok phys) :
    UInv P (doSchedule P s t extra tok phys) := by
  unfold doSchedule
  exact inv.keep _ rfl (schedule_cur _ _ _ _ _ _ _ _) (fun r hr => Or.inl hr) inv.quiet
    (map_inserted_logs _).1 (by simp) (by simp)

theorem outLoop_mem (P : Prog) (active : Option Nat) (r : Nat) :
    ∀ (outs : List Nat) (cand : Option Nat) (num : Nat) (rq : List Nat),
    (∀ d, (outLoop P active r outs cand num rq).1 = some d → d ∈ outs ∨ cand = some d) ∧
    (∀ x ∈ (outLoop P active r outs cand num rq).2, x ∈ rq ∨ x ∈ outs ∨ cand = some x) := by
  intro outs
  induction outs with
  | nil => intro cand num rq; simp [outLoop]; exact fun x h => Or.inl h
  | cons d ds ih =>
    intro cand num rq
    unfold outLoop
    split
    · rename_i hc
      obtain ⟨h1, h2⟩ := ih cand num rq
      refine ⟨fun x hx => ?_, fun x hx => ?_⟩
      · rcases h1 x hx with h | h <;> simp [h]
      · rcases h2 x hx with h | h | h <;> simp [h]
    · split
      · obtain ⟨h1, h2⟩ := ih (some d) 1 rq
        refine ⟨fun x hx => ?_, fun x hx => ?_⟩
        · rcases h1 x hx with h | h
          · simp [h]
          · simp only [Option.some.injEq] at h; simp [h]
        · rcases h2 x hx with h | h | h
          · simp [h]
          · simp [h]
          · simp only [Option.some.injEq] at h; simp [h]
      · simp only []
        cases cand with
        | none =>
          obtain ⟨h1, h2⟩ := ih none (num + 1) (trigger active rq d)
          refine ⟨fun x hx => ?_, fun x hx => ?_⟩
          · rcases h1 x hx with h | h
            · simp [h]
            · cases h
          · rcases h2 x hx with h | h | h
            · rcases trigger_mem.1 h with h | h <;> simp [h]
            · simp [h]
            · cases h
        | some c =>
          obtain ⟨h1, h2⟩ := ih none (num + 1) (trigger active (trigger active rq c) d)
          refine ⟨fun x hx => ?_, fun x hx => ?_⟩
          · rcases h1 x hx with h | h
            · simp [h]
            · cases h
          · rcases h2 x hx with h | h | h
            · rcases trigger_mem.1 h with h | h
              · rcases trigger_mem.1 h with h | h <;> simp [h]
              · simp [h]
            · simp [h]
            · cases h

theorem step_UInv {P : Prog} {s s' : St} {l : Label}
    (inv : UInv P s) (hstep : step P s l = some s') : UInv P s' := by
  cases l with
  | popEvent e =>
    simp only [step] at hstep
    split at hstep
    swap
    · exact absurd hstep (by simp)
    rename_i hg
    obtain ⟨hph, hmem, hmin, hcmp⟩ := hg
    rw [cmp_eq_zero] at hcmp
    have hpop : ∀ rs : List Nat, (∀ r ∈ rs, ∃ t, e.trigger = some t ∧ r ∈ P.reactions t) →
        UInv P { s with
          rq := rs.foldl (trigger s.active) s.rq
          env := { s.env with q := s.env.q.erase e }
          log := .popped s.env.cur e :: s.log } := by
      intro rs hrs
      refine inv.keep [.popped s.env.cur e] rfl rfl ?_ ?_ rfl ?_ (by simp)
      · intro r hr
        rcases (fold_trigger_mem _).1 hr with h | h
        · exact Or.inl h
        · obtain ⟨t, h1, h2⟩ := hrs r h.1
          exact Or.inr (Or.inl ⟨_, by simp, .event h1 h2⟩)
      · intro _ h; exact absurd hph h
      · intro g e' hm
        simp at hm
        obtain ⟨rfl, rfl⟩ := hm
        exact ⟨rfl, hcmp⟩
    split at hstep
    · simp only [Option.some.injEq] at hstep
      subst hstep
      exact hpop [] (by simp)
    · rename_i t ht
      split at hstep
      · simp only [Option.some.injEq] at hstep
        subst hstep
        exact doSchedule_UInv (hpop _ (fun r hr => ⟨t, ht, hr⟩)) _ _ _ _
      · simp only [Option.some.injEq] at hstep
        subst hstep
        exact hpop _ (fun r hr => ⟨t, ht, hr⟩)
  | donePop =>
    simp only [step] at hstep
    split at hstep
    · simp only [Option.some.injEq] at hstep; subst hstep
      exact inv.keep [] rfl rfl (fun r hr => Or.inl hr) (by simp) rfl (by simp) (by simp)
    · exact absurd hstep (by simp)
  | start r phys =>
    simp only [step] at hstep
    split at hstep
    · rename_i hg
      simp only [Option.some.injEq] at hstep; subst hstep
      refine inv.keep [.run s.env.cur r _ phys] rfl rfl ?_ ?_ rfl (by simp) ?_
      · intro x hx; exact Or.inl (List.mem_of_mem_erase hx)
      · intro h; exact absurd hg.1 h
      · intro g r' k p hm
        simp at hm
        obtain ⟨rfl, rfl, _, _⟩ := hm
        exact (inv.rq_caused r' hg.2.2.2.1).mono (fun x hx => by simp [hx])
    · exact absurd hstep (by simp)
  | call t extra tok phys =>
    simp only [step] at hstep
    split at hstep
    · simp only [Option.some.injEq] at hstep; subst hstep
      exact doSchedule_UInv inv _ _ _ _
    · exact absurd hstep (by simp)
  | requestStop =>
    simp only [step] at hstep
    split at hstep
    · simp only [Option.some.injEq] at hstep; subst hstep
      exact inv.keep [] rfl (by simp) (fun r hr => Or.inl hr) inv.quiet rfl (by simp) (by simp)
    · exact absurd hstep (by simp)
  | finish outs phys =>
    simp only [step] at hstep
    split at hstep
    · exact absurd hstep (by simp)
    · rename_i r k hexec
      split at hstep
      · rename_i hg
        obtain ⟨hm1, hm2⟩ := outLoop_mem P s.active r outs none 0 s.rq
        obtain ⟨l1, _, _, _, _, _⟩ := map_output_logs s.env.cur r outs
        have hout : ∀ (es : List Entry) (d : Nat), d ∈ outs →
            Caused P (es ++ (outs.map (Entry.output s.env.cur r) ++ s.log)) s.env.cur d :=
          fun es d hd => Or.inr ⟨r, by simp [hd]⟩
        split at hstep
        · rename_i d rq hloop
          simp only [Option.some.injEq] at hstep; subst hstep
          rw [hloop] at hm1 hm2
          refine inv.keep (.run s.env.cur d (invocation P s.env.cur d phys) phys ::
            outs.map (Entry.output s.env.cur r)) rfl rfl ?_ ?_ l1 (by simp) ?_
          · intro x hx
            rcases hm2 x hx with h | h | h
            · exact Or.inl h
            · exact Or.inr (hout [_] x h)
            · cases h
          · intro h; exact absurd hg.1 h
          · intro g r' k' p hm
            simp at hm
            obtain ⟨rfl, rfl, _, _⟩ := hm
            rcases hm1 r' rfl with h | h
            · exact hout [_] r' h
            · cases h
        · rename_i rq hloop
          simp only [Option.some.injEq] at hstep; subst hstep
          rw [hloop] at hm1 hm2
          refine inv.keep (outs.map (Entry.output s.env.cur r)) rfl rfl ?_ ?_ l1 (by simp) (by simp)
          · intro x hx
            rcases hm2 x hx with h | h | h
            · exact Or.inl h
            · exact Or.inr (hout [] x h)
            · cases h
          · intro h; exact absurd hg.1 h
      · exact absurd hstep (by simp)
  | endStep =>
    simp only [step] at hstep
    split at hstep
    · rename_i hg
      split at hstep <;> (simp only [Option.some.injEq] at hstep; subst hstep)
      · exact inv.keep [] rfl rfl (fun r hr => Or.inl hr) (fun _ _ => hg.2.1) rfl (by simp) (by simp)
      · exact inv.keep [] rfl rfl (fun r hr => Or.inl hr) (fun _ _ => hg.2.1) rfl (by simp) (by simp)
    · exact absurd hstep (by simp)
  | next =>
    simp only [step] at hstep
    split at hstep
    swap
    · exact absurd hstep (by simp)
    rename_i hph
    have hrq := inv.quiet (by rw [hph]; decide) (by rw [hph]; decide)
    obtain ⟨p1, _⟩ := planNext_spec P s.env
    split at hstep
    · simp only [Option.some.injEq] at hstep; subst hstep
      exact inv.keep [] rfl p1 (fun r hr => Or.inl hr) (fun _ _ => hrq) rfl (by simp) (by simp)
    · rename_i hnf
      rw [Bool.not_eq_true] at hnf
      have hlt := advance_of_not_fails hnf
      rw [p1] at hlt
      generalize (planNext P s.env).1 = env at *
      generalize (planNext P s.env).2 = g at *
      have htl : ∀ x ∈ tagsOf s.log, x < g := by
        intro x hx
        have hh := inv.tag
        cases htags : tagsOf s.log with
        | nil => rw [htags] at hx; simp at hx
        | cons a b =>
          rw [htags] at hx hh
          simp at hh
          subst hh
          have hp := inv.tags
          rw [htags, List.pairwise_cons] at hp
          rcases List.mem_cons.1 hx with h | h
          · rw [h]; exact hlt
          · exact Tag.lt_trans (hp.1 x h) hlt
      have hall : ∀ (rs : List Nat) (es : List Entry),
          ((rs = [] ∧ es = []) ∨ (es = [.shutdown g] ∧ rs = P.shutdown)) →
          UInv P { s with
            env := { env with cur := g }, rq := rs.foldl (trigger s.active) s.rq, ran := [],
            phase := .popping, log := es ++ (.tag g :: s.log) } := by
        intro rs es hes
        have hr0 : ∀ g' r k p, Entry.run g' r k p ∈ es ++ (.tag g :: s.log) →
            Entry.run g' r k p ∈ s.log := by
          intro g' r k p hm
          rcases hes with ⟨_, rfl⟩ | ⟨rfl, _⟩ <;> simpa using hm
        have hp0 : ∀ g' e, Entry.popped g' e ∈ es ++ (.tag g :: s.log) →
            Entry.popped g' e ∈ s.log := by
          intro g' e hm
          rcases hes with ⟨_, rfl⟩ | ⟨rfl, _⟩ <;> simpa using hm
        have ht0 : tagsOf (es ++ (.tag g :: s.log)) = g :: tagsOf s.log := by
          rcases hes with ⟨_, rfl⟩ | ⟨rfl, _⟩ <;> rfl
        have hsub : ∀ x ∈ s.log, x ∈ es ++ (.tag g :: s.log) := by intro x hx; simp [hx]
        refine ⟨?_, ?_, by simp, ?_, ?_, ?_, ?_⟩
        · intro r hr
          rcases (fold_trigger_mem _).1 hr with h | h
          · rw [hrq] at h; simp at h
          · rcases hes with ⟨rfl, rfl⟩ | ⟨rfl, rfl⟩
            · simp at h
            · exact Or.inl ⟨.shutdown g, by simp, .shutdown h.1⟩
        · intro g' r k p hm
          exact (inv.run_caused g' r k p (hr0 g' r k p hm)).mono hsub
        · rw [ht0]; rfl
        · rw [ht0]; exact List.pairwise_cons.2 ⟨htl, inv.tags⟩
        · intro g' e hm
          rw [ht0]
          obtain ⟨h1, h2⟩ := inv.popped_at g' e (hp0 g' e hm)
          exact ⟨h1, by simp [h2]⟩
        · intro g' t hm
          rw [ht0]
          have hm' : Entry.timerAtStart g' t ∈ s.log := by
            rcases hes with ⟨_, rfl⟩ | ⟨rfl, _⟩ <;> simpa using hm
          exact List.mem_cons_of_mem _ (inv.tstart_at g' t hm')
      split at hstep
      · simp only [Option.some.injEq] at hstep; subst hstep
        exact hall P.shutdown [.shutdown g] (Or.inr ⟨rfl, rfl⟩)
      · simp only [Option.some.injEq] at hstep; subst hstep
        exact hall [] [] (Or.inl ⟨rfl, rfl⟩)
  | interrupted =>
    simp only [step] at hstep
    split at hstep
    · simp only [Option.some.injEq] at hstep; subst hstep
      exact inv.keep [] rfl (planNext_spec P s.env).1 (fun r hr => Or.inl hr) inv.quiet rfl (by simp) (by simp)
    · exact absurd hstep (by simp)

theorem exec_UInv {P : Prog} {start duration : Int} {ls : List Label} {s : St}
    (h : Exec P start duration ls s) : UInv P s := by
  induction h with
  | init => exact init_UInv
  | step _ hstep ih => exact step_UInv ih hstep

theorem timerAtStart_tag {P : Prog} {start duration : Int} {ls : List Label} {s : St}
    (h : Exec P start duration ls s) : ∀ g t, Entry.timerAtStart g t ∈ s.log → g ∈ tagsOf s.log :=
  (exec_UInv h).tstart_at

theorem Good.exec {P : Prog} {start duration : Int} {ls : List Label} {s : St}
    (h : Good P start duration ls s) : Exec P start duration ls s := by
  induction h with
  | init => exact .init
  | step _ hstep _ _ ih => exact .step ih hstep

/-- The stop tag never moves later. -/
theorem step_stop_le {P : Prog} {s s' : St} {l : Label}
    (hstep : step P s l = some s') : s'.env.stop ≤ s.env.stop := by
  have hsch : ∀ (env : Env) (t extra tok phys id),
      (lf_schedule_trigger P.debug P.trigs env (some t) extra tok phys id).1.stop = env.stop := by
    intro env t extra tok phys id
    have hf : ∀ env t i tok id, (finishSchedule P.debug env t i tok id).1.stop = env.stop := by
      intro env t i tok id
      have h : ∃ g, finishSchedule P.debug env t i tok id =
          if afterStop env g then (doneUsing env tok, 0)
          else ({ env with
                  last := fun j => if j = t then g else env.last j
                  q := ⟨id, g, some t, tok⟩ :: env.q
                  handle := bumpHandle env.handle }, env.handle) := ⟨_, rfl⟩
      obtain ⟨g, hg⟩ := h
      rw [hg]; split <;> simp
    have hr : ∀ env f tok, (replaceToken env f tok).stop = env.stop := by
      intro env f tok; simp only [replaceToken]; split <;> simp
    unfold lf_schedule_trigger
    split
    · simp
    · simp only []
      repeat' split
      all_goals simp [hf, hr]
  cases l with
  | popEvent e =>
    simp only [step] at hstep
    split at hstep
    · split at hstep
      · simp only [Option.some.injEq] at hstep; subst hstep; exact Tag.le_refl _
      · split at hstep
        · simp only [Option.some.injEq] at hstep; subst hstep
          simp only [doSchedule, hsch]; exact Tag.le_refl _
        · simp only [Option.some.injEq] at hstep; subst hstep; exact Tag.le_refl _
    · exact absurd hstep (by simp)
  | donePop =>
    simp only [step] at hstep
    split at hstep
    · simp only [Option.some.injEq] at hstep; subst hstep; exact Tag.le_refl _
    · exact absurd hstep (by simp)
  | start r phys =>
    simp only [step] at hstep
    split at hstep
    · simp only [Option.some.injEq] at hstep; subst hstep; exact Tag.le_refl _
    · exact absurd hstep (by simp)
  | call t extra tok phys =>
    simp only [step] at hstep
    split at hstep
    · simp only [Option.some.injEq] at hstep; subst hstep
      simp only [doSchedule, hsch]; exact Tag.le_refl _
    · exact absurd hstep (by simp)
  | requestStop =>
    simp only [step] at hstep
    split at hstep
    · simp only [Option.some.injEq] at hstep; subst hstep; exact setStop_le _ _
    · exact absurd hstep (by simp)
  | finish outs phys =>
    simp only [step] at hstep
    split at hstep
    · exact absurd hstep (by simp)
    · split at hstep
      · split at hstep <;> (simp only [Option.some.injEq] at hstep; subst hstep; exact Tag.le_refl _)
      · exact absurd hstep (by simp)
  | endStep =>
    simp only [step] at hstep
    split at hstep
    · split at hstep <;> (simp only [Option.some.injEq] at hstep; subst hstep; exact Tag.le_refl _)
    · exact absurd hstep (by simp)
  | next =>
    simp only [step] at hstep
    split at hstep
    · split at hstep
      · simp only [Option.some.injEq] at hstep; subst hstep; exact planNext_stop_le _ _
      · split at hstep <;>
          (simp only [Option.some.injEq] at hstep; subst hstep; exact planNext_stop_le _ _)
    · exact absurd hstep (by simp)
  | interrupted =>
    simp only [step] at hstep
    split at hstep
    · simp only [Option.some.injEq] at hstep; subst hstep; exact planNext_stop_le _ _
    · exact absurd hstep (by simp)

end ReactorC.Runtime
