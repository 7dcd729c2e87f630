import Verif.Runtime.Inv

/-! Invariant about timers. -/

set_option linter.unusedSimpArgs false
set_option linter.unusedVariables false

namespace ReactorC.Runtime
open ReactorC ReactorC.Sched

/-- Tags of the pending events of `t`. -/
def pendOf (t : Nat) (q : List Event) : List Tag :=
  (q.filter (fun e => decide (e.trigger = some t))).map Event.tag

/-- The next firing of a timer that fired `k` times, if there is one. -/
def nextFire (start : Int) (T : Trigger) (k : Nat) : Option Tag :=
  if T.period = 0 ∧ 0 < k then none
  else some (if start + T.offset + k * T.period < FOREVER
    then ⟨start + T.offset + k * T.period, 0⟩ else FOREVER_TAG)

/-- The first `k` firings, latest first. -/
def fireList (start : Int) (T : Trigger) (k : Nat) : List Tag :=
  ((List.range k).map (fun i : Nat => (⟨start + T.offset + i * T.period, 0⟩ : Tag))).reverse

theorem fireList_succ (start T k) :
    fireList start T (k + 1) = ⟨start + T.offset + k * T.period, 0⟩ :: fireList start T k := by
  simp [fireList, List.range_succ]

def TInv (start : Int) (T : Trigger) (pend fires : List Tag) (stop : Tag) : Prop :=
  ∃ k, fires = fireList start T k ∧ (T.period = 0 → k ≤ 1) ∧
    (pend = (nextFire start T k).toList ∨ (pend = [] ∧ ∀ g, nextFire start T k = some g → stop < g))

theorem TInv.stop_le {start T pend fires stop stop'} (h : TInv start T pend fires stop)
    (hs : stop' ≤ stop) : TInv start T pend fires stop' := by
  obtain ⟨k, h1, h2, h3⟩ := h
  refine ⟨k, h1, h2, ?_⟩
  rcases h3 with h | ⟨h, h'⟩
  · exact Or.inl h
  · exact Or.inr ⟨h, fun g hg => Tag.lt_of_le_of_lt hs (h' g hg)⟩

theorem pendOf_erase_of_ne {t : Nat} {q : List Event} {e : Event} (h : e.trigger ≠ some t) :
    pendOf t (q.erase e) = pendOf t q := by
  unfold pendOf
  induction q with
  | nil => rfl
  | cons x q ih =>
    rw [List.erase_cons]
    split
    · rename_i hx
      have : x = e := by simpa using hx
      subst this
      simp [h]
    · simp only [List.filter_cons]
      split <;> simp_all

theorem pendOf_erase_of_eq {t : Nat} {q : List Event} {e : Event} (h : e.trigger = some t)
    (hm : e ∈ q) : (pendOf t q).Perm (e.tag :: pendOf t (q.erase e)) := by
  unfold pendOf
  have := ((List.perm_cons_erase hm).filter (fun e => decide (e.trigger = some t))).map Event.tag
  simpa [List.filter_cons, h] using this

theorem pendOf_map {t : Nat} {q : List Event} {f : Event → Event}
    (h : ∀ e, (f e).id = e.id ∧ (f e).tag = e.tag ∧ (f e).trigger = e.trigger) :
    pendOf t (q.map f) = pendOf t q := by
  unfold pendOf
  induction q with
  | nil => rfl
  | cons x q ih =>
    simp only [List.map_cons, List.filter_cons, (h x).2.2]
    split <;> simp_all

theorem firesOf_cons_popped (t : Nat) (g : Tag) (e : Event) (l : List Entry) :
    firesOf t (.popped g e :: l) = if e.trigger = some t then g :: firesOf t l else firesOf t l := by
  simp only [firesOf, List.filterMap_cons]
  split <;> split <;> simp_all

theorem firesOf_cons_start (t t' : Nat) (g : Tag) (l : List Entry) :
    firesOf t (.timerAtStart g t' :: l) = if t' = t then g :: firesOf t l else firesOf t l := by
  simp only [firesOf, List.filterMap_cons]
  split <;> split <;> simp_all

/-- Initialization of the timers. -/
theorem initTimer_other {P : Prog} {s : St} {t t' : Nat} (h : t' ≠ t) :
    pendOf t (initTimer P s t').env.q = pendOf t s.env.q ∧
    firesOf t (initTimer P s t').log = firesOf t s.log ∧
    (initTimer P s t').env.cur = s.env.cur ∧ (initTimer P s t').env.stop = s.env.stop := by
  unfold initTimer
  simp only []
  repeat' split
  all_goals simp [pendOf, List.filter_cons, h, firesOf]

theorem initTimer_self {P : Prog} {start duration : Int} (wf : WF P start duration) {s : St} {t : Nat}
    (ht : t ∈ P.timers) (hc : s.env.cur = ⟨start, 0⟩)
    (hp : pendOf t s.env.q = []) (hf : firesOf t s.log = []) :
    TInv start (P.trigs t) (pendOf t (initTimer P s t).env.q) (firesOf t (initTimer P s t).log)
      (initTimer P s t).env.stop ∧
    (initTimer P s t).env.cur = s.env.cur ∧ (initTimer P s t).env.stop = s.env.stop := by
  have hT := wf.timer_offset t ht
  have hT2 := wf.timer_period t ht
  have hst := wf.start_time
  have hw1 : wrap64 (start + (P.trigs t).offset) = start + (P.trigs t).offset := by
    apply wrap64_id; simp only [IsI64, NEVER, FOREVER] at *; omega
  have hw2 : wrap64 (start + (P.trigs t).period) = start + (P.trigs t).period := by
    apply wrap64_id; simp only [IsI64, NEVER, FOREVER] at *; omega
  unfold initTimer
  simp only [hc]
  by_cases ho : (P.trigs t).offset = 0
  · simp only [ho, if_true, true_and]
    by_cases hpz : (P.trigs t).period = 0
    · simp only [hpz, if_true]
      refine ⟨⟨1, ?_, by simp, ?_⟩, by simp [hc], by simp⟩
      · simp [firesOf_cons_start, hf, fireList, ho]
      · left; simp [nextFire, hpz, hp]
    · simp only [hpz, if_false, hw2]
      have hnf : nextFire start (P.trigs t) 1 = some ⟨start + (P.trigs t).period, 0⟩ := by
        simp [nextFire, hpz, ho, hT2.2]
      split
      · rename_i has
        rw [afterStop_eq_true] at has
        refine ⟨⟨1, ?_, by simp, Or.inr ⟨hp, ?_⟩⟩, by simp [hc], by simp⟩
        · simp [firesOf_cons_start, hf, fireList, ho]
        · intro g hg; rw [hnf] at hg
          simp only [Option.some.injEq] at hg
          subst hg; exact has
      · refine ⟨⟨1, ?_, by simp, Or.inl ?_⟩, by simp [hc], by simp⟩
        · rw [show ∀ (x : Event) (l : List Entry), firesOf t (.inserted x :: l) = firesOf t l from
            fun _ _ => rfl]
          simp [firesOf_cons_start, hf, fireList, ho]
        · rw [hnf]
          simpa [pendOf, List.filter_cons] using hp
  · simp only [ho, if_false, false_and, hw1]
    have hnf : nextFire start (P.trigs t) 0 = some ⟨start + (P.trigs t).offset, 0⟩ := by
      simp [nextFire, hT.2]
    split
    · rename_i has
      rw [afterStop_eq_true] at has
      refine ⟨⟨0, ?_, by simp, Or.inr ⟨hp, ?_⟩⟩, by simp [hc], by simp⟩
      · simpa [fireList] using hf
      · intro g hg; rw [hnf] at hg
        simp only [Option.some.injEq] at hg
        subst hg; exact has
    · refine ⟨⟨0, ?_, by simp, Or.inl ?_⟩, by simp [hc], by simp⟩
      · rw [show ∀ (x : Event) (l : List Entry), firesOf t (.inserted x :: l) = firesOf t l from
          fun _ _ => rfl]
        simpa [fireList] using hf
      · rw [hnf]
        simpa [pendOf, List.filter_cons] using hp

def AllT (P : Prog) (start : Int) (ts : List Nat) (s : St) : Prop :=
  ∀ t ∈ ts, TInv start (P.trigs t) (pendOf t s.env.q) (firesOf t s.log) s.env.stop

theorem foldTimers {P : Prog} {start duration : Int} (wf : WF P start duration) (ts : List Nat) :
    ∀ (s : St) (done : List Nat), (ts.Nodup) → (∀ t ∈ ts, t ∈ P.timers) →
    s.env.cur = ⟨start, 0⟩ →
    (∀ t ∈ ts, t ∉ done ∧ pendOf t s.env.q = [] ∧ firesOf t s.log = []) → AllT P start done s →
    AllT P start (ts ++ done) (ts.foldl (initTimer P) s) := by
  induction ts with
  | nil => intro s done _ _ _ _ h; exact h
  | cons t ts ih =>
    intro s done hnd hts hc hfresh hall
    rw [List.nodup_cons] at hnd
    obtain ⟨i1, i2, i3⟩ := initTimer_self wf (hts t (by simp)) hc (hfresh t (by simp)).2.1
      (hfresh t (by simp)).2.2
    have := ih (initTimer P s t) (t :: done) hnd.2 (fun x hx => hts x (by simp [hx]))
      (by rw [i2]; exact hc)
      (by
        intro x hx
        have hxt : t ≠ x := by rintro rfl; exact hnd.1 hx
        obtain ⟨o1, o2, _, _⟩ := initTimer_other (P := P) (s := s) hxt
        rw [o1, o2]
        obtain ⟨f1, f2, f3⟩ := hfresh x (by simp [hx])
        exact ⟨by simp [f1]; exact fun h => hxt h.symm, f2, f3⟩)
      (by
        intro x hx
        rcases List.mem_cons.1 hx with rfl | hx
        · exact i1
        · have hxt : t ≠ x := by rintro rfl; exact (hfresh t (by simp)).1 hx
          obtain ⟨o1, o2, _, o4⟩ := initTimer_other (P := P) (s := s) hxt
          rw [o1, o2, o4]
          exact hall x hx)
    intro x hx
    refine this x ?_
    simp only [List.cons_append, List.mem_cons, List.mem_append] at hx ⊢
    tauto

theorem init_AllT {P : Prog} {start duration : Int} (wf : WF P start duration) :
    AllT P start P.timers (init P start duration) := by
  have h := foldTimers wf P.timers
    { env := initEnv start duration, rq := P.startup.foldl (trigger none) [],
      active := none, exec := none, phase := .reacting, nextId := 0, ran := [],
      log := [.startup ⟨start, 0⟩, .tag ⟨start, 0⟩] } [] wf.timers_nodup (fun _ h => h) rfl
    (by intro t _; exact ⟨by simp, rfl, rfl⟩) (by intro t h; simp at h)
  rw [List.append_nil] at h
  unfold init
  simp only []
  split
  · exact h
  · exact h

theorem AllT.mono {P : Prog} {start : Int} {ts : List Nat} {s s' : St} (h : AllT P start ts s)
    (h1 : ∀ t ∈ ts, pendOf t s'.env.q = pendOf t s.env.q)
    (h2 : ∀ t ∈ ts, firesOf t s'.log = firesOf t s.log) (h3 : s'.env.stop ≤ s.env.stop) :
    AllT P start ts s' := by
  intro t ht
  rw [h1 t ht, h2 t ht]
  exact (h t ht).stop_le h3

theorem planNext_stop_le (P : Prog) (env : Env) : (planNext P env).1.stop ≤ env.stop := by
  unfold planNext
  split
  · simp only []
    split
    · exact Tag.le_refl _
    · exact setStop_le _ _
  · exact Tag.le_refl _

theorem step_AllT {P : Prog} {start duration : Int} (wf : WF P start duration) {s s' : St} {l : Label}
    (ginv : GInv s) (inv : AllT P start P.timers s) (hstep : step P s l = some s')
    (hdom : InDomain P s l) : AllT P start P.timers s' := by
  cases l with
  | popEvent e =>
    simp only [step] at hstep
    split at hstep
    swap
    · exact absurd hstep (by simp)
    rename_i hg
    obtain ⟨hph, hmem, hmin, hcmp⟩ := hg
    rw [cmp_eq_zero] at hcmp
    split at hstep
    · rename_i hnone
      simp only [Option.some.injEq] at hstep
      subst hstep
      refine inv.mono ?_ ?_ (Tag.le_refl _)
      · intro t _; exact pendOf_erase_of_ne (by rw [hnone]; simp)
      · intro t _; rw [firesOf_cons_popped, if_neg (by rw [hnone]; simp)]
    · rename_i t ht
      -- the firing timer
      have hself : t ∈ P.timers → ∃ k, (P.trigs t).period = 0 ∧ k = 0 ∧
            firesOf t s.log = fireList start (P.trigs t) k ∧ nextFire start (P.trigs t) k = some s.env.cur ∧
            s.env.cur = ⟨start + (P.trigs t).offset + k * (P.trigs t).period, 0⟩ ∧
            pendOf t (s.env.q.erase e) = [] ∨
          (P.trigs t).period ≠ 0 ∧
            firesOf t s.log = fireList start (P.trigs t) k ∧ nextFire start (P.trigs t) k = some s.env.cur ∧
            s.env.cur = ⟨start + (P.trigs t).offset + k * (P.trigs t).period, 0⟩ ∧
            pendOf t (s.env.q.erase e) = [] := by
        intro htm
        obtain ⟨k, k1, k2, k3⟩ := inv t htm
        refine ⟨k, ?_⟩
        have hperm := pendOf_erase_of_eq ht hmem
        have hne : pendOf t s.env.q ≠ [] := by
          intro h; rw [h] at hperm; exact absurd hperm.symm (by simp)
        rcases k3 with k3 | ⟨k3, _⟩
        swap
        · exact absurd k3 hne
        cases hnf : nextFire start (P.trigs t) k with
        | none => rw [hnf] at k3; exact absurd k3 hne
        | some g =>
          rw [hnf] at k3
          rw [k3] at hperm
          have hp1 := List.perm_singleton.1 hperm.symm
          simp only [Option.toList, List.cons.injEq] at hp1
          have hgc : g = s.env.cur := by rw [← hp1.1, hcmp]
          subst hgc
          have hcur : s.env.cur = ⟨start + (P.trigs t).offset + k * (P.trigs t).period, 0⟩ := by
            have h' := hnf
            unfold nextFire at h'
            split at h'
            · cases h'
            · simp only [Option.some.injEq] at h'
              split at h'
              · exact h'.symm
              · have := ginv.time.2
                rw [← h'] at this
                simp only [FOREVER_TAG] at this
                omega
          by_cases hpz : (P.trigs t).period = 0
          · left
            have hk : k = 0 := by
              by_contra hk
              unfold nextFire at hnf
              rw [if_pos ⟨hpz, by omega⟩] at hnf
              cases hnf
            exact ⟨hpz, hk, k1, rfl, hcur, hp1.2⟩
          · right; exact ⟨hpz, k1, rfl, hcur, hp1.2⟩
      split at hstep
      · -- periodic timer
        rename_i htim
        simp only [Option.some.injEq] at hstep
        subst hstep
        have hmemT := (wf.timer t).1 htim.1
        have hsch := timer_schedule (debug := P.debug) (trigs := P.trigs)
          (env := { s.env with q := s.env.q.erase e }) (id := s.nextId) htim.1
          (wf.timer_logical t hmemT) (by omega) ginv.time ginv.stop
        obtain ⟨g, hgdef, e1, e2, e3, e4⟩ := hsch
        obtain ⟨_, _, _, _, hfl⟩ := map_inserted_logs (((lf_schedule_trigger P.debug P.trigs
          { s.env with q := s.env.q.erase e } (some t) (P.trigs t).period none 0 s.nextId).1.q).filter
            (fun e => decide (e.id = s.nextId)))
        intro x hx
        unfold doSchedule
        simp only []
        rw [firesOf_append, hfl, List.nil_append, firesOf_cons_popped, e2, e4]
        by_cases hxt : x = t
        · subst hxt
          rw [if_pos ht]
          obtain ⟨k, hk⟩ := hself hx
          have hk' : firesOf x s.log = fireList start (P.trigs x) k ∧
              s.env.cur = ⟨start + (P.trigs x).offset + k * (P.trigs x).period, 0⟩ ∧
              pendOf x (s.env.q.erase e) = [] := by
            rcases hk with ⟨h, _⟩ | ⟨_, h1, _, h2, h3⟩
            · omega
            · exact ⟨h1, h2, h3⟩
          obtain ⟨k1, k2, k3⟩ := hk'
          refine ⟨k + 1, ?_, ?_, ?_⟩
          · rw [fireList_succ, k1, ← k2]
          · intro h; omega
          · have hnext : nextFire start (P.trigs x) (k + 1) = some g := by
              unfold nextFire
              rw [if_neg (by omega)]
              simp only at hgdef
              have : start + (P.trigs x).offset + ((k + 1 : Nat) : Int) * (P.trigs x).period =
                  s.env.cur.time + (P.trigs x).period := by
                rw [k2]; simp only; push_cast; rw [Int.add_mul]; omega
              rw [this, hgdef]
            rw [hnext]
            split
            · left; simp [pendOf, List.filter_cons]; simpa [pendOf] using k3
            · rename_i hns
              right
              refine ⟨k3, ?_⟩
              intro g' hg'
              simp only [Option.some.injEq] at hg'
              subst hg'
              exact Tag.not_le.1 hns
        · have hne : e.trigger ≠ some x := by rw [ht]; simpa using fun h => hxt h.symm
          rw [if_neg hne]
          have hsame : pendOf x (if g ≤ s.env.stop then
              (⟨s.nextId, g, some t, none⟩ :: s.env.q.erase e : List Event) else s.env.q.erase e) =
              pendOf x s.env.q := by
            rw [← pendOf_erase_of_ne (q := s.env.q) hne]
            split
            · simp [pendOf, List.filter_cons, show ¬ t = x from fun h => hxt h.symm]
            · rfl
          rw [hsame]
          exact inv x hx
      · rename_i hnt
        simp only [Option.some.injEq] at hstep
        subst hstep
        intro x hx
        simp only []
        rw [firesOf_cons_popped]
        by_cases hxt : x = t
        · subst hxt
          rw [if_pos ht]
          obtain ⟨k, hk⟩ := hself hx
          have htim := (wf.timer x).2 hx
          have hp0 := (wf.timer_period x hx).1
          rcases hk with ⟨h0, rfl, h1, h2, h3, h4⟩ | ⟨h0, _⟩
          · refine ⟨1, ?_, by simp, ?_⟩
            · rw [show (1 : Nat) = 0 + 1 from rfl, fireList_succ, h1, ← h3]
            · left; simp [nextFire, h0, h4]
          · exact absurd ⟨htim, by omega⟩ hnt
        · have hne : e.trigger ≠ some x := by rw [ht]; simpa using fun h => hxt h.symm
          rw [if_neg hne, pendOf_erase_of_ne hne]
          exact inv x hx
  | donePop =>
    simp only [step] at hstep
    split at hstep
    · simp only [Option.some.injEq] at hstep; subst hstep; exact inv
    · exact absurd hstep (by simp)
  | start r phys =>
    simp only [step] at hstep
    split at hstep
    · simp only [Option.some.injEq] at hstep; subst hstep; exact inv
    · exact absurd hstep (by simp)
  | call t extra tok phys =>
    simp only [step] at hstep
    split at hstep
    · rename_i hg
      simp only [Option.some.injEq] at hstep
      subst hstep
      obtain ⟨e1, e2, e3⟩ := effect_of_callOk (debug := P.debug) (tok := tok) (id := s.nextId) hdom
      unfold doSchedule
      simp only []
      refine inv.mono ?_ ?_ (by simp only [e2]; exact Tag.le_refl _)
      · intro x hx
        simp only []
        rcases e3 with ⟨f, hf, hq⟩ | ⟨g, tk, hq, _, _⟩
        · rw [hq]; exact pendOf_map hf
        · rw [hq]
          have hxt : t ≠ x := by
            rintro rfl
            rw [(wf.timer t).2 hx] at hg
            exact absurd hg.2 (by simp)
          simp [pendOf, List.filter_cons, hxt]
      · intro x hx
        simp only []
        rw [firesOf_append, (map_inserted_logs _).2.2.2.2, List.nil_append]
    · exact absurd hstep (by simp)
  | requestStop =>
    simp only [step] at hstep
    split at hstep
    · simp only [Option.some.injEq] at hstep; subst hstep
      exact inv.mono (fun t _ => by simp) (fun _ _ => rfl) (setStop_le _ _)
    · exact absurd hstep (by simp)
  | finish outs phys =>
    simp only [step] at hstep
    split at hstep
    · exact absurd hstep (by simp)
    · rename_i r k hexec
      obtain ⟨_, _, _, _, hfl, _⟩ := map_output_logs s.env.cur r outs
      split at hstep
      · split at hstep
        · simp only [Option.some.injEq] at hstep; subst hstep
          refine inv.mono (fun _ _ => rfl) ?_ (Tag.le_refl _)
          intro t _
          change firesOf t (_ ++ _) = _
          rw [firesOf_append, hfl, List.nil_append]
        · simp only [Option.some.injEq] at hstep; subst hstep
          refine inv.mono (fun _ _ => rfl) ?_ (Tag.le_refl _)
          intro t _
          change firesOf t (_ ++ _) = _
          rw [firesOf_append, hfl, List.nil_append]
      · exact absurd hstep (by simp)
  | endStep =>
    simp only [step] at hstep
    split at hstep
    · split at hstep <;> (simp only [Option.some.injEq] at hstep; subst hstep; exact inv)
    · exact absurd hstep (by simp)
  | next =>
    simp only [step] at hstep
    split at hstep
    · obtain ⟨p1, p2, _⟩ := planNext_spec P s.env
      have p3 := planNext_stop_le P s.env
      split at hstep
      · simp only [Option.some.injEq] at hstep; subst hstep
        exact inv.mono (fun t _ => by simp [p2]) (fun _ _ => rfl) p3
      · split at hstep
        · simp only [Option.some.injEq] at hstep; subst hstep
          exact inv.mono (fun t _ => by simp [p2]) (fun _ _ => rfl) p3
        · simp only [Option.some.injEq] at hstep; subst hstep
          exact inv.mono (fun t _ => by simp [p2]) (fun _ _ => rfl) p3
    · exact absurd hstep (by simp)
  | interrupted =>
    simp only [step] at hstep
    split at hstep
    · obtain ⟨p1, p2, _⟩ := planNext_spec P s.env
      have p3 := planNext_stop_le P s.env
      simp only [Option.some.injEq] at hstep; subst hstep
      exact inv.mono (fun t _ => by simp [p2]) (fun _ _ => rfl) p3
    · exact absurd hstep (by simp)

theorem good_AllT {P : Prog} {start duration : Int} (wf : WF P start duration) {ls : List Label} {s : St}
    (h : Good P start duration ls s) : AllT P start P.timers s := by
  induction h with
  | init => exact init_AllT wf
  | step hgood hstep hdom _ ih => exact step_AllT wf (good_inv wf hgood) ih hstep hdom

end ReactorC.Runtime
