import Verif.Runtime.Lemmas

/-! The invariant of executions within the documented domain. -/

set_option linter.unusedSimpArgs false
set_option linter.unusedVariables false

namespace ReactorC.Runtime
open ReactorC ReactorC.Sched

/-- Identity, tag and trigger of an event. -/
def key (e : Event) : Nat × Tag × Option Nat := (e.id, e.tag, e.trigger)

structure GInv (s : St) : Prop where
  time : 0 ≤ s.env.cur.time ∧ s.env.cur.time < FOREVER
  q_now : ∀ e ∈ s.env.q, s.env.cur ≤ e.tag
  q_future : s.phase ≠ .popping → ∀ e ∈ s.env.q, s.env.cur < e.tag
  stop : s.env.cur ≤ s.env.stop
  waiting : s.phase = .waiting → s.env.cur < s.env.stop
  stopped : s.phase = .stopped → s.env.cur = s.env.stop
  alive : s.phase ≠ .aborted
  conserve : ((insertedOf s.log).map key).Perm ((s.env.q ++ poppedOf s.log).map key)
  ids : ∀ e ∈ insertedOf s.log, e.id < s.nextId
  ids_nodup : ((insertedOf s.log).map Event.id).Nodup
  shut : (s.env.cur = s.env.stop ∧ shutdownsOf s.log = [s.env.cur]) ∨
    (s.env.cur < s.env.stop ∧ shutdownsOf s.log = [])

theorem GInv.q_ids {s : St} (inv : GInv s) : ∀ e ∈ s.env.q, e.id < s.nextId := by
  intro e he
  have h1 : key e ∈ (insertedOf s.log).map key :=
    inv.conserve.mem_iff.2 (List.mem_map.2 ⟨e, by simp [he], rfl⟩)
  obtain ⟨e', he', hk⟩ := List.mem_map.1 h1
  have := inv.ids e' he'
  simp only [key, Prod.mk.injEq] at hk
  omega

theorem key_map_id (l : List Event) : l.map Event.id = (l.map key).map Prod.fst := by
  simp [key, Function.comp_def]

theorem GInv.all_ids_nodup {s : St} (inv : GInv s) :
    ((s.env.q ++ poppedOf s.log).map Event.id).Nodup := by
  rw [key_map_id]
  have h := inv.ids_nodup
  rw [key_map_id] at h
  exact (inv.conserve.map Prod.fst).nodup_iff.1 h

theorem GInv.sched {P : Prog} {s : St} (inv : GInv s) {t : Nat} {extra : Int} {tok : Option Nat}
    {phys : Int} (heff : SchedEffect s.env
      (lf_schedule_trigger P.debug P.trigs s.env (some t) extra tok phys s.nextId).1 s.nextId t) :
    GInv (doSchedule P s t extra tok phys) := by
  unfold doSchedule
  simp only []
  generalize (lf_schedule_trigger P.debug P.trigs s.env (some t) extra tok phys s.nextId).1 = env' at *
  obtain ⟨hcur, hstop, hq⟩ := heff
  have hqid := inv.q_ids
  rcases hq with ⟨f, hf, hq⟩ | ⟨g, tok', hq, hg1, hg2⟩
  · have hfil : env'.q.filter (fun e => decide (e.id = s.nextId)) = [] := by
      rw [List.filter_eq_nil_iff, hq]
      intro e he
      obtain ⟨e0, he0, rfl⟩ := List.mem_map.1 he
      have := hqid e0 he0
      rw [(hf e0).1]; simp; omega
    have hkey : (env'.q).map key = s.env.q.map key := by
      rw [hq, List.map_map]
      apply List.map_congr_left
      intro e _
      simp [key, hf e]
    rw [hfil]
    obtain ⟨h1, h2, h3, h4, h5, h6, h7, h8, h9, h10, h11⟩ := inv
    constructor
    · simpa [hcur] using h1
    · simp only [hcur, hq]
      intro e he
      obtain ⟨e0, he0, rfl⟩ := List.mem_map.1 he
      rw [(hf e0).2.1]; exact h2 e0 he0
    · simp only [hcur, hq]
      intro hp e he
      obtain ⟨e0, he0, rfl⟩ := List.mem_map.1 he
      rw [(hf e0).2.1]; exact h3 hp e0 he0
    · simpa [hcur, hstop] using h4
    · simpa [hcur, hstop] using h5
    · simpa [hcur, hstop] using h6
    · exact h7
    · simpa [hkey] using h8
    · intro e he
      have := h9 e (by simpa using he)
      simp only; omega
    · simpa using h10
    · simpa [hcur, hstop] using h11
  · have hfil : env'.q.filter (fun e => decide (e.id = s.nextId)) = [⟨s.nextId, g, some t, tok'⟩] := by
      rw [hq, List.filter_cons_of_pos (by simp)]
      congr 1
      rw [List.filter_eq_nil_iff]
      intro e he
      have := hqid e he
      simp; omega
    rw [hfil]
    obtain ⟨h1, h2, h3, h4, h5, h6, h7, h8, h9, h10, h11⟩ := inv
    have m1 : ∀ (l : List Entry) (e : Event), insertedOf (Entry.inserted e :: l) = e :: insertedOf l :=
      fun _ _ => rfl
    have m2 : ∀ (l : List Entry) (e : Event), poppedOf (Entry.inserted e :: l) = poppedOf l :=
      fun _ _ => rfl
    have m3 : ∀ (l : List Entry) (e : Event), shutdownsOf (Entry.inserted e :: l) = shutdownsOf l :=
      fun _ _ => rfl
    constructor
    · simpa [hcur] using h1
    · simp only [hcur, hq]
      intro e he
      rcases List.mem_cons.1 he with rfl | he
      · exact Tag.le_of_lt hg1
      · exact h2 e he
    · simp only [hcur, hq]
      intro hp e he
      rcases List.mem_cons.1 he with rfl | he
      · exact hg1
      · exact h3 hp e he
    · simpa [hcur, hstop] using h4
    · simpa [hcur, hstop] using h5
    · simpa [hcur, hstop] using h6
    · exact h7
    · simp only [List.map_cons, List.map_nil, List.singleton_append, m1, m2, hq, List.cons_append]
      exact h8.cons _
    · simp only [List.map_cons, List.map_nil, List.singleton_append, m1]
      intro e he
      rcases List.mem_cons.1 he with rfl | he
      · simp
      · have := h9 e he; omega
    · simp only [List.map_cons, List.map_nil, List.singleton_append, m1, List.nodup_cons]
      refine ⟨?_, h10⟩
      intro hmem
      obtain ⟨e, he, hid⟩ := List.mem_map.1 hmem
      have := h9 e he; omega
    · simpa [hcur, hstop, m3] using h11

theorem initTimer_spec {P : Prog} {start duration : Int} (wf : WF P start duration) {s : St} {t : Nat}
    (ht : t ∈ P.timers) (hc : s.env.cur = ⟨start, 0⟩) (hph : s.phase = .reacting)
    (inv : GInv { s with env := { s.env with stop := FOREVER_TAG } }) (hs : s.env.cur ≤ s.env.stop) :
    GInv { initTimer P s t with env := { (initTimer P s t).env with stop := FOREVER_TAG } } ∧
    (initTimer P s t).env.cur = s.env.cur ∧ (initTimer P s t).env.stop = s.env.stop ∧
    (initTimer P s t).phase = .reacting := by
  have hT := wf.timer_offset t ht
  have hT2 := wf.timer_period t ht
  have hst := wf.start_time
  have inv1 : GInv { s with
      env := { s.env with stop := FOREVER_TAG },
      rq := (P.reactions t).foldl (trigger s.active) s.rq, log := .timerAtStart s.env.cur t :: s.log } := by
    obtain ⟨h1, h2, h3, h4, h5, h6, h7, h8, h9, h10, h11⟩ := inv
    exact ⟨h1, h2, h3, h4, h5, h6, h7, h8, h9, h10, h11⟩
  have key1 : ∀ (s1 : St) (d : Int), 0 < d → start + d < FOREVER →
      GInv { s1 with env := { s1.env with stop := FOREVER_TAG } } → s1.env.cur = ⟨start, 0⟩ →
      GInv { s1 with env := { s1.env with q := ⟨s1.nextId, ⟨wrap64 (start + d), 0⟩, some t, none⟩ :: s1.env.q,
                                          stop := FOREVER_TAG },
                     nextId := s1.nextId + 1
                     log := .inserted ⟨s1.nextId, ⟨wrap64 (start + d), 0⟩, some t, none⟩ :: s1.log } := by
    intro s1 d hd hd2 inv hc1
    rw [wrap64_id (by simp only [IsI64, NEVER, FOREVER] at *; omega)]
    obtain ⟨h1, h2, h3, h4, h5, h6, h7, h8, h9, h10, h11⟩ := inv
    have hlt : s1.env.cur < (⟨start + d, 0⟩ : Tag) := by
      rw [hc1, Tag.lt_def]; simp; omega
    constructor
    · exact h1
    · intro e he
      rcases List.mem_cons.1 he with rfl | he
      · exact Tag.le_of_lt hlt
      · exact h2 e he
    · intro hp e he
      rcases List.mem_cons.1 he with rfl | he
      · exact hlt
      · exact h3 hp e he
    · exact h4
    · exact h5
    · exact h6
    · exact h7
    · exact h8.cons _
    · intro e he
      rcases List.mem_cons.1 he with rfl | he
      · simp
      · have := h9 e he; simp only at *; omega
    · refine List.nodup_cons.2 ⟨?_, h10⟩
      intro hmem
      obtain ⟨e, he, hid⟩ := List.mem_map.1 hmem
      have := h9 e he; simp only at *; omega
    · exact h11
  unfold initTimer
  simp only []
  by_cases ho : (P.trigs t).offset = 0
  · simp only [ho, if_true, true_and]
    by_cases hp : (P.trigs t).period = 0
    · simp only [hp, if_true]
      exact ⟨inv1, by simp, by simp, hph⟩
    · simp only [hp, if_false]
      split
      · exact ⟨inv1, rfl, rfl, hph⟩
      · refine ⟨?_, by simp, by simp, hph⟩
        have := key1 { s with rq := (P.reactions t).foldl (trigger s.active) s.rq, log := .timerAtStart s.env.cur t :: s.log }
          (P.trigs t).period (by omega) hT2.2 inv1 hc
        simpa [hc] using this
  · simp only [ho, if_false, false_and]
    split
    · exact ⟨inv, rfl, rfl, hph⟩
    · refine ⟨?_, rfl, rfl, hph⟩
      have := key1 s (P.trigs t).offset (by omega) hT.2 inv hc
      simpa [hc] using this

theorem init_timers_inv {P : Prog} {start duration : Int} (wf : WF P start duration)
    (ts : List Nat) (hts : ∀ t ∈ ts, t ∈ P.timers) :
    ∀ (s : St), s.env.cur = ⟨start, 0⟩ → s.phase = .reacting →
    GInv { s with env := { s.env with stop := FOREVER_TAG } } → s.env.cur ≤ s.env.stop →
    GInv { ts.foldl (initTimer P) s with
      env := { (ts.foldl (initTimer P) s).env with stop := FOREVER_TAG } } ∧
    (ts.foldl (initTimer P) s).env.cur = s.env.cur ∧
    (ts.foldl (initTimer P) s).env.stop = s.env.stop ∧
    (ts.foldl (initTimer P) s).phase = .reacting := by
  induction ts with
  | nil => intro s hc hp inv hs; exact ⟨inv, rfl, rfl, hp⟩
  | cons t ts ih =>
    intro s hc hp inv hs
    obtain ⟨h1, h2, h3, h4⟩ := initTimer_spec wf (hts t (by simp)) hc hp inv hs
    obtain ⟨g1, g2, g3, g4⟩ := ih (fun x hx => hts x (by simp [hx])) (initTimer P s t)
      (by rw [h2, hc]) h4 h1 (by rw [h2, h3]; exact hs)
    exact ⟨g1, by rw [List.foldl_cons, g2, h2], by rw [List.foldl_cons, g3, h3], g4⟩

theorem init_inv {P : Prog} {start duration : Int} (wf : WF P start duration) :
    GInv (init P start duration) := by
  have hst := wf.start_time
  have hs0 : (initEnv start duration).cur ≤ (initEnv start duration).stop := by
    simp only [initEnv]
    split
    · rename_i h
      rcases wf.duration with h' | h'
      · omega
      · rw [wrap64_id (by simp only [IsI64, NEVER, FOREVER] at *; omega), Tag.le_def]; simp; omega
    · left; simp only [FOREVER_TAG]; exact hst.2
  let s1 : St := {
    env := initEnv start duration, rq := P.startup.foldl (trigger none) [],
    active := none, exec := none, phase := .reacting, nextId := 0, ran := [], log := [.startup ⟨start, 0⟩, .tag ⟨start, 0⟩] }
  have inv1 : GInv { s1 with env := { s1.env with stop := FOREVER_TAG } } := by
    constructor
    · exact hst
    · simp [s1, initEnv]
    · simp [s1, initEnv]
    · left; exact hst.2
    · simp [s1]
    · simp [s1]
    · simp [s1]
    · simp [s1, initEnv, insertedOf, poppedOf]
    · simp [s1, insertedOf]
    · simp [s1, insertedOf]
    · right; exact ⟨Or.inl hst.2, rfl⟩
  obtain ⟨g1, g2, g3, g4⟩ := init_timers_inv wf P.timers (fun _ h => h) s1 rfl rfl inv1 hs0
  have hdef : init P start duration =
      if lf_tag_compare (P.timers.foldl (initTimer P) s1).env.cur
          (P.timers.foldl (initTimer P) s1).env.stop ≥ 0 then
        { P.timers.foldl (initTimer P) s1 with
          rq := P.shutdown.foldl (trigger none) (P.timers.foldl (initTimer P) s1).rq,
          log := .shutdown (P.timers.foldl (initTimer P) s1).env.cur ::
            (P.timers.foldl (initTimer P) s1).log }
      else P.timers.foldl (initTimer P) s1 := rfl
  rw [hdef]
  have hle : (P.timers.foldl (initTimer P) s1).env.cur ≤ (P.timers.foldl (initTimer P) s1).env.stop := by
    rw [g2, g3]; exact hs0
  generalize P.timers.foldl (initTimer P) s1 = s2 at *
  obtain ⟨h1, h2, h3, h4, h5, h6, h7, h8, h9, h10, h11⟩ := g1
  have hsh : shutdownsOf s2.log = [] := by
    rcases h11 with ⟨h, _⟩ | ⟨_, h⟩
    · simp only at h
      have := h1.2
      simp only [h, FOREVER_TAG] at this; omega
    · exact h
  split
  · rename_i hc
    rw [ge_iff_le, cmp_ge_zero] at hc
    have heq := Tag.le_antisymm hle hc
    refine ⟨h1, h2, h3, hle, ?_, ?_, h7, h8, h9, h10, ?_⟩
    · simp [g4]
    · simp [g4]
    · left
      refine ⟨heq, ?_⟩
      simp only [shutdownsOf, List.filterMap_cons] at hsh ⊢
      rw [hsh]
  · rename_i hc
    rw [ge_iff_le, cmp_ge_zero, Tag.not_le] at hc
    refine ⟨h1, h2, h3, hle, ?_, ?_, h7, h8, h9, h10, Or.inr ⟨hc, hsh⟩⟩
    · simp [g4]
    · simp [g4]

theorem step_inv {P : Prog} {start duration : Int} (wf : WF P start duration) {s s' : St} {l : Label}
    (inv : GInv s) (hstep : step P s l = some s') (hdom : InDomain P s l)
    (htime : s'.env.cur.time < FOREVER) : GInv s' := by
  cases l with
  | popEvent e =>
    simp only [step] at hstep
    split at hstep
    · rename_i hg
      obtain ⟨hph, hmem, hmin, hcmp⟩ := hg
      rw [cmp_eq_zero] at hcmp
      have inv1 : ∀ rq, GInv { s with
          rq := rq, env := { s.env with q := s.env.q.erase e },
          log := .popped s.env.cur e :: s.log } := by
        intro rq
        obtain ⟨h1, h2, h3, h4, h5, h6, h7, h8, h9, h10, h11⟩ := inv
        refine ⟨h1, ?_, ?_, h4, h5, h6, h7, ?_, h9, h10, h11⟩
        · intro x hx; exact h2 x (List.mem_of_mem_erase hx)
        · intro hp; exact absurd hph hp
        · change ((insertedOf s.log).map key).Perm ((s.env.q.erase e ++ e :: poppedOf s.log).map key)
          refine h8.trans (List.Perm.map _ ?_)
          have hp := List.perm_cons_erase hmem
          refine (hp.append_right _).trans ?_
          simpa using (List.perm_middle).symm
      split at hstep
      · simp only [Option.some.injEq] at hstep
        subst hstep
        exact inv1 s.rq
      · rename_i t ht
        split at hstep
        · rename_i htim
          simp only [Option.some.injEq] at hstep
          subst hstep
          have hmemT := (wf.timer t).1 htim.1
          have := timer_schedule (debug := P.debug) (trigs := P.trigs)
            (env := { s.env with q := s.env.q.erase e }) (id := s.nextId) htim.1
            (wf.timer_logical t hmemT) (by omega) inv.time inv.stop
          obtain ⟨g, _, e1, e2, e3, e4⟩ := this
          refine (inv1 _).sched ⟨e1, e2, ?_⟩
          rw [e4]
          split
          · rename_i hle
            exact Or.inr ⟨g, none, rfl, e3, hle⟩
          · exact Or.inl ⟨fun e => e, by simp, by simp⟩
        · simp only [Option.some.injEq] at hstep
          subst hstep
          exact inv1 _
    · exact absurd hstep (by simp)
  | donePop =>
    simp only [step] at hstep
    split at hstep
    · rename_i hg
      simp only [Option.some.injEq] at hstep
      subst hstep
      obtain ⟨h1, h2, h3, h4, h5, h6, h7, h8, h9, h10, h11⟩ := inv
      refine ⟨h1, h2, ?_, h4, by simp, by simp, by simp, h8, h9, h10, h11⟩
      intro _ x hx
      rcases Tag.lt_or_eq_of_le (h2 x hx) with h | h
      · exact h
      · exfalso
        cases hm : minTag s.env.q with
        | none => rw [minTag_eq_none] at hm; rw [hm] at hx; simp at hx
        | some g =>
          have hne := hg.2 g hm
          obtain ⟨⟨y, hy, hyg⟩, hle⟩ := minTag_spec hm
          apply hne
          rw [cmp_eq_zero]
          apply Tag.le_antisymm
          · rw [h]; exact hle x hx
          · rw [← hyg]; exact h2 y hy
    · exact absurd hstep (by simp)
  | start r phys =>
    simp only [step] at hstep
    split at hstep
    · rename_i hg
      simp only [Option.some.injEq] at hstep
      subst hstep
      obtain ⟨h1, h2, h3, h4, h5, h6, h7, h8, h9, h10, h11⟩ := inv
      exact ⟨h1, h2, h3, h4, h5, h6, h7, h8, h9, h10, h11⟩
    · exact absurd hstep (by simp)
  | call t extra tok phys =>
    simp only [step] at hstep
    split at hstep
    · simp only [Option.some.injEq] at hstep
      subst hstep
      exact inv.sched (effect_of_callOk hdom)
    · exact absurd hstep (by simp)
  | requestStop =>
    simp only [step] at hstep
    split at hstep
    · rename_i hg
      simp only [Option.some.injEq] at hstep
      subst hstep
      have hgt := stopSoon_gt (env := s.env) hdom
      obtain ⟨h1, h2, h3, h4, h5, h6, h7, h8, h9, h10, h11⟩ := inv
      rcases setStop_cases s.env (stopSoon s.env) with ⟨hlt, he⟩ | ⟨hle, he⟩
      · rw [he]
        refine ⟨h1, h2, h3, Tag.le_of_lt hgt, fun _ => hgt, ?_, h7, h8, h9, h10, Or.inr ⟨hgt, ?_⟩⟩
        · intro hp; simp only at hp; rcases hg with h | h <;> rw [h] at hp <;> cases hp
        · rcases h11 with ⟨ha, _⟩ | ⟨_, ha⟩
          · exfalso; rw [← ha] at hlt; exact Tag.lt_irrefl _ (Tag.lt_trans hgt hlt)
          · exact ha
      · rw [he]
        exact ⟨h1, h2, h3, h4, h5, h6, h7, h8, h9, h10, h11⟩
    · exact absurd hstep (by simp)
  | finish outs phys =>
    obtain ⟨h1, h2, h3, h4, h5, h6, h7, h8, h9, h10, h11⟩ := inv
    simp only [step] at hstep
    split at hstep
    · exact absurd hstep (by simp)
    · split at hstep
      · rename_i r k hex hg
        obtain ⟨l1, l2, l3, l4, l5, l6⟩ := map_output_logs s.env.cur r outs
        split at hstep
        · simp only [Option.some.injEq] at hstep
          subst hstep
          refine ⟨h1, h2, h3, h4, h5, h6, h7, ?_, ?_, ?_, ?_⟩
          · change ((insertedOf (_ ++ s.log)).map key).Perm ((s.env.q ++ poppedOf (_ ++ s.log)).map key)
            simpa [l2, l4] using h8
          · change ∀ e ∈ insertedOf (_ ++ s.log), _
            simpa [l4] using h9
          · change ((insertedOf (_ ++ s.log)).map Event.id).Nodup
            simpa [l4] using h10
          · change (_ ∧ shutdownsOf (_ ++ s.log) = _) ∨ (_ ∧ shutdownsOf (_ ++ s.log) = _)
            simpa [l3] using h11
        · simp only [Option.some.injEq] at hstep
          subst hstep
          refine ⟨h1, h2, h3, h4, h5, h6, h7, ?_, ?_, ?_, ?_⟩
          · simpa [l2, l4] using h8
          · simpa [l4] using h9
          · simpa [l4] using h10
          · simpa [l3] using h11
      · exact absurd hstep (by simp)
  | endStep =>
    obtain ⟨h1, h2, h3, h4, h5, h6, h7, h8, h9, h10, h11⟩ := inv
    simp only [step] at hstep
    split at hstep
    · rename_i hg
      have h3' := h3 (by rw [hg.1]; decide)
      split at hstep
      · rename_i hc
        rw [ge_iff_le, cmp_ge_zero] at hc
        simp only [Option.some.injEq] at hstep
        subst hstep
        exact ⟨h1, h2, fun _ => h3', h4, by simp, fun _ => Tag.le_antisymm h4 hc, by simp, h8, h9,
          h10, h11⟩
      · rename_i hc
        rw [ge_iff_le, cmp_ge_zero, Tag.not_le] at hc
        simp only [Option.some.injEq] at hstep
        subst hstep
        exact ⟨h1, h2, fun _ => h3', h4, fun _ => hc, by simp, by simp, h8, h9, h10, h11⟩
    · exact absurd hstep (by simp)
  | next =>
    obtain ⟨h1, h2, h3, h4, h5, h6, h7, h8, h9, h10, h11⟩ := inv
    simp only [step] at hstep
    split at hstep
    · rename_i hph
      have h3' := h3 (by rw [hph]; decide)
      obtain ⟨f1, f2⟩ := planNext_future (P := P) (h5 hph) h3' hdom h1.2
      obtain ⟨p1, p2, p2', p3, p4, p5⟩ := planNext_spec P s.env
      have hnf : advanceFails P (planNext P s.env).1 (planNext P s.env).2 = false :=
        advanceFails_false (by rw [p1]; exact f1) (by rw [p2]; exact p4)
      rw [hnf] at hstep
      simp only [Bool.false_eq_true, if_false] at hstep
      generalize hE : (planNext P s.env).1 = env at *
      generalize hG : (planNext P s.env).2 = g at *
      have hsh : shutdownsOf s.log = [] := by
        rcases h11 with ⟨ha, _⟩ | ⟨_, ha⟩
        · exfalso; have := h5 hph; rw [← ha] at this; exact Tag.lt_irrefl _ this
        · exact ha
      have htime0 : 0 ≤ g.time := by rw [Tag.lt_def] at f1; omega
      split at hstep
      · rename_i hc
        rw [ge_iff_le, cmp_ge_zero] at hc
        simp only [Option.some.injEq] at hstep
        subst hstep
        refine ⟨⟨htime0, htime⟩, ?_, by simp, p3, by simp, by simp, by simp, ?_, h9, h10, Or.inl ⟨?_, ?_⟩⟩
        · simp only [p2]; exact p4
        · simp only [p2]; exact h8
        · exact Tag.le_antisymm p3 hc
        · change g :: shutdownsOf s.log = _
          rw [hsh]
      · rename_i hc
        rw [ge_iff_le, cmp_ge_zero, Tag.not_le] at hc
        simp only [Option.some.injEq] at hstep
        subst hstep
        refine ⟨⟨htime0, htime⟩, ?_, by simp, p3, by simp, by simp, by simp, ?_, h9, h10, Or.inr ⟨hc, hsh⟩⟩
        · simp only [p2]; exact p4
        · simp only [p2]; exact h8
    · exact absurd hstep (by simp)
  | interrupted =>
    obtain ⟨h1, h2, h3, h4, h5, h6, h7, h8, h9, h10, h11⟩ := inv
    simp only [step] at hstep
    split at hstep
    · rename_i hph
      have h3' := h3 (by rw [hph]; decide)
      obtain ⟨f1, f2⟩ := planNext_future (P := P) (h5 hph) h3' hdom h1.2
      obtain ⟨p1, p2, p2', p3, p4, p5⟩ := planNext_spec P s.env
      simp only [Option.some.injEq] at hstep
      subst hstep
      have hsh : shutdownsOf s.log = [] := by
        rcases h11 with ⟨ha, _⟩ | ⟨_, ha⟩
        · exfalso; have := h5 hph; rw [← ha] at this; exact Tag.lt_irrefl _ this
        · exact ha
      refine ⟨by simpa [p1] using h1, ?_, ?_, ?_, ?_, ?_, h7, ?_, h9, h10, Or.inr ⟨?_, hsh⟩⟩
      · simp only [p1, p2]; exact h2
      · simp only [p1, p2]; exact h3
      · simp only [p1]; exact Tag.le_of_lt f2
      · simp only [p1]; intro _; exact f2
      · simp only; rw [hph]; intro h; cases h
      · simp only [p2]; exact h8
      · simp only [p1]; exact f2
    · exact absurd hstep (by simp)

theorem good_inv {P : Prog} {start duration : Int} (wf : WF P start duration) {ls : List Label} {s : St}
    (h : Good P start duration ls s) : GInv s := by
  induction h with
  | init => exact init_inv wf
  | step _ hstep hdom ht ih => exact step_inv wf ih hstep hdom ht

end ReactorC.Runtime
