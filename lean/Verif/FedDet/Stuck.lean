import Verif.FedDet.Less

/-! A federation that has not come to its end can go on. -/

set_option linter.unusedVariables false

namespace ReactorC.FedDet
open ReactorC
open ReactorC.Rti (Topology Down Up Sys Sane put put_same put_other)
open ReactorC.Fedn (Config Fed State Ev Act Pc FInv)

variable {V : Type} {P : Program V} {M : Timing} {rank : Nat → Nat}

/-- There is an event near the greatest microstep. -/
def Full (P : Program V) (x : St V) : Prop := ∃ i < P.T.n, ∃ t k v, Gen P x.log i t k v ∧ t ≤ P.stop ∧ ¬ Fit P.T t

/-- An event that a federate is about to schedule, or a message that it is about to read, is for a trigger that has an event with the same tag
already. -/
def Clash (P : Program V) (x : St V) : Prop := ∃ i < P.T.n, ∃ e, (e ∈ x.scheds i ∨ e ∈ x.down i) ∧ ¬ Fresh (x.pend i) e

/-- All federates have come to their end and have resigned. -/
def Ended (P : Program V) (x : St V) : Prop := ∀ i < P.T.n, (x.s.fed i).pc = .gone ∧ (x.s.sys.rti.node i).connected = false

/-- A step that is more than a wait. -/
def Can (P : Program V) (M : Timing) (x : St V) : Prop := ∃ y, Step P M x y ∧ Less P x y

section
variable {x : St V}

theorem Inv.can_handle (h : Inv P M x) (hP : P.Ok rank) (hM : M.Ok) {i : Nat} (hu : x.s.sys.up i ≠ []) : Can P M x := by
  have hc := h.live.conn (i := i) (.inl hu)
  obtain ⟨β, hinv⟩ := (h.sys hP hM).inv hP.topology hP.down hP.start0.1 hP.start0.2
  have hp := hinv.pre i hc
  have hpre : Fedn.pre (conf P M) x.s (.handle i) := by
    show (Fedn.handle (conf P M) i x.s.sys).isSome = true
    unfold Fedn.handle
    cases hq : x.s.sys.up i with
    | nil => exact absurd hq hu
    | cons y q =>
      rw [hq] at hp
      cases y with
      | msg d s w m =>
        obtain ⟨r, e, _⟩ := Rti.handleTimed_any hP.topology hP.down hP.start0.1 hp.1.dest m x.s.sys.rti h.live.whole
        have e : Rti.handleTimedMessage (conf P M).T (conf P M).start d m x.s.sys.rti = some r := e
        dsimp only
        rw [if_pos hc, e]
        rfl
      | net n p => dsimp only; rw [if_pos hc]; rfl
      | ltc c => dsimp only; rw [if_pos hc]; rfl
      | clean c => rfl
      | resign => dsimp only; rw [if_pos hc]; rfl
  have less : ∀ (u : Nat → List (Nat × Event V)) (d : Nat → List (Event V)),
      Less P x { x with s := Fedn.post (conf P M) x.s (.handle i), up := u, down := d } := by
    intro u d
    obtain ⟨σ', hσ⟩ := Option.isSome_iff_exists.1 hpre
    rw [show Fedn.post (conf P M) x.s (.handle i) = ⟨σ', x.s.fed⟩ from by unfold Fedn.post; dsimp only; rw [hσ]]
    exact h.less_handle hP hM hσ u d
  by_cases hn : NextUp x.s i
  · have hq := h.upQ i
    obtain ⟨d, s, w, m, q, e⟩ := id hn
    rw [e] at hq
    cases hx : x.up i with
    | nil => rw [hx] at hq; cases hq
    | cons a r => exact ⟨_, .forwards i a.1 a.2 r hn hx hpre, less _ _⟩
  · exact ⟨_, .handles i hn hpre, less x.up x.down⟩

theorem Inv.can_read (h : Inv P M x) (hP : P.Ok rank) (hM : M.Ok) (hcl : ¬ Clash P x) {i : Nat} (hi : i < P.T.n) (hf : (x.s.fed i).free = true)
    (hl : (x.s.fed i).taken < (x.s.sys.rti.out i).length) : Can P M x := by
  have hpre : Fedn.pre (conf P M) x.s (.take i false false) := by
    refine ⟨hi, hf, ?_⟩
    rw [List.getElem?_eq_getElem hl]
    split
    · intro k; cases k
    · trivial
    · rename_i e; cases e
  by_cases hn : ∃ m, NextDown x.s i m
  · obtain ⟨m, hn⟩ := hn
    have hd := h.downQ i hi
    obtain ⟨_, hget⟩ := List.getElem?_eq_some_iff.1 hn
    rw [List.drop_eq_getElem_cons hl, hget] at hd
    cases hx : x.down i with
    | nil => rw [hx] at hd; cases hd
    | cons e r =>
      refine ⟨_, .receives i false false m e r hn hx hpre ?_, h.less_take hP hM hpre _ _⟩
      by_contra c
      exact hcl ⟨i, hi, e, .inr (by rw [hx]; exact List.mem_cons_self), c⟩
  · exact ⟨_, .takes i false false (fun m k => hn ⟨m, k⟩) hpre, h.less_take hP hM hpre x.pend x.down⟩

/-- A tag that is about to be used is not near the greatest microstep. -/
theorem Inv.fits (h : Inv P M x) (hfu : ¬ Full P x) {i : Nat} (hi : i < P.T.n) {e : Event V} (he : Made P x i e) (hs : e.1 ≤ P.stop) : Fit P.T e.1 := by
  by_contra c
  exact hfu ⟨i, hi, e.1, e.2.1, e.2.2, (h.gen i e).2 he, hs, c⟩

theorem Inv.next_fits (h : Inv P M x) (hfit : Fit P.T P.stop) (hfu : ¬ Full P x) {i : Nat} (hi : i < P.T.n) : Fit P.T (x.s.fed i).next := by
  have hle := Fedn.next_le_stop (x.s.fed i)
  rw [(h.past i hi).stop] at hle
  rcases Fedn.next_cases (x.s.fed i) with k | ⟨e, he, k⟩
  · rw [k, (h.past i hi).stop]; exact hfit
  · have : e.tag ∈ (x.s.fed i).q.map (·.tag) := List.mem_map_of_mem he
    rw [(h.loc i hi).tags] at this
    obtain ⟨ev, hev, ke⟩ := List.mem_map.1 this
    rw [k, ← ke]
    rw [k, ← ke] at hle
    exact h.fits hfu hi (.inl hev) hle

theorem Inv.can_execute (h : Inv P M x) (hP : P.Ok rank) (hM : M.Ok) (hfu : ¬ Full P x) (hcl : ¬ Clash P x) {R : Nat → Bool} (hS : Seen P M x.s R)
    {i : Nat} (hi : i < P.T.n) (hpc : (x.s.fed i).pc = .executing) : Can P M x := by
  have hL := h.loc i hi
  have h0 := (hS.front i hi).zero (.inr hpc)
  have hstop := (h.past i hi).stop
  cases ho : x.outs i with
  | cons o r =>
    have hmem : o ∈ x.outs i := by rw [ho]; exact List.mem_cons_self
    obtain ⟨hd, hw⟩ := hP.dest i _ o (hL.todoOuts o hmem)
    by_cases c : lf_delay_tag (x.s.fed i).cur o.delay ≤ P.stop
    · have hpre : Fedn.pre (conf P M) x.s (.send i o.dest o.delay) := by
        refine ⟨hi, hd, hw, hpc, h0, ?_, ?_⟩
        · rw [cmp_le_zero, hstop]; exact c
        · exact (h.fits (i := o.dest) (e := (lf_delay_tag (x.s.fed i).cur o.delay, o.port, o.val)) hfu hd
            (.inr (.inr (.inr (.inr (.inr ⟨i, o, hmem, rfl, rfl, c⟩))))) c).1
      exact ⟨_, .sends i o r ho hpre, less_sends ho _ hpre⟩
    · exact ⟨_, .drops i o r ho hpc (by rw [hstop]; exact Tag.not_le.1 c), less_drops hi ho⟩
  | nil =>
    cases hs : x.scheds i with
    | cons e r =>
      have hmem : e ∈ x.scheds i := by rw [hs]; exact List.mem_cons_self
      have hst : (x.s.fed i).started = true := by
        have := (h.finv hP hM hi (by rw [hpc]; simp)).pc
        unfold Fedn.PcOk at this
        rw [hpc] at this; exact this
      obtain ⟨y, l, hlog⟩ := hL.logCur hst
      have hlt : (x.s.fed i).cur < e.1 := by
        have := hL.todoScheds e hmem
        rw [hlog] at this
        exact hP.later i _ _ e this
      have hpre : Fedn.pre (conf P M) x.s (.schedule i 0 ⟨e.1, some 0⟩) := by
        refine ⟨hi, hpc, hlt, Int.le_refl _, Int.le_refl _, ?_, 0, h0, by omega⟩
        show (x.s.fed i).cur.time + 0 ≤ e.1.time
        rw [Tag.lt_def] at hlt
        omega
      refine ⟨_, .schedules i e r hs hpre ?_, less_schedules hs _ hpre⟩
      by_contra c
      exact hcl ⟨i, hi, e, .inl hmem, c⟩
    | nil =>
      have hpre : Fedn.pre (conf P M) x.s (.complete i true) := ⟨hi, hpc⟩
      exact ⟨_, .completes i true ho hs hpre fun _ => rfl, less_completes hpre⟩

theorem physical_conf (i : Nat) : Fedn.physical (conf P M) i = false := by
  unfold Fedn.physical
  have : decide (0 ≤ (conf P M).minDelay i) = false := rfl
  rw [this]; rfl

theorem Inv.can_move (h : Inv P M x) (hP : P.Ok rank) (hM : M.Ok) (hfit : Fit P.T P.stop) {i : Nat} {a : Act} (hm : Moving P M x i a)
    (hpc : (x.s.fed i).pc ≠ .executing) : Can P M x := by
  rcases h.moving hP hM hfit hm with ⟨k1, k2⟩ | ⟨k1, k2⟩
  · exact ⟨_, .enters i a hm.mover hm.pre hpc k1, k2⟩
  · exact ⟨_, .moves i a hm.mover hm.pre k1, k2⟩

theorem Inv.can_ask (h : Inv P M x) (hP : P.Ok rank) (hM : M.Ok) (hfit : Fit P.T P.stop) (hfu : ¬ Full P x) {R : Nat → Bool} (hS : Seen P M x.s R)
    {i : Nat} (hi : i < P.T.n) {o : Option Tag} {t : Tag} (hpc : (x.s.fed i).pc = .asking o t) : Can P M x := by
  have hF := hS.front i hi
  have hI := h.finv hP hM hi (by rw [hpc]; simp)
  have ht : Fit P.T t ∧ ((x.s.fed i).started = true ∨ t = (x.s.fed i).cur) := by
    cases o with
    | none =>
      have := hF.ask t hpc
      exact ⟨by rw [this]; exact (h.past i hi).fit, .inr this⟩
    | some o =>
      have hk := hI.pc
      unfold Fedn.PcOk at hk
      rw [hpc] at hk
      exact ⟨by rw [hk.2.2]; exact h.next_fits hfit hfu hi, .inl hk.1⟩
  have hnet : (Fedn.ask (conf P M) i (x.s.fed i)).2 = none ∨ (Fedn.ask (conf P M) i (x.s.fed i)).2 = some t := by
    unfold Fedn.ask
    rw [hpc]
    dsimp only
    split
    · exact .inl rfl
    split
    · exact .inl rfl
    split
    · exact .inl rfl
    split
    · exact .inr rfl
    · exact .inr rfl
  refine h.can_move hP hM hfit (i := i) (a := .ask i) ⟨⟨hi, ?_⟩, rfl, .inl ⟨o, t, rfl, hpc⟩⟩ (by rw [hpc]; simp)
  rcases hnet with e | e
  · rw [e]; trivial
  · rw [e]
    exact ⟨ht.1.1, .inr ht.2, .inr (.inl (physical_conf i))⟩

theorem Inv.can_wake (h : Inv P M x) (hP : P.Ok rank) (hM : M.Ok) (hfit : Fit P.T P.stop) {i : Nat} (hi : i < P.T.n) {o : Option Tag} {t : Tag}
    (hpc : (x.s.fed i).pc = .waiting o t) (hg : (x.s.fed i).next ≤ (x.s.fed i).lastTAG ∨ t ≤ (x.s.fed i).lastTAG) : Can P M x := by
  refine h.can_move hP hM hfit (i := i) (a := .wake i) ⟨⟨hi, ?_⟩, rfl, .inr (.inl ⟨o, t, rfl, hpc, hg⟩)⟩ (by rw [hpc]; simp)
  have : (Fedn.wake (x.s.fed i)).2 = none := by
    unfold Fedn.wake
    rw [hpc]
    dsimp only
    rw [if_pos]
    rw [ge_iff_le, ge_iff_le, cmp_ge_zero, cmp_ge_zero]; exact hg
  rw [this]; trivial

/-- Physical time passes at `i`. -/
def St.tick (P : Program V) (M : Timing) (x : St V) (i : Nat) (t : Int) : St V := { x with s := Fedn.post (conf P M) x.s (.tick i t) }

/-- It can go on, perhaps when time has passed. -/
def CanSoon (P : Program V) (M : Timing) (x : St V) : Prop := Can P M x ∨ ∃ i t, (x.s.fed i).now ≤ t ∧ Can P M (x.tick P M i t)

theorem Inv.can_soon (h : Inv P M x) (hP : P.Ok rank) (hM : M.Ok) (hfit : Fit P.T P.stop) (hfu : ¬ Full P x) {R : Nat → Bool} (hS : Seen P M x.s R)
    {i : Nat} (hi : i < P.T.n) (hpc : (x.s.fed i).pc = .starting ∨ (x.s.fed i).pc = .resting) : CanSoon P M x := by
  have late : ∀ T : Int, ∃ t, (x.s.fed i).now ≤ t ∧ T - t < Fedn.minSleep := by
    intro T
    refine ⟨if (x.s.fed i).now ≤ T then T else (x.s.fed i).now, ?_, ?_⟩
    · split <;> omega
    · have : Fedn.minSleep = 10000 := rfl
      split <;> omega
  have e : ∀ t, (x.tick P M i t).s.fed i = { x.s.fed i with now := t } := fun t => put_same _ _ _
  rcases hpc with hpc | hpc
  · obtain ⟨t, h1, h2⟩ := late P.start
    have hpre : Fedn.pre (conf P M) (x.tick P M i t).s (.begin i) := by
      refine ⟨hi, ?_, .inr ?_⟩
      · rw [e]; exact hpc
      · rw [e]; exact h2
    exact .inr ⟨i, t, h1, _, .idle (.begin i) trivial hpre, less_begin hpre⟩
  · obtain ⟨t, h1, h2⟩ := late (x.s.fed i).next.time
    have hI : Inv P M (x.tick P M i t) := h.idle hP hM (a := .tick i t) trivial h1
    have hn := h.next_fits hfit hfu hi
    have hnext : ((x.tick P M i t).s.fed i).next = (x.s.fed i).next := by rw [e]; rfl
    have hpre : Fedn.pre (conf P M) (x.tick P M i t).s (.advance i) := by
      refine ⟨hi, ?_, ?_, ?_, .inr ?_⟩
      · rw [e]; exact hpc
      · rw [hnext]; exact hn.1
      · rw [hnext]; exact hn.2
      · rw [hnext, e]; exact h2
    exact .inr ⟨i, t, h1, hI.can_move hP hM hfit (i := i) (a := .advance i) ⟨hpre, rfl, .inr (.inr ⟨rfl, hpre.2.1⟩)⟩ (by rw [hpre.2.1]; simp)⟩

/-- A federation that has not come to its end can go on. -/
theorem Inv.goes_on (h : Inv P M x) (hP : P.Ok rank) (hM : M.Ok) (hfit : Fit P.T P.stop) (hfu : ¬ Full P x) (hcl : ¬ Clash P x)
    {R : Nat → Bool} (hS : Seen P M x.s R) (hne : ¬ Ended P x) : CanSoon P M x := by
  by_contra hno
  have hcan : ¬ Can P M x := fun k => hno (.inl k)
  have hup : ∀ i, x.s.sys.up i = [] := fun i => by
    by_contra c
    exact hcan (h.can_handle hP hM c)
  have hpc : ∀ i < P.T.n, ((x.s.fed i).pc = .gone ∧ (x.s.sys.rti.node i).connected = false) ∨ ∃ o t, (x.s.fed i).pc = .waiting o t := by
    intro i hi
    cases hpc : (x.s.fed i).pc with
    | starting => exact absurd (h.can_soon hP hM hfit hfu hS hi (.inl hpc)) hno
    | asking o t => exact absurd (h.can_ask hP hM hfit hfu hS hi hpc) hcan
    | waiting o t => exact .inr ⟨o, t, rfl⟩
    | pausing o => exact absurd hpc ((hS.front i hi).pause o)
    | resting => exact absurd (h.can_soon hP hM hfit hfu hS hi (.inr hpc)) hno
    | executing => exact absurd (h.can_execute hP hM hfu hcl hS hi hpc) hcan
    | ended =>
      have hpre : Fedn.pre (conf P M) x.s (.exit i) := ⟨hi, hpc⟩
      exact absurd ⟨_, .idle (.exit i) trivial hpre, less_exit hpre⟩ hcan
    | gone =>
      left
      refine ⟨rfl, ?_⟩
      by_contra c
      have hc : (x.s.sys.rti.node i).connected = true := by simpa using c
      have hn : Up.resign ∉ x.s.sys.up i := by rw [hup]; simp
      exact hcan ⟨_, .resigns i hpc hc hn hi, less_resigns hi hpc hc hn⟩
  have hread : ∀ i < P.T.n, (∃ o t, (x.s.fed i).pc = .waiting o t) → (x.s.sys.rti.out i).drop (x.s.fed i).taken = [] := by
    rintro i hi ⟨o, t, k⟩
    rw [List.drop_eq_nil_iff]
    by_contra c
    exact hcan (h.can_read hP hM hcl hi (by unfold Fed.free; rw [k]) (by omega))
  have hw : ∀ i < P.T.n, (x.s.sys.rti.node i).connected = true → ∃ o t, (x.s.fed i).pc = .waiting o t := by
    intro i hi hc
    rcases hpc i hi with k | k
    · rw [k.2] at hc; cases hc
    · exact k
  -- the RTI knows what all of those wait for
  have hknow : ∀ i < P.T.n, (x.s.sys.rti.node i).connected = true →
      R i = true ∧ (x.s.sys.rti.node i).nextEvent ≤ P.stop ∧ goal (x.s.fed i) ≤ (x.s.sys.rti.node i).nextEvent := by
    intro i hi hc
    obtain ⟨o, t, k⟩ := hw i hi hc
    rcases hS.wt i hi o t k with ⟨_, k2, k3, k4⟩ | ⟨q, n, p, k1, _⟩
    · refine ⟨k2, k3, ?_⟩
      rcases k4 with k4 | ⟨m, k4, _⟩
      · exact k4
      · rw [hread i hi ⟨o, t, k⟩] at k4; cases k4
    · rw [hup] at k1
      have := congrArg List.length k1
      simp at this
  have hF : P.stop < FOREVER_TAG := by
    have e1 : FOREVER_TAG.time = FOREVER := rfl
    rcases hfit.1 with c | ⟨_, c, _⟩
    · exact absurd c hfit.2
    · rw [Tag.lt_def]; omega
  obtain ⟨β, sv⟩ := (h.sys hP hM).inv hP.topology hP.down hP.start0.1 hP.start0.2
  have hsane : ∀ j, (x.s.sys.rti.node j).nextEvent ≠ NEVER_TAG → Sane P.T (x.s.sys.rti.node j).nextEvent := fun j hj =>
    (sv.rti.next j).1.resolve_left hj
  have hsome : ∃ i, i < P.T.n ∧ (x.s.sys.rti.node i).connected = true ∧ (x.s.sys.rti.node i).nextEvent < FOREVER_TAG := by
    by_contra c
    refine hne fun i hi => ?_
    rcases hpc i hi with k | ⟨o, t, k⟩
    · exact k
    · have hc := h.live.conn (i := i) (.inr (by rw [k]; simp))
      exact absurd ⟨i, hi, hc, Tag.lt_of_le_of_lt (hknow i hi hc).2.1 hF⟩ c
  obtain ⟨e, he, hec, _, hg⟩ := Rti.least_granted hP.topology hP.noZero (start := P.start) hsane hS.pi.gone
    (fun i hi hic => hS.current i (hknow i hi hic).1) hsome
  obtain ⟨o, t, hpe⟩ := hw e he hec
  obtain ⟨hk1, hk2, hk3⟩ := hknow e he hec
  have hne' := (hS.current e hk1).1
  have hIe := h.finv hP hM he (by rw [hpe]; simp)
  have hwt := (hS.front e he).wait o t hpe
  have hgr : (x.s.sys.rti.node e).lastGranted ≤ (x.s.fed e).lastTAG := by
    rcases hS.pi.sent e ((hasUp_conf P M e).1 hwt.1) with m | m
    · exfalso
      rw [m] at hg
      have := (hsane e hne').time
      have : NEVER_TAG.time < 0 := by decide
      tag_omega
    · refine hIe.grants _ (.inl ?_)
      have := hread e he ⟨o, t, hpe⟩
      rw [List.drop_eq_nil_iff] at this
      rw [List.take_of_length_le this]; exact m
  have hgoal : goal (x.s.fed e) ≤ (x.s.fed e).lastTAG := Tag.le_trans hk3 (Tag.le_trans hg hgr)
  refine hcan (h.can_wake hP hM hfit he hpe ?_)
  unfold goal at hgoal
  split at hgoal
  · exact .inl hgoal
  · rename_i hst
    right
    cases o with
    | none => rw [hwt.2 rfl]; exact hgoal
    | some o =>
      have := hIe.pc
      unfold Fedn.PcOk at this
      rw [hpe] at this
      exact absurd this.1 hst

end

end ReactorC.FedDet
