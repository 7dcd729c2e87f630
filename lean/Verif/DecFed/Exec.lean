import Verif.DecFed.Steps

/-! An execution with decentralized coordination is an execution of the program. -/

set_option linter.unusedVariables false

namespace ReactorC.DecFed
open ReactorC
open ReactorC.Rti (Topology Sane put put_same put_other)
open ReactorC.FedDet (Program Entry Event Inputs Out Fit Single present upTo upTo_cons_old upTo_cons_new Rising Exec Quiet present_of present_some)
open ReactorC.Level (Config MIN_SLEEP_DURATION Small exempt blocks waitOver newKnown upd)
open ReactorC.Decentral (Ev Delivery due nextTag open_ raise release handle inTime good_inTime reach_timely dueBy)

variable {S : Setup} {rank : Nat → Nat} {g : State}

theorem Inv.init (hS : S.Ok rank) {now : Nat → Int} (h1 : ∀ i, Single (S.P.init i))
    (h2 : ∀ i < S.P.T.n, now i + MIN_SLEEP_DURATION ≤ FOREVER ∧ now i ≤ S.P.start + S.lag i ∧ ∀ j < S.P.T.n, now i ≤ now j + S.error) :
    Inv S (init S now) where
  fed i hi := by
    obtain ⟨n1, n2, n3⟩ := h2 i hi
    have hsf := start_first hS hi
    have hq : ∀ e ∈ ((S.P.init i).filter fun e => decide (S.P.first < e.1)).map (fun e => (⟨none, e.1, NEVER_TAG, e.2.2⟩ : Ev)),
        ∃ e' ∈ S.P.init i, S.P.first < e'.1 ∧ e'.1 = e.tag := by
      intro e he
      rw [List.mem_map] at he
      obtain ⟨e', k1, k2⟩ := he
      rw [List.mem_filter, decide_eq_true_eq] at k1
      exact ⟨e', k1.1, k1.2, by rw [← k2]⟩
    have hfst : S.P.first.time = S.P.start := rfl
    have hge : ∀ u : Tag, S.P.first ≤ u → now i ≤ u.time + S.lag i := by
      intro u hu
      rw [Tag.le_def] at hu
      omega
    refine ⟨?_, rfl, fun k => (by cases k), .nil, fun x hx => (by cases hx), fun k => (by cases k), fun d hd => (by cases hd),
      fun m hm => (by cases hm), fun x hx => (by cases hx), fun e he _ => ?_, fun e he => ⟨hS.prog.after i e he, hS.inits i e he, ?_⟩, h1 i,
      fun k => (by cases k), fun x hx => (by cases hx), fun u k => ?_⟩
    · refine addLocals_reach (.init (now i) S.P.stop n1 (by rw [hsf]; exact hS.prog.stop) hS.stop) fun e he => ?_
      rw [List.mem_filter, decide_eq_true_eq] at he
      refine ⟨?_, by rw [hsf]; exact Tag.le_of_lt he.2⟩
      refine Tag.lt_of_le_of_lt ?_ he.2
      have hsta := (hS.wf i hi).lv.sta
      have : (S.c i).startTime = S.P.start := hS.start i hi
      show (⟨(S.c i).startTime - (S.c i).sta, 0⟩ : Tag) ≤ ⟨S.P.start, 0⟩
      rw [Tag.le_def]
      dsimp only
      omega
    · obtain ⟨e', k1, k2, k3⟩ := hq e he
      exact ⟨e', k1, k3⟩
    · rcases Tag.lt_or_eq_of_le (hS.prog.after i e he) with k | k
      · left
        refine ⟨⟨none, e.1, NEVER_TAG, e.2.2⟩, ?_, rfl⟩
        show _ ∈ ([] : List Ev) ++ _
        rw [List.nil_append, List.mem_map]
        exact ⟨e, by rw [List.mem_filter, decide_eq_true_eq]; exact ⟨he, k⟩, rfl⟩
      · exact .inr (.inr (.inr ⟨fun k => (by cases k), k.symm⟩))
    · refine hge u ?_
      rcases k.2.2 with ⟨e, k1, k2⟩ | k | k | k
      · obtain ⟨e', -, k4, k5⟩ := hq e k1
        rw [← k2, ← k5]; exact Tag.le_of_lt k4
      · rw [k]; exact Tag.le_refl _
      · rw [k]; exact hS.prog.stop
      · cases k.1
  chan d hd p hp := by
    refine ⟨.nil, fun it hi => (by cases hi), Tag.le_refl _, fun t v k => (by cases k), fun _ it hi => (by cases hi), fun it hi => (by cases hi),
      fun it hi => (by cases hi), .inl rfl, fun t v k => (by cases k), fun k => (by cases k), fun x hx => (by cases hx)⟩
  clocks i hi := (h2 i hi).2.2
  locs i e := ⟨.inl, fun k => k.elim id fun ⟨x, hx, _⟩ => (by cases hx)⟩
  rising j x x' o o' hx := by cases hx
  outside _ _ := rfl

theorem Inv.step (hS : S.Ok rank) {g' : State} (h : Inv S g) (st : Step S g g') : Inv S g' := by
  cases st with
  | own hi st => exact h.own hS hi st
  | clock hi h1 h2 h3 => exact h.clock hi h1 h2 h3
  | start hi hp ho hl => exact h.start hS hi hp ho hl
  | finish silent hi hp hf hb hF => exact h.finish hS silent hi hp hf hb hF
  | advance hi hf hw hlt h1 h2 ho hp hl => exact h.advance hS hi hf hw hlt h1 h2 ho hp hl
  | header hd hp hc hr => exact h.header hS hd hp hc hr
  | complete hd hr hs hc => exact h.complete hS hd hr hs hc
  | absent hd hp hc hr hs => exact h.absent hS hd hp hc hr hs
  | gone hd hp hc hs h1 h2 h3 => exact h.gone hS hd hp hc hs h1 h2 h3

theorem Reach.inv (hS : S.Ok rank) (h : Reach S g) : Inv S g := by
  induction h with
  | init now h1 h2 => exact Inv.init hS h1 h2
  | step _ st ih => exact ih.step hS st

/-! ## What has not come in -/

/-- A tag at which a message may come in, in order and in time, has not been executed. -/
theorem Inv.ahead (h : Inv S g) (hS : S.Ok rank) {d p : Nat} (hd : d < S.P.T.n) (hp : p < (S.c d).n) {m : Tag} (hf : Fit S.P.T m)
    (h1 : S.P.first ≤ m) (hx : exempt (S.c d) m p = false) (ho : Decentral.InOrder (g.fed d) p m) (ht : Decentral.InTime (S.c d) (g.fed d) p m) :
    ¬ Passed (g.fed d) (g.fin d) m := by
  have L := h.fed d hd
  obtain ⟨hG, hN, hD⟩ := L.timely hS hd
  have hns := Decentral.not_settled (by rw [start_first hS hd]; exact h1) ho ht
  have hm := fit_time hf
  rintro ⟨k1, k2 | ⟨k2, k3⟩⟩
  · exact hns (hN.past p hp m (by omega) k2)
  · rcases (L.done k3).2.2 p hp with k | k
    · rw [← k2, hx] at k; cases k
    · rw [← k2] at k
      rcases hN.known p hp m (by omega) k with k | k
      · exact hns k
      · have := k.1; rw [k1] at this; cases this

/-- What is on the way has not been executed by the receiver. -/
theorem Inv.waiting (h : Inv S g) (hS : S.Ok rank) {d p : Nat} (hd : d < S.P.T.n) (hp : p < (S.c d).n) {it : Item} (hi : it ∈ g.chan d p) :
    ¬ Passed (g.fed d) (g.fin d) it.tag := by
  have L := h.fed d hd
  have K := h.chan d hd p hp
  obtain ⟨hG, hN, hD⟩ := L.timely hS hd
  obtain ⟨u, k1, k2⟩ := K.src it hi
  have hgone : (g.fed d).gone p = false := by
    cases hg : (g.fed d).gone p with
    | false => rfl
    | true => rw [(K.gone hg).1] at hi; cases hi
  have hx : exempt (S.c d) it.tag p = false := by
    have := k1.fit
    rw [k1.tag] at this ⊢
    exact exempt_false (hS.wf d hd).lv (by rw [start_first hS hd]; exact k1.first) k1.fitU this
  have hdue := K.due hS hd hp hi
  by_cases hr : ∀ t v, (p, t, v) ∉ (g.fed d).reading
  · exact h.ahead hS hd hp k1.fit k1.first_le hx ⟨K.fresh hr it hi, hgone⟩ hdue
  · push Not at hr
    obtain ⟨t, v, hr⟩ := hr
    obtain ⟨a, rest, hch⟩ := K.read t v hr
    obtain ⟨s1, s2, -⟩ := hN.pend p t v hr
    have hso := K.sorted
    rw [hch, List.pairwise_cons] at hso
    rw [hch] at hi
    rcases List.mem_cons.1 hi with rfl | hi2
    · dsimp only at *
      rintro ⟨k3, k4 | ⟨k4, k5⟩⟩
      · exact absurd k4 (Tag.not_lt.2 s2)
      · rcases (L.done k5).2.2 p hp with k | k
        · rw [← k4, hx] at k; cases k
        · rw [← k4] at k
          rcases hN.p1 p t v hr k with k | k
          · omega
          · have := k.1; rw [k3] at this; cases this
    · refine h.ahead hS hd hp k1.fit k1.first_le hx ⟨?_, hgone⟩ hdue
      rw [s1]; exact hso.1 it hi2

/-! ## The execution -/

def State.exec (S : Setup) (g : State) : Exec Nat where
  log := g.log
  passed i u := i < S.P.T.n ∧ Passed (g.fed i) (g.fin i) u
  could i u := i < S.P.T.n ∧ S.P.first ≤ u ∧ Fit S.P.T u ∧ ¬ Passed (g.fed i) (g.fin i) u ∧ (g.fed i).lv.now ≤ u.time + S.lag i

theorem Inv.inside (h : Inv S g) {i : Nat} {x : Entry Nat} (hx : x ∈ g.log i) : i < S.P.T.n := by
  by_contra c
  rw [h.outside i (by omega)] at hx; cases hx

theorem Inv.duty (h : Inv S g) {i : Nat} (hi : i < S.P.T.n) {u : Tag} (hf : Fit S.P.T u) (h1 : S.P.first ≤ u) (hd : Duty S (g.fed i) (g.fin i) u) :
    ¬ (g.exec S).passed i u ∧ (g.exec S).could i u :=
  ⟨fun k => hd.2.1 k.2, hi, h1, hf, hd.2.1, (h.fed i hi).duty u hd⟩

theorem arrived_unique {out : List Delivery} (h1 : ∀ d ∈ out, d.at_ = d.intended)
    (h2 : out.Pairwise fun d d' => d.port = d'.port → d.intended < d'.intended) {d : Delivery} (hd : d ∈ out) :
    arrived out d.at_ d.port = some d.val := by
  unfold arrived
  induction out with
  | nil => cases hd
  | cons a l ih =>
    rw [List.pairwise_cons] at h2
    rcases List.mem_cons.1 hd with rfl | hd2
    · rw [List.find?_cons_of_pos (by simp)]; rfl
    · rw [List.find?_cons_of_neg]
      · exact ih (fun x hx => h1 x (List.mem_cons_of_mem _ hx)) h2.2 hd2
      · rw [decide_eq_true_eq]
        rintro ⟨k1, k2⟩
        have := h2.1 d hd2 k1
        rw [← h1 d hd, ← k2, h1 a List.mem_cons_self] at this
        exact Tag.lt_irrefl _ this

theorem arrived_mem {out : List Delivery} {t : Tag} {k v : Nat} (h : arrived out t k = some v) : ∃ d ∈ out, d.port = k ∧ d.at_ = t ∧ d.val = v := by
  unfold arrived at h
  rw [Option.map_eq_some_iff] at h
  obtain ⟨d, h1, h2⟩ := h
  have h3 := List.find?_some h1
  rw [decide_eq_true_eq] at h3
  exact ⟨d, List.mem_of_find?_eq_some h1, h3.1, h3.2, h2⟩

theorem Inv.exec (h : Inv S g) (hS : S.Ok rank) : (g.exec S).Weak S.P where
  sorted i := by
    by_cases hi : i < S.P.T.n
    · exact (h.fed i hi).sorted
    · show (g.log i).Pairwise _
      rw [h.outside i (by omega)]; exact .nil
  reached i x hx := by
    have hi := h.inside hx
    obtain ⟨a1, -, -, -, a5, a6⟩ := (h.fed i hi).logs x hx
    exact ⟨hi, a1, (Tag.lt_or_eq_of_le a5).imp id fun k => ⟨k, a6 k⟩⟩
  down i t u k hu := ⟨k.1, k.2.down hu⟩
  raise i s t k hst ht := by
    obtain ⟨k1, k2, k3, k4, k5⟩ := k
    refine ⟨k1, Tag.le_trans k2 hst, ht, fun kk => k4 (kk.down hst), ?_⟩
    rw [Tag.le_def] at hst
    omega
  fits i x hx := by
    have hi := h.inside hx
    obtain ⟨-, a2, a3, a4, -, -⟩ := (h.fed i hi).logs x hx
    exact ⟨hi, a2, a3, a4⟩
  first i hi := by
    have L := h.fed i hi
    constructor
    · rintro ⟨-, k1, k2⟩
      rcases (L.run k1).2 with k | ⟨k3, k4⟩
      · exact k
      · exfalso
        rcases k2 with k2 | k2
        · rw [k3] at k2; exact Tag.lt_irrefl _ k2
        · rw [k4] at k2; cases k2.2
    · intro k
      exact (h.duty hi hS.prog.start (Tag.le_refl _) ⟨hS.prog.stop, fun kk => k ⟨hi, kk⟩, .inr (.inl rfl)⟩).2
  last i hi hf := by
    have L := h.fed i hi
    constructor
    · rintro ⟨-, k1, k2 | ⟨k2, k3⟩⟩
      · exact absurd k2 (Tag.not_lt.2 (L.run k1).1)
      · have := (L.done k3).2.1
        rw [← k2] at this; exact this
    · intro k
      exact (h.duty hi hf hS.prog.stop ⟨Tag.le_refl _, fun kk => k ⟨hi, kk⟩, .inr (.inr (.inl rfl))⟩).2
  events i hi t k v hg hst hf := by
    have L := h.fed i hi
    obtain ⟨hG, hN, hD⟩ := L.timely hS hi
    have hlocal : ∀ e ∈ g.loc i, e.1 ≤ S.P.stop → Fit S.P.T e.1 →
        (∃ x, (e.1, x) ∈ (g.exec S).log i ∧ x e.2.1 = some e.2.2) ∨ (¬ (g.exec S).passed i e.1 ∧ (g.exec S).could i e.1) := by
      intro e he hst hf
      obtain ⟨a1, a2, a3⟩ := L.lq e he
      rcases a3 with ⟨e', k1, k2⟩ | ⟨x, k1⟩ | ⟨k1, k2, k3⟩ | ⟨k1, k2⟩
      · right
        refine h.duty hi hf a1 ⟨hst, ?_, .inl ⟨e', k1, k2⟩⟩
        rintro ⟨k3, k4⟩
        have := (hG.ev e' k1).2 k3
        rw [k2] at this
        rcases k4 with k4 | k4
        · exact Tag.lt_irrefl _ (Tag.lt_trans this k4)
        · rw [← k4.1] at this; exact Tag.lt_irrefl _ this
      · left
        refine ⟨x, k1, ?_⟩
        have := L.val _ k1
        dsimp only at this
        rw [this]
        unfold inputs
        rw [if_neg (by omega)]
        exact present_of L.single he
      · right
        refine h.duty hi hf a1 ⟨hst, ?_, .inr (.inr (.inr ⟨k1, k2⟩))⟩
        rintro ⟨-, k4 | k4⟩
        · rw [k2] at k4; exact Tag.lt_irrefl _ k4
        · rw [k3] at k4; cases k4.2
      · right
        exact h.duty hi hf a1 ⟨hst, fun kk => k1 kk.1, .inr (.inl k2)⟩
    cases hg with
    | @init _ e he => exact hlocal e ((h.locs i e).2 (.inl he)) hst hf
    | @sched _ x e hx he => exact hlocal e ((h.locs i e).2 (.inr ⟨x, hx, he⟩)) hst hf
    | @mail j x o hx ho hle =>
      obtain ⟨o1, o2, o3⟩ := hS.outs j _ o ho
      have K := h.chan o.dest hi o.port o1
      have o2' : S.from_ o.dest o.port = j := o2
      have hxj := (h.fed j (h.inside hx)).logs x hx
      have hfirst : S.P.first ≤ lf_delay_tag x.1 o.delay := Tag.le_trans hxj.2.1 (Rti.le_delay _ hxj.2.2.2.1.1)
      rcases (K.posted x (by rw [o2']; exact hx) o (by rw [o2']; exact ho) rfl rfl hle).2 with ⟨it, k1, k2, k3⟩ | k
      · right
        have k4 := h.waiting hS hi o1 k1
        have k5 := K.due hS hi o1 k1
        rw [k2] at k4 k5
        have hm : min 0 ((S.c o.dest).port o.port).staa ≤ 0 := by omega
        have hlag := hS.lag o.dest hi
        have hM : MIN_SLEEP_DURATION = 10000 := rfl
        unfold Decentral.dueBy at k5
        exact ⟨fun kk => k4 kk.2, hi, hfirst, hf, k4, by omega⟩
      · rcases hD.got _ _ _ k with k | k | k
        · right
          refine h.duty hi hf hfirst ⟨hst, ?_, .inl ⟨_, k, rfl⟩⟩
          rintro ⟨k3, k4⟩
          have := (hG.ev _ k).2 k3
          dsimp only at this
          rcases k4 with k4 | k4
          · exact Tag.lt_irrefl _ (Tag.lt_trans this k4)
          · rw [← k4.1] at this; exact Tag.lt_irrefl _ this
        · rcases (L.out _ k).2 with ⟨y, k2⟩ | ⟨k2, k3⟩
          · left
            dsimp only at k2
            refine ⟨y, k2, ?_⟩
            have := L.val _ k2
            dsimp only at this
            rw [this]
            unfold inputs
            rw [if_pos o1]
            exact arrived_unique (fun d hd => (hD.out d hd).1) hD.outs k
          · right
            dsimp only at k2
            have hrun : (g.fed o.dest).lv.phase = .running := by
              by_contra c
              rw [hG.early c] at k; cases k
            refine h.duty hi hf hfirst ⟨hst, ?_, .inr (.inr (.inr ⟨hrun, k2⟩))⟩
            rintro ⟨-, k4 | k4⟩
            · rw [k2] at k4; exact Tag.lt_irrefl _ k4
            · rw [k3] at k4; cases k4.2
        · rw [L.stop] at k
          exact absurd k (Tag.not_lt.2 hst)
  origin i t x k v hx hk := by
    have hi := h.inside hx
    have L := h.fed i hi
    obtain ⟨hG, hN, hD⟩ := L.timely hS hi
    have := L.val _ hx
    dsimp only at this
    rw [this] at hk
    unfold inputs at hk
    split at hk
    · rename_i hkn
      obtain ⟨d, d1, d2, d3, d4⟩ := arrived_mem hk
      obtain ⟨e1, -, e3⟩ := hD.out d d1
      rw [← e1, d2, d3, d4] at e3
      obtain ⟨u, k1⟩ := (h.chan i hi k hkn).got t v e3
      obtain ⟨k2, y, k3, o, ho, o1, o2, o3⟩ := k1.msg v rfl
      have o4 := (hS.outs _ _ o ho).2.2
      have hm := FedDet.Gen.mail (P := S.P) (log := (g.exec S).log) k3 ho (by
        dsimp only; rw [o4, o1, o2, ← k1.tag]; exact k2)
      dsimp only at hm
      rw [o4, o1, o2, o3, ← k1.tag] at hm
      exact hm
    · have hm := present_some hk
      rcases (h.locs i _).1 hm with k0 | ⟨y, k1, k2⟩
      · exact FedDet.Gen.init (P := S.P) (log := (g.exec S).log) (e := (t, k, v)) k0
      · exact FedDet.Gen.sched (P := S.P) (log := (g.exec S).log) (e := (t, k, v)) k1 k2
  cause i t x hx := (h.fed i (h.inside hx)).causes _ hx
  rising := h.rising
  hop j s hh o k ho hf hst hq := by
    obtain ⟨hj, k2, k3, k4, k5⟩ := k
    obtain ⟨o1, o2, o3⟩ := hS.outs j _ o ho
    have o2' : S.from_ o.dest o.port = j := o2
    have hd := (hS.prog.dest j _ o ho).1
    have K := h.chan o.dest hd o.port o1
    have hfirst : S.P.first ≤ lf_delay_tag s o.delay := Tag.le_trans k2 (Rti.le_delay _ k3.1)
    have htime := delay_time k3 hf
    have hcov := hS.covered o.dest hd o.port o1
    rw [o2, ← o3] at hcov
    have hclk := h.clocks o.dest hd j hj
    have hlat := hS.latency o.dest hd o.port o1
    have hx : exempt (S.c o.dest) (lf_delay_tag s o.delay) o.port = false := by
      rw [o3] at hf ⊢
      exact exempt_false (hS.wf o.dest hd).lv (by rw [start_first hS hd]; exact k2) k3 hf
    have hin : Decentral.InTime (S.c o.dest) (g.fed o.dest) o.port (lf_delay_tag s o.delay) := by
      unfold Decentral.InTime Decentral.dueBy; omega
    have hor : Decentral.InOrder (g.fed o.dest) o.port (lf_delay_tag s o.delay) := by
      constructor
      · rcases K.said with e | ⟨vo, u, e⟩
        · rw [e]
          have := fit_time hf
          rw [Tag.lt_def]; left; show NEVER < _
          have hN : NEVER < 0 := by decide
          omega
        · cases vo with
          | none =>
            have e1 := e.passed
            rw [o2'] at e1
            have e2 : u < s := by
              rw [← Tag.not_le]; intro c; exact k4 (e1.down c)
            have e3 := e.notice rfl
            have e4 : S.delay o.dest o.port = o.delay := o3.symm
            rw [e.tag, e4]
            exact delay_lt e.fitU k3 (by rw [← e4]; exact e3) e2
          | some v =>
            obtain ⟨e1, y, e2, o', e3, e4, e5, e6⟩ := e.msg v rfl
            rw [o2'] at e2 e3
            have e7 := (hS.outs _ _ o' e3).2.2
            rw [e4, e5] at e7
            have := hq (u, y) e2 o' e3 e4 e5 (by dsimp only; rw [e7, ← e.tag]; exact e1)
            dsimp only at this
            rw [e7, ← e.tag] at this; exact this
      · cases hg : (g.fed o.dest).gone o.port with
        | false => rfl
        | true =>
          exfalso
          obtain ⟨-, e1, e2, e3⟩ := K.gone hg
          rw [o2'] at e1 e2 e3
          refine k4 (Passed.down (t := S.P.stop) ⟨e1, .inr ⟨e3.symm, e2⟩⟩ (Tag.le_trans (Rti.le_delay _ k3.1) hst))
    have hno := h.ahead hS hd o1 hf hfirst hx hor hin
    have hlag := hS.lag o.dest hd
    have hM : MIN_SLEEP_DURATION = 10000 := rfl
    unfold Decentral.InTime Decentral.dueBy at hin
    exact ⟨fun kk => hno kk.2, hd, hfirst, hf, hno, by omega⟩

end ReactorC.DecFed
