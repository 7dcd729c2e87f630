import Verif.DecFed.Props

/-! What a federate with decentralized coordination is about to execute is what the sequential execution says. -/

set_option linter.unusedVariables false

namespace ReactorC.FedDet
open ReactorC
open ReactorC.Rti (Topology Sane put put_same put_other)

variable {V : Type} {P : Program V} {rank : Nat → Nat}

/-- If nothing can come in at `t` any more, then all that comes in at `t` in the other execution has come in. -/
theorem weak_arrives (hP : P.Ok rank) {A B : Exec V} (hA : A.Weak P) (hB : B.Weak P) {t : Tag} {i : Nat} (past : ∀ u, u < t → A.passed i u)
    (quiet : ∀ j s h o, A.could j s → o ∈ P.outs j h → o.dest = i → lf_delay_tag s o.delay = t → Quiet P (A.log j) j o.dest o.port t → False)
    {k : Nat} {v : V} (hg : Gen P B.log i t k v) : Gen P A.log i t k v := by
  have key : ∀ j (x : Entry V), x ∈ B.log j → A.passed j x.1 → x ∈ A.log j ∧ upTo x.1 (B.log j) = upTo x.1 (A.log j) := fun j x hx pa =>
    ⟨(weak_claims hP hA hB x.1 j).2.1 (hB.reached j x hx) pa x.2 hx, weak_agree hP hB hA (hB.reached j x hx) pa⟩
  cases hg with
  | init h => exact .init h
  | @sched _ x e hx he =>
    have hlt : x.1 < e.1 := by
      obtain ⟨y, h, hy⟩ := upTo_head (hB.sorted i) hx
      rw [hy.1] at he
      rw [← hy.2]
      exact hP.later i y h e he
    obtain ⟨h1, h2⟩ := key i x hx (past _ hlt)
    rw [h2] at he; exact .sched h1 he
  | @mail j x o hx ho hs =>
    by_cases pa : A.passed j x.1
    · obtain ⟨h1, h2⟩ := key j x hx pa
      rw [h2] at ho; exact .mail h1 ho hs
    · exfalso
      refine quiet j x.1 _ o ((weak_claims hP hA hB x.1 j).2.2 x.2 hx pa) ho rfl rfl fun x' hx' o' ho' e1 e2 hs' => ?_
      have pa' := hA.reached j x' hx'
      have hlt : x'.1 < x.1 := Tag.not_le.1 fun k => pa (hA.down j _ _ pa' k)
      have pb' := hB.down j _ _ (hB.reached j x hx) (Tag.le_of_lt hlt)
      have hx'' := (weak_claims hP hA hB x'.1 j).1.1 pa' pb' x'.2 hx'
      have e := weak_agree hP hA hB pa' pb'
      rw [e] at ho'
      exact hB.rising j x x' o o' hx hx'' hlt ho ho' e1 e2 hs' hs

theorem single_of_cnt {l : List (Event V)} (h : ∀ t k, cnt t k l ≤ 1) : Single l := by
  induction l with
  | nil => exact List.nodup_nil
  | cons e l ih =>
    unfold Single at ih ⊢
    rw [List.map_cons, List.nodup_cons]
    refine ⟨fun k => ?_, ih fun t k => ?_⟩
    · obtain ⟨e', h1, h2⟩ := List.mem_map.1 k
      obtain ⟨h3, h4⟩ := Prod.mk.inj h2
      have h5 := cnt_pos h1
      rw [h3, h4] at h5
      have h6 := h e.1 e.2.1
      have h7 : 0 < cnt e.1 e.2.1 [e] := cnt_pos List.mem_cons_self
      rw [cnt_cons] at h6
      omega
    · have := h t k
      rw [cnt_cons] at this
      omega

theorem upTo_of_suffix {l m : List (Entry V)} (hm : m.Pairwise fun a b => b.1 < a.1) (h : l <:+ m) {x : Entry V} (hx : x ∈ l) :
    upTo x.1 l = upTo x.1 m := by
  obtain ⟨p, hp⟩ := h
  rw [← hp, List.pairwise_append] at hm
  rw [← hp]
  unfold upTo
  rw [List.filter_append]
  have : p.filter (fun y => decide (y.1 ≤ x.1)) = [] := by
    rw [List.filter_eq_nil_iff]
    intro a ha
    rw [decide_eq_true_eq]
    exact Tag.not_le.2 (hm.2.2 a ha x hx)
  rw [this]; rfl

/-- What an entry of the log has scheduled is counted. -/
theorem schedCnt_mem {j : Nat} {l : List (Entry V)} (hl : l.Pairwise fun a b => b.1 < a.1) {x : Entry V} (hx : x ∈ l) {e : Event V}
    (he : e ∈ P.scheds j (upTo x.1 l)) : 0 < schedCnt P j e.1 e.2.1 l := by
  obtain ⟨y, h, hy⟩ := upTo_head hl hx
  have hsuf := upTo_suffix hl x.1
  have h1 := schedCnt_suffix (P := P) (j := j) (t := e.1) (k := e.2.1) hsuf
  rw [hy.1] at he h1
  have h2 := cnt_pos he
  have h3 : schedCnt P j e.1 e.2.1 (y :: h) = cnt e.1 e.2.1 (P.scheds j (y :: h)) + schedCnt P j e.1 e.2.1 h := rfl
  omega

end ReactorC.FedDet

namespace ReactorC.DecFed
open ReactorC
open ReactorC.Rti (Topology Sane put put_same put_other)
open ReactorC.FedDet (Program Entry Event Inputs Out Fit Single present upTo Seq Done Exec Gen Quiet present_of present_some)
open ReactorC.Level (Config MIN_SLEEP_DURATION Small exempt blocks waitOver newKnown upd)
open ReactorC.Decentral (Ev Delivery due nextTag open_ raise release handle inTime good_inTime reach_timely dueBy)

variable {S : Setup} {rank : Nat → Nat} {g : State} {s : Seq Nat}

theorem done_passed {P : Program Nat} (hs : Done P rank s) (i : Nat) (u : Tag) : (s.toExec P rank).passed i u :=
  fun j u k => absurd k (hs.2 j u)

theorem Inv.suffix (h : Inv S g) (hS : S.Ok rank) (hs : Done S.P rank s) (i : Nat) : g.log i <:+ s.log i :=
  weak_within hS.prog (h.exec hS) (seq_weak hS hs.1) (done_passed hs i)

theorem Inv.gen (h : Inv S g) (hS : S.Ok rank) (hs : Done S.P rank s) {i : Nat} (hi : i < S.P.T.n) {t : Tag} {k v : Nat}
    (hg : Gen S.P g.log i t k v) (ht : t ≤ S.P.stop) : ∃ x, (t, x) ∈ s.log i ∧ x k = some v := by
  have hI := hs.1.inv hS.prog
  rcases (hI.gen i (t, k, v)).1 (FedDet.gen_suffix hI.sorted (h.suffix hS hs) hg) with c | c
  · exact absurd ⟨hi, ht, .inl ⟨_, c, rfl⟩⟩ (hs.2 i t)
  · exact c

theorem Inv.loc_gen (h : Inv S g) {i : Nat} {e : Event Nat} (he : e ∈ g.loc i) : Gen S.P g.log i e.1 e.2.1 e.2.2 := by
  rcases (h.locs i e).1 he with k | ⟨x, k1, k2⟩
  · exact .init k
  · exact .sched k1 k2

/-- A message that has come in. -/
theorem Inv.got_gen (h : Inv S g) (hS : S.Ok rank) {i : Nat} (hi : i < S.P.T.n) {p : Nat} {t : Tag} {v : Nat} (hm : (p, t, v) ∈ (g.fed i).got) :
    t ≤ S.P.stop ∧ Gen S.P g.log i t p v := by
  have hp := (h.fed i hi).gots _ hm
  obtain ⟨u, k1⟩ := (h.chan i hi p hp).got t v hm
  obtain ⟨k2, y, k3, o, ho, o1, o2, o3⟩ := k1.msg v rfl
  have o4 := (hS.outs _ _ o ho).2.2
  refine ⟨k2, ?_⟩
  have hm := Gen.mail (P := S.P) (log := g.log) k3 ho (by dsimp only; rw [o4, o1, o2, ← k1.tag]; exact k2)
  dsimp only at hm
  rw [o4, o1, o2, o3, ← k1.tag] at hm
  exact hm

theorem done_fit (hS : S.Ok rank) (hs : Done S.P rank s) {i : Nat} {x : Entry Nat} (hx : x ∈ s.log i) : Fit S.P.T x.1 :=
  ((hs.1.inv hS.prog).fits i x hx).2.2.2

theorem Inv.gen_fit (h : Inv S g) (hS : S.Ok rank) (hs : Done S.P rank s) {i : Nat} (hi : i < S.P.T.n) {t : Tag} {k v : Nat}
    (hg : Gen S.P g.log i t k v) (ht : t ≤ S.P.stop) : Fit S.P.T t := by
  obtain ⟨x, hx, -⟩ := h.gen hS hs hi hg ht
  exact done_fit hS hs hx

theorem Inv.queue_fit (h : Inv S g) (hS : S.Ok rank) (hs : Done S.P rank s) {i : Nat} (hi : i < S.P.T.n) {e : Ev} (he : e ∈ (g.fed i).q)
    (ht : e.tag ≤ S.P.stop) : Fit S.P.T e.tag := by
  have L := h.fed i hi
  obtain ⟨hG, hN, hD⟩ := L.timely hS hi
  cases hp : e.port with
  | none =>
    obtain ⟨e', k1, k2⟩ := L.ql e he hp
    rw [← k2] at ht ⊢
    exact h.gen_fit hS hs hi (h.loc_gen k1) ht
  | some p =>
    obtain ⟨k1, -, k3⟩ := hD.q e he p hp
    rw [k1] at ht ⊢
    exact h.gen_fit hS hs hi (h.got_gen hS hi k3).2 ht

/-- The tag that a federate is at belongs to the sequential execution. -/
theorem Inv.cur_log (h : Inv S g) (hS : S.Ok rank) (hs : Done S.P rank s) (hfit : Fit S.P.T S.P.stop) {i : Nat} (hi : i < S.P.T.n)
    (hp : (g.fed i).lv.phase = .running) : ∃ x, ((g.fed i).lv.cur, x) ∈ s.log i := by
  have L := h.fed i hi
  obtain ⟨hG, hN, hD⟩ := L.timely hS hi
  have hB := seq_weak hS hs.1
  have hst := (L.run hp).1
  rcases L.cause hp with k | k | ⟨e, k1, k2⟩ | ⟨d, k1, k2⟩
  · rw [k]; exact (hB.first i hi).1 (done_passed hs _ _)
  · rw [k]; exact (hB.last i hi hfit).1 (done_passed hs _ _)
  · rw [← k2] at hst ⊢
    obtain ⟨x, hx, -⟩ := h.gen hS hs hi (h.loc_gen k1) hst
    exact ⟨x, hx⟩
  · obtain ⟨e1, -, e3⟩ := hD.out d k1
    obtain ⟨m1, m2⟩ := h.got_gen hS hi e3
    rw [← k2, e1]
    obtain ⟨x, hx, -⟩ := h.gen hS hs hi m2 m1
    exact ⟨x, hx⟩

theorem Inv.next_fit (h : Inv S g) (hS : S.Ok rank) (hs : Done S.P rank s) (hfit : Fit S.P.T S.P.stop) {i : Nat} (hi : i < S.P.T.n) :
    Fit S.P.T (nextTag (g.fed i)) := by
  have L := h.fed i hi
  have hle := Decentral.nextTag_le_stop (g.fed i)
  rcases Decentral.nextTag_cases (g.fed i) with k | ⟨e, k1, k2⟩
  · rw [k, L.stop]; exact hfit
  · rw [← k2] at hle ⊢
    rw [L.stop] at hle
    exact h.queue_fit hS hs hi k1 hle

/-- A message that might still be sent would come in, in order and in time. -/
theorem Inv.could_come (h : Inv S g) (hS : S.Ok rank) {j : Nat} {u : Tag} {hh : List (Entry Nat)} {o : Out Nat} (k : (g.exec S).could j u)
    (ho : o ∈ S.P.outs j hh) (hf : Fit S.P.T (lf_delay_tag u o.delay)) (hst : lf_delay_tag u o.delay ≤ S.P.stop)
    (hq : Quiet S.P (g.log j) j o.dest o.port (lf_delay_tag u o.delay)) :
    S.P.first ≤ lf_delay_tag u o.delay ∧ exempt (S.c o.dest) (lf_delay_tag u o.delay) o.port = false ∧
    Decentral.InOrder (g.fed o.dest) o.port (lf_delay_tag u o.delay) ∧ Decentral.InTime (S.c o.dest) (g.fed o.dest) o.port (lf_delay_tag u o.delay) := by
  obtain ⟨hj, k2, k3, k4, k5⟩ := k
  obtain ⟨o1, o2, o3⟩ := hS.outs j _ o ho
  have o2' : S.from_ o.dest o.port = j := o2
  have hd := (hS.prog.dest j _ o ho).1
  have K := h.chan o.dest hd o.port o1
  have hfirst : S.P.first ≤ lf_delay_tag u o.delay := Tag.le_trans k2 (Rti.le_delay _ k3.1)
  have htime := delay_time k3 hf
  have hcov := hS.covered o.dest hd o.port o1
  rw [o2, ← o3] at hcov
  have hclk := h.clocks o.dest hd j hj
  have hlat := hS.latency o.dest hd o.port o1
  have hx : exempt (S.c o.dest) (lf_delay_tag u o.delay) o.port = false := by
    rw [o3] at hf ⊢
    exact exempt_false (hS.wf o.dest hd).lv (by rw [start_first hS hd]; exact k2) k3 hf
  have hin : Decentral.InTime (S.c o.dest) (g.fed o.dest) o.port (lf_delay_tag u o.delay) := by
    unfold Decentral.InTime Decentral.dueBy; omega
  refine ⟨hfirst, hx, ⟨?_, ?_⟩, hin⟩
  · rcases K.said with e | ⟨vo, w, e⟩
    · rw [e]
      have := fit_time hf
      rw [Tag.lt_def]; left; show NEVER < _
      have hN : NEVER < 0 := by decide
      omega
    · cases vo with
      | none =>
        have e1 := e.passed
        rw [o2'] at e1
        have e2 : w < u := by
          rw [← Tag.not_le]; intro c; exact k4 (e1.down c)
        have e3 := e.notice rfl
        have e4 : S.delay o.dest o.port = o.delay := o3.symm
        rw [e.tag, e4]
        exact delay_lt e.fitU k3 (by rw [← e4]; exact e3) e2
      | some v =>
        obtain ⟨e1, y, e2, o', e3, e4, e5, e6⟩ := e.msg v rfl
        rw [o2'] at e2 e3
        have e7 := (hS.outs _ _ o' e3).2.2
        rw [e4, e5] at e7
        have := hq (w, y) e2 o' e3 e4 e5 (by dsimp only; rw [e7, ← e.tag]; exact e1)
        dsimp only at this
        rw [e7, ← e.tag] at this; exact this
  · cases hg : (g.fed o.dest).gone o.port with
    | false => rfl
    | true =>
      exfalso
      obtain ⟨-, e1, e2, e3⟩ := K.gone hg
      rw [o2'] at e1 e2 e3
      refine k4 (Passed.down (t := S.P.stop) ⟨e1, .inr ⟨e3.symm, e2⟩⟩ (Tag.le_trans (Rti.le_delay _ k3.1) hst))

/-- No level is stopped. -/
def Free (S : Setup) (g : State) (i : Nat) : Prop := ∀ p < (S.c i).n, blocks (S.c i) (g.fed i).lv.cur (g.fed i).lv.known p = false

theorem free_known (hS : S.Ok rank) {i : Nat} (hi : i < S.P.T.n) (hb : Free S g i) {p : Nat} (hp : p < (S.c i).n)
    (hx : exempt (S.c i) (g.fed i).lv.cur p = false) : (g.fed i).lv.cur ≤ (g.fed i).lv.known p := by
  have hb' := hb p hp
  rw [← Tag.not_lt]
  intro k
  have : blocks (S.c i) (g.fed i).lv.cur (g.fed i).lv.known p = true := by
    rw [Level.blocks_iff]
    refine ⟨?_, hx, k, (hS.source i hi p hp).2⟩
    unfold Level.inTable; rw [(hS.wf i hi).dec]; rfl
  rw [this] at hb'; cases hb'

/-- What the federate is about to execute. -/
abbrev State.entry (S : Setup) (g : State) (i : Nat) : Entry Nat :=
  ((g.fed i).lv.cur, inputs (S.c i) (g.fed i).out (g.loc i) (g.fed i).lv.cur)

/-- What a federate executes, when nothing is on the way to it and no level is stopped, is what the sequential execution says. -/
theorem Inv.entry_log (h : Inv S g) (hS : S.Ok rank) (hs : Done S.P rank s) (hfit : Fit S.P.T S.P.stop) {i : Nat} (hi : i < S.P.T.n)
    (hp : (g.fed i).lv.phase = .running) (hb : Free S g i) (he : ∀ p < (S.c i).n, g.chan i p = []) : g.entry S i ∈ s.log i := by
  have L := h.fed i hi
  obtain ⟨hG, hN, hD⟩ := L.timely hS hi
  have hB := seq_weak hS hs.1
  have hA := h.exec hS
  obtain ⟨x, hx⟩ := h.cur_log hS hs hfit hi hp
  have hstop := (L.run hp).1
  have hF := done_fit hS hs hx
  dsimp only at hF
  have hm := fit_time hF
  -- an event that there is
  have key : ∀ k v, Gen S.P g.log i (g.fed i).lv.cur k v → inputs (S.c i) (g.fed i).out (g.loc i) (g.fed i).lv.cur k = some v := by
    intro k v hg
    generalize hc : (g.fed i).lv.cur = t at hg hstop
    have hlocal : ∀ e ∈ g.loc i, e.1 = t → inputs (S.c i) (g.fed i).out (g.loc i) t e.2.1 = some e.2.2 := by
      intro e he' ht
      unfold inputs
      rw [if_neg (by have := (L.lq e he').2.1; omega), ← ht]
      exact present_of L.single he'
    cases hg with
    | @init _ e h1 => exact hlocal e ((h.locs i e).2 (.inl h1)) rfl
    | @sched _ x e h1 h2 => exact hlocal e ((h.locs i e).2 (.inr ⟨x, h1, h2⟩)) rfl
    | @mail j x o h1 h2 h3 =>
      obtain ⟨o1, o2, o3⟩ := hS.outs j _ o h2
      have o2' : S.from_ o.dest o.port = j := o2
      rcases ((h.chan o.dest hi o.port o1).posted x (by rw [o2']; exact h1) o (by rw [o2']; exact h2) rfl rfl h3).2 with ⟨it, k1, -⟩ | k
      · rw [he o.port o1] at k1; cases k1
      · rcases hD.got _ _ _ k with k | k | k
        · have := (hG.ev _ k).2 hp
          dsimp only at this
          rw [hc] at this
          exact absurd this (Tag.lt_irrefl _)
        · unfold inputs
          rw [if_pos o1]
          exact arrived_unique (fun d hd => (hD.out d hd).1) hD.outs k
        · rw [L.stop] at k
          exact absurd k (Tag.not_lt.2 h3)
  have key2 : ∀ k v, inputs (S.c i) (g.fed i).out (g.loc i) (g.fed i).lv.cur k = some v → Gen S.P g.log i (g.fed i).lv.cur k v := by
    intro k v hk
    unfold inputs at hk
    split at hk
    · obtain ⟨d, d1, d2, d3, d4⟩ := arrived_mem hk
      obtain ⟨e1, -, e3⟩ := hD.out d d1
      rw [← e1, d2, d3, d4] at e3
      exact (h.got_gen hS hi e3).2
    · exact h.loc_gen (present_some hk)
  have e : inputs (S.c i) (g.fed i).out (g.loc i) (g.fed i).lv.cur = x := by
    funext k
    cases hk : x k with
    | some v =>
      refine key k v (FedDet.weak_arrives hS.prog hA hB (fun u hu => ⟨hi, hp, .inl hu⟩) ?_ (hB.origin i _ x k v hx hk))
      intro j u hh o hc ho hd hu hq
      subst hd
      rw [← hu] at hq hF hstop
      obtain ⟨c1, c2, c3, c4⟩ := h.could_come hS hc ho hF hstop hq
      rw [hu] at c1 c2 c3 c4
      have hk := free_known hS hi hb (hS.outs j _ o ho).1 c2
      rcases hN.known o.port (hS.outs j _ o ho).1 _ (by omega) hk with k | k
      · exact Decentral.not_settled (by rw [start_first hS hi]; exact c1) c3 c4 k
      · have := k.1; rw [hp] at this; cases this
    | none =>
      cases hk' : inputs (S.c i) (g.fed i).out (g.loc i) (g.fed i).lv.cur k with
      | none => rfl
      | some v =>
        exfalso
        obtain ⟨y, hy, hv⟩ := h.gen hS hs hi (key2 k v hk') hstop
        rw [FedDet.pairwise_unique (hB.sorted i) hx hy, hv] at hk
        cases hk
  unfold State.entry
  rw [e]; exact hx

/-- The log that the federate gets is the beginning of that of the sequential execution. -/
theorem Inv.entry_suffix (h : Inv S g) (hS : S.Ok rank) (hs : Done S.P rank s) {i : Nat} (hi : i < S.P.T.n)
    (hp : (g.fed i).lv.phase = .running) (hf : g.fin i = false) (he : g.entry S i ∈ s.log i) : g.entry S i :: g.log i <:+ s.log i := by
  have L := h.fed i hi
  have hB := seq_weak hS hs.1
  have hA := h.exec hS
  have old : ∀ y ∈ g.log i, y.1 < (g.fed i).lv.cur := by
    intro y hy
    obtain ⟨-, -, -, -, a5, a6⟩ := L.logs y hy
    rcases Tag.lt_or_eq_of_le a5 with k | k
    · exact k
    · rw [hf] at a6; cases a6 k
  have e : g.entry S i :: g.log i = upTo (g.fed i).lv.cur (s.log i) := by
    have hso : (g.entry S i :: g.log i).Pairwise fun a b => b.1 < a.1 := List.pairwise_cons.2 ⟨old, L.sorted⟩
    refine FedDet.pairwise_ext hso ((hB.sorted i).filter _) fun x => ?_
    unfold FedDet.upTo
    rw [List.mem_filter, decide_eq_true_eq]
    constructor
    · intro hx
      rcases List.mem_cons.1 hx with rfl | hx
      · exact ⟨he, Tag.le_refl _⟩
      · exact ⟨(h.suffix hS hs i).subset hx, Tag.le_of_lt (old x hx)⟩
    · rintro ⟨h1, h2⟩
      rcases Tag.lt_or_eq_of_le h2 with k | k
      · have pa : (g.exec S).passed i x.1 := ⟨hi, hp, .inl k⟩
        exact List.mem_cons_of_mem _ ((FedDet.weak_claims hS.prog hA hB x.1 i).2.1 (done_passed hs i _) pa x.2 h1)
      · have e : x = g.entry S i := by
          have := FedDet.pairwise_unique (hB.sorted i) (t := x.1) (x := x.2) (y := (g.entry S i).2) h1 (by rw [k]; exact he)
          exact Prod.ext k this
        rw [e]; exact List.mem_cons_self
  rw [e]; exact FedDet.upTo_suffix (hB.sorted i) _

/-- Where the latest tag that has been sent comes from. -/
def Sent (S : Setup) (g : State) : Prop :=
  ∀ d < S.P.T.n, ∀ p < (S.c d).n, g.sent d p = NEVER_TAG ∨ ∃ vo u, Src S g d p (g.sent d p) vo u

theorem letters_cnt {P : Program Nat} {i d p : Nat} {t : Tag} {h : List (Entry Nat)} {now : Int} {w : Int}
    (hw : ∀ o ∈ P.outs i h, o.dest = d → o.port = p → o.delay = w) :
    (letters P i d p t h now).length ≤ FedDet.cnt (lf_delay_tag t w) p (FedDet.mail P i d t h) := by
  unfold letters FedDet.mail
  generalize P.outs i h = l at hw ⊢
  induction l with
  | nil => exact Nat.zero_le _
  | cons o l ih =>
    have ih := ih fun o' ho' => hw o' (List.mem_cons_of_mem _ ho')
    rw [List.filterMap_cons, List.filterMap_cons]
    by_cases c : o.dest = d ∧ o.port = p ∧ lf_delay_tag t o.delay ≤ P.stop
    · rw [if_pos c, if_pos ⟨c.1, c.2.2⟩]
      dsimp only
      rw [List.length_cons, FedDet.cnt_cons]
      have : 0 < FedDet.cnt (lf_delay_tag t w) p [((lf_delay_tag t o.delay, o.port, o.val) : Event Nat)] := by
        have := FedDet.cnt_pos (l := [((lf_delay_tag t o.delay, o.port, o.val) : Event Nat)]) List.mem_cons_self
        dsimp only at this
        rw [hw o List.mem_cons_self c.1 c.2.1, c.2.1] at this
        rw [hw o List.mem_cons_self c.1 c.2.1, c.2.1]; exact this
      omega
    · rw [if_neg c]
      dsimp only
      refine Nat.le_trans ih ?_
      split
      · exact Nat.le_refl _
      · rw [FedDet.cnt_cons (e := _)]; omega

/-- What a federate executes can be sent and scheduled. -/
theorem Inv.fine (h : Inv S g) (hS : S.Ok rank) (hs : Done S.P rank s) (hsent : Sent S g) {i : Nat} (hi : i < S.P.T.n)
    (hp : (g.fed i).lv.phase = .running) (hf : g.fin i = false) (he : g.entry S i ∈ s.log i) : Fine S g i fun _ _ => false := by
  have hsuf := h.entry_suffix hS hs hi hp hf he
  have hI := hs.1.inv hS.prog
  have hB := seq_weak hS hs.1
  have L := h.fed i hi
  have hF := done_fit hS hs he
  have hup : upTo (g.entry S i).1 (s.log i) = g.entry S i :: g.log i := by
    rw [← FedDet.upTo_of_suffix (hI.sorted i) hsuf List.mem_cons_self]
    refine FedDet.upTo_all fun y hy => ?_
    rcases List.mem_cons.1 hy with rfl | hy
    · exact Tag.le_refl _
    · exact (L.logs y hy).2.2.2.2.1
  have hall : ∀ j, put g.log i (g.entry S i :: g.log i) j <:+ s.log j := by
    intro j
    by_cases c : j = i
    · subst c; rw [put_same]; exact hsuf
    · rw [put_other _ _ _ c]; exact h.suffix hS hs j
  have hcnt : ∀ j t k, (if j = i then FedDet.cnt t k (S.P.scheds i (g.entry S i :: g.log i)) else 0) +
      FedDet.cnt t k (FedDet.mail S.P i j (g.entry S i).1 (g.entry S i :: g.log i)) + FedDet.genCnt S.P g.log j t k ≤ 1 := by
    intro j t k
    rw [← FedDet.genCnt_enter hi]
    exact Nat.le_trans (FedDet.genCnt_suffix hall j t k) (FedDet.seq_once hS.prog hs.1 j t k).1
  unfold Fine
  dsimp only
  refine ⟨hF, ?_, fun d p => ?_⟩
  · change Single (g.loc i ++ S.P.scheds i (g.entry S i :: g.log i))
    refine FedDet.single_of_cnt fun t k => ?_
    have h1 := hcnt i t k
    rw [if_pos rfl] at h1
    have h2 := FedDet.cnt_single (t := t) (k := k) L.single
    rw [FedDet.cnt_append]
    by_cases c : FedDet.cnt t k (g.loc i) = 0
    · omega
    · obtain ⟨e, he', hk⟩ := List.countP_pos_iff.1 (Nat.pos_of_ne_zero c)
      rw [decide_eq_true_eq] at hk
      have h3 : 0 < FedDet.genCnt S.P g.log i t k := by
        unfold FedDet.genCnt
        rcases (h.locs i e).1 he' with k1 | ⟨x, k1, k2⟩
        · have := FedDet.cnt_pos k1
          rw [hk.1, hk.2] at this
          omega
        · have := FedDet.schedCnt_mem L.sorted k1 k2
          rw [hk.1, hk.2] at this
          omega
      omega
  · change (posts S i d p (g.entry S i).1 (g.entry S i :: g.log i) (g.fed i).lv.now false).length ≤ 1 ∧
      ∀ it ∈ posts S i d p (g.entry S i).1 (g.entry S i :: g.log i) (g.fed i).lv.now false, g.sent d p < it.tag ∧ Fit S.P.T it.tag
    have ep : posts S i d p (g.entry S i).1 (g.entry S i :: g.log i) (g.fed i).lv.now false =
        letters S.P i d p (g.entry S i).1 (g.entry S i :: g.log i) (g.fed i).lv.now := by
      unfold posts
      dsimp only
      rw [if_neg fun k => by cases k.2.1]
    constructor
    · rw [ep]
      refine Nat.le_trans (letters_cnt (w := S.delay d p) fun o ho e1 e2 => ?_) (m := FedDet.cnt _ p _) (Nat.le_trans ?_ (hcnt d (lf_delay_tag (g.entry S i).1 (S.delay d p)) p))
      · rw [(hS.outs i _ o ho).2.2, e1, e2]
      · omega
    · intro it hit
      rcases posts_cases hit with ⟨o, ho, e1, e2, e3, e4⟩ | ⟨c1, c2, e4⟩
      · have ed := (hS.outs i _ o ho).2.2
        have hd := (hS.prog.dest i _ o ho).1
        obtain ⟨hpn, hsrc, -⟩ := hS.outs i _ o ho
        rw [e1] at hd
        rw [e1, e2] at ed hpn hsrc
        have hfrom : S.from_ d p = i := hsrc
        rw [e4]
        dsimp only
        have hFt : Fit S.P.T (lf_delay_tag (g.entry S i).1 o.delay) := by
          have hm := Gen.mail (P := S.P) (log := s.log) (j := i) (x := g.entry S i) (o := o) he (by rw [hup]; exact ho) e3
          rcases (hI.gen o.dest (_, _, _)).1 hm with c | ⟨y, c, -⟩
          · exact absurd ⟨by rw [e1]; exact hd, e3, .inl ⟨_, c, rfl⟩⟩ (hs.2 o.dest _)
          · exact done_fit hS hs c
        refine ⟨?_, hFt⟩
        rcases hsent d hd p hpn with k | ⟨vo, u, k⟩
        · rw [k]
          have := fit_time hFt
          rw [Tag.lt_def]; left; show NEVER < _
          exact Int.lt_of_lt_of_le (show NEVER < 0 by decide) this.1
        · have k1 := k.passed
          rw [hfrom] at k1
          have k2 : u < (g.entry S i).1 := by
            rcases k1.2 with k2 | k2
            · exact k2
            · rw [hf] at k2; cases k2.2
          cases vo with
          | none =>
            have k3 := k.notice rfl
            rw [k.tag, ed]
            exact delay_lt k.fitU hF k3 k2
          | some v =>
            obtain ⟨m1, y, m2, o', m3, m4, m5, m6⟩ := k.msg v rfl
            rw [hfrom] at m2 m3
            have ed' := (hS.outs _ _ o' m3).2.2
            rw [m4, m5] at ed'
            have hu := FedDet.upTo_of_suffix (hI.sorted i) (h.suffix hS hs i) m2
            dsimp only at hu
            rw [hu] at m3
            have := hB.rising i (g.entry S i) (u, y) o o' he ((h.suffix hS hs i).subset m2) k2 (show o ∈ S.P.outs i (upTo (g.entry S i).1 (s.log i)) by rw [hup]; exact ho) m3
              (by rw [m4, e1]) (by rw [m5, e2]) (by dsimp only; rw [ed', ← k.tag]; exact m1) e3
            dsimp only at this
            rw [ed', ← k.tag] at this; exact this
      · exfalso
        rw [ep] at hit
        unfold letters at hit
        rw [List.mem_filterMap] at hit
        obtain ⟨o, -, k⟩ := hit
        split at k
        · rw [e4] at k
          injection k with k
          injection k with k1 k2 k3
          cases k2
        · cases k

end ReactorC.DecFed
