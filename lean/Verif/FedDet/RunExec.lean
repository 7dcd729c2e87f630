import Verif.FedDet.Steps

/-! An execution by the federation of the code keeps the rules of `Exec.Good`. -/

set_option linter.unusedVariables false

namespace ReactorC.FedDet
open ReactorC
open ReactorC.Rti (Topology Down Up Sys Sane put put_same put_other Ext Forwarded)
open ReactorC.Fedn (Config Fed State Ev Act Pc FInv)

variable {V : Type}

/-- What a state of an execution says about what has been executed and what might still be. -/
def St.exec (P : Program V) (x : St V) : Exec V where
  log := x.log
  passed i t := i < P.T.n ∧ (x.s.fed i).started = true ∧ t ≤ (x.s.fed i).cur
  could i s := i < P.T.n ∧ Fit P.T s ∧ P.first ≤ s ∧ ((x.s.fed i).pc = .gone → P.stop < s) ∧
    ∃ σ', Ext P.T P.start x.s.sys σ' ∧ σ'.net i ≤ s ∧ σ'.done i < s

section
variable {P : Program V} {M : Timing} {rank : Nat → Nat} {x : St V}

theorem Inv.inside (h : Inv P M x) {i : Nat} {e : Entry V} (he : e ∈ x.log i) : i < P.T.n := by
  rw [← Nat.not_le]
  intro k
  rw [(h.outside i k).1] at he; cases he

theorem Inv.notGone (h : Inv P M x) {i : Nat} (hi : i < P.T.n) {t : Tag} (ht : t ≤ P.stop)
    (hn : (x.s.fed i).started = true → (x.s.fed i).cur < t) : (x.s.fed i).pc ≠ .gone := by
  intro k
  obtain ⟨k1, k2⟩ := (h.loc i hi).over (.inr k)
  have := hn k2
  rw [k1, (h.past i hi).stop] at this
  exact absurd ht (Tag.not_le.2 this)

theorem Past.doneBefore {i : Nat} {f : Fed} {done : Tag} {out : List Down} (h : Past P i f done out) {t : Tag} (h1 : f.cur ≤ t)
    (h2 : f.started = true → f.cur < t) : done < t := by
  cases hs : f.started with
  | true => exact Tag.lt_of_le_of_lt h.doneLe (h2 hs)
  | false => exact Tag.lt_of_lt_of_le (h.doneLt (.inl hs)) h1

/-- A message that arrives later than what has been read of the grants is for a tag to come. -/
theorem Inv.arrive (h : Inv P M x) (hP : P.Ok rank) (hM : M.Ok) {a σ' : Sys} {d : Nat} {m : Tag} (hd : d < P.T.n)
    (hF : Fit P.T m) (hstop : m ≤ P.stop) (hx : Ext P.T P.start x.s.sys σ') (hf : Forwarded a.rti σ'.rti d m)
    (ha : ∀ g, Down.tag g ∈ (x.s.sys.rti.out d).take (x.s.fed d).taken → Down.tag g ∈ a.rti.out d) :
    ¬ (x.exec P).passed d m ∧ (x.exec P).could d m := by
  have hr := hx.reach (h.sys hP hM)
  have hp := h.past d hd
  have hmem : Down.msg m ∈ σ'.rti.out d := by
    obtain ⟨l, l', e⟩ := hf
    rw [e]; simp
  have hms := Rti.reach_msgs hP.topology hP.down hP.start0.1 hP.start0.2 hr hmem
  have hlt : (x.s.fed d).started = true → (x.s.fed d).cur < m := by
    intro k
    obtain ⟨g, hg, hm⟩ := hp.granted k hms.2.2
    exact Tag.lt_of_le_of_lt hg (Rti.forwarded_later hP.topology hP.down hP.start0.1 hP.start0.2 hr hf hF.2 (ha g hm))
  have hle : (x.s.fed d).cur ≤ m := by
    cases hs : (x.s.fed d).started with
    | true => exact Tag.le_of_lt (hlt hs)
    | false => rw [hp.fresh hs]; exact hms.2.1
  have hdone : σ'.done d < m := by rw [hx.done]; exact hp.doneBefore hle hlt
  obtain ⟨σ'', k1, k2⟩ := Rti.might_receive (T := P.T) (start := P.start) hf hdone
  refine ⟨fun k => absurd (hlt k.2.1) (Tag.not_lt.2 k.2.2), hd, hF, hms.2.1,
    fun k => absurd k (h.notGone hd hstop hlt), σ'', hx.trans k1, k2, ?_⟩
  rw [k1.done]; exact hdone

/-- A message that the RTI reads next is for a tag to come. -/
theorem Inv.coming (h : Inv P M x) (hP : P.Ok rank) (hM : M.Ok) {σ' : Sys} {j d : Nat} {s m : Tag} {w : Int} {q : List Up}
    (hF : Fit P.T m) (hstop : m ≤ P.stop) (hx : Ext P.T P.start x.s.sys σ') (hj : (x.s.sys.rti.node j).connected = true)
    (hq : σ'.up j = .msg d s w m :: q) : ¬ (x.exec P).passed d m ∧ (x.exec P).could d m := by
  have hr := hx.reach (h.sys hP hM)
  have hj' : (σ'.rti.node j).connected = true := by rw [hx.connected h.live.whole]; exact hj
  obtain ⟨β, hi⟩ := hr.inv hP.topology hP.down hP.start0.1 hP.start0.2
  have hpre := hi.pre j hj'
  rw [hq] at hpre
  have hd : d < P.T.n := hpre.1.dest
  have hlt : (x.s.fed d).started = true → (x.s.fed d).cur < m := by
    intro k
    obtain ⟨g, hg, hm⟩ := (h.past d hd).granted k (List.ne_nil_of_mem hpre.1.conn)
    exact Tag.lt_of_le_of_lt hg (Rti.coming_later hP.topology hP.down hP.start0.1 hP.start0.2 hr hj' hq hF.2
      ((hx.out d).subset (List.mem_of_mem_take hm)))
  have hd' : (σ'.rti.node d).connected = true := by
    rw [hx.connected h.live.whole]; exact h.live.conn (.inr (h.notGone hd hstop hlt))
  obtain ⟨σ'', k1, k2⟩ := Rti.might_forward hP.topology hP.down hP.start0.1 hP.start0.2 hr (hx.whole h.live.whole) hj' hq hd'
  exact h.arrive hP hM hd hF hstop (hx.trans k1) k2 fun g hg => (hx.out d).subset (List.mem_of_mem_take hg)

theorem Inv.hop (h : Inv P M x) (hP : P.Ok rank) (hM : M.Ok) {j d : Nat} {s m : Tag} {w : Int} (hc : (x.exec P).could j s)
    (hd : d < P.T.n) (hw : (j, w) ∈ P.T.up d) (hF : Fit P.T m) (hm : lf_delay_tag s w ≤ m) (hstop : m ≤ P.stop) :
    ¬ (x.exec P).passed d m ∧ (x.exec P).could d m := by
  obtain ⟨hj, hs, hfirst, hg, σ1, h1, h2, h3⟩ := hc
  have hng : (x.s.fed j).pc ≠ .gone := fun k =>
    absurd (Tag.lt_of_lt_of_le (hg k) (Tag.le_trans (Rti.le_delay w hs.1) (Tag.le_trans hm hstop))) (Tag.lt_irrefl _)
  have hcj := h.live.conn (.inr hng)
  obtain ⟨σ2, q, h4, h5⟩ := Rti.might_send hP.topology hP.down hP.start0.1 hP.start0.2 (h1.reach (h.sys hP hM)) (h1.whole h.live.whole)
    (by rw [h1.connected h.live.whole]; exact hcj) (fun k => hng (h.live.last j (h1.stays j k)).1) hj hd hw hs.1 hs.2 hF.1 hfirst h3 h2 hm
  exact h.coming hP hM hF hstop (h1.trans h4) hcj h5

/-- An event that is there is executed or to come. -/
theorem Inv.events (h : Inv P M x) (hP : P.Ok rank) (hM : M.Ok) {i : Nat} (hi : i < P.T.n) {e : Event V} (hm : Made P x i e)
    (ht : e.1 ≤ P.stop) (hF : Fit P.T e.1) :
    (∃ y, (e.1, y) ∈ x.log i ∧ y e.2.1 = some e.2.2) ∨ (¬ (x.exec P).passed i e.1 ∧ (x.exec P).could i e.1) := by
  have hl := h.loc i hi
  have hp := h.past i hi
  rcases hm with k | k | k | ⟨j, k⟩ | k | ⟨j, o, k, rfl, k2, k3⟩
  · right
    obtain ⟨k1, k2⟩ := hl.pendLater e k
    refine ⟨fun c => absurd (k2 c.2.1) (Tag.not_lt.2 c.2.2), hi, hF, Tag.le_trans hp.start k1,
      fun c => absurd c (h.notGone hi ht k2), _, .refl _,
      hl.pendNet (h.notGone hi ht k2) e k, hp.doneBefore k1 k2⟩
  · exact .inl k
  · right
    have : Down.msg e.1 ∈ (x.s.sys.rti.out i).drop (x.s.fed i).taken := by
      rw [← mem_msgs, ← h.downQ i hi]; exact List.mem_map_of_mem k
    obtain ⟨l, l', e'⟩ := List.append_of_mem this
    refine h.arrive hP hM (a := { x.s.sys with rti := { x.s.sys.rti with out := fun j => (x.s.sys.rti.out j).take (x.s.fed j).taken } }) hi hF ht
      (.refl _) ⟨l, l', ?_⟩ fun g hg => hg
    show x.s.sys.rti.out i = (x.s.sys.rti.out i).take (x.s.fed i).taken ++ l ++ _
    rw [List.append_assoc, ← e', List.take_append_drop]
  · right
    have : (i, e.1) ∈ sent (x.s.sys.up j) := by
      rw [← h.upQ]; exact List.mem_map.2 ⟨(i, e), k, rfl⟩
    obtain ⟨s, w, k1⟩ := mem_sent.1 this
    have hcj := h.live.conn (i := j) (.inl (List.ne_nil_of_mem k1))
    obtain ⟨σ', q, k2, k3⟩ := Rti.comes hP.topology hP.down hP.start0.1 hP.start0.2 (h.sys hP hM) h.live.whole hcj (fun q hq => by
        obtain ⟨q', e1, e2⟩ := (h.live.last j (by rw [hq]; simp)).2
        rw [hq] at e1
        rw [(List.append_inj' e1 rfl).1]; exact e2) (fun hm => by
        obtain ⟨q', e1, _⟩ := (h.live.last j hm).2
        exact ⟨q', e1⟩) k1
    exact h.coming hP hM hF ht k2 hcj k3
  · right
    have hx : (x.s.fed i).pc = .executing := by
      by_contra c
      rw [(hl.idle c).2] at k; cases k
    have hne : x.log i ≠ [] ∧ (x.s.fed i).cur < e.1 := by
      have hst : (x.s.fed i).started = true := by
        have hF := (h.finv hP hM hi (by rw [hx]; simp)).pc
        unfold Fedn.PcOk at hF
        rw [hx] at hF; exact hF
      obtain ⟨y, l, e'⟩ := hl.logCur hst
      refine ⟨by rw [e']; simp, ?_⟩
      have := hl.todoScheds e k
      rw [e'] at this
      exact hP.later i _ _ e this
    refine ⟨fun c => absurd hne.2 (Tag.not_lt.2 c.2.2), hi, hF, Tag.le_trans hp.start (Tag.le_of_lt hne.2),
      fun c => (by rw [hx] at c; cases c), _, .refl _,
      Tag.le_trans (hl.netCur hx) (Tag.le_of_lt hne.2), hp.doneBefore (Tag.le_of_lt hne.2) fun _ => hne.2⟩
  · right
    have hj : j < P.T.n := by
      rw [← Nat.not_le]
      intro c
      rw [(h.outside j c).2] at k; cases k
    have hlj := h.loc j hj
    have hpj := h.past j hj
    have hx : (x.s.fed j).pc = .executing := by
      by_contra c
      rw [(hlj.idle c).1] at k; cases k
    refine h.hop hP hM (j := j) (s := (x.s.fed j).cur) (w := o.delay) ⟨hj, hpj.fit, hpj.start,
      fun c => (by rw [hx] at c; cases c), _, .refl _, hlj.netCur hx, hpj.doneLt (.inr hx)⟩ hi
      (hP.dest j _ o (hlj.todoOuts o k)).2 hF ?_ ht
    rw [k2]; exact Tag.le_refl _

theorem Inv.exec (h : Inv P M x) (hP : P.Ok rank) (hM : M.Ok) : (x.exec P).Good P where
  sorted i := by
    by_cases hi : i < P.T.n
    · exact (h.loc i hi).sorted
    · show (x.log i).Pairwise _
      rw [(h.outside i (Nat.not_lt.1 hi)).1]; exact .nil
  reached i e he := by
    have he : e ∈ x.log i := he
    have hi := h.inside he
    have hl := h.loc i hi
    have hst : (x.s.fed i).started = true := by
      cases hs : (x.s.fed i).started with
      | true => rfl
      | false => rw [hl.logNil hs] at he; cases he
    refine ⟨hi, hst, ?_⟩
    obtain ⟨y, l, e'⟩ := hl.logCur hst
    have hso := hl.sorted
    rw [e'] at he hso
    rcases List.mem_cons.1 he with rfl | he
    · exact Tag.le_refl _
    · exact Tag.le_of_lt ((List.pairwise_cons.1 hso).1 e he)
  down i t u := fun ⟨h1, h2, h3⟩ hu => ⟨h1, h2, Tag.le_trans hu h3⟩
  raise i s t := fun ⟨h1, h2, h3, h3', σ, h4, h5, h6⟩ hst hF =>
    ⟨h1, hF, Tag.le_trans h3 hst, fun c => Tag.lt_of_lt_of_le (h3' c) hst, σ, h4, Tag.le_trans h5 hst, Tag.lt_of_lt_of_le h6 hst⟩
  fits i e he := ⟨h.inside he, (h.loc i (h.inside he)).within e he⟩
  first i hi := by
    have hl := h.loc i hi
    have hp := h.past i hi
    refine ⟨fun ⟨_, hs, _⟩ => ?_, fun hn => ?_⟩
    · obtain ⟨y, l, e⟩ := hl.logCur hs
      exact hl.logFirst (by rw [e]; simp)
    · have hs : (x.s.fed i).started = false := by
        cases hs : (x.s.fed i).started with
        | false => rfl
        | true => exact absurd ⟨hi, hs, hp.start⟩ hn
      have hg : (x.s.fed i).pc ≠ .gone := by
        intro k
        have := (hl.over (.inr k)).2
        rw [hs] at this; cases this
      refine ⟨hi, hP.start, Tag.le_refl _, fun c => absurd c hg, _, .refl _, (h.finv hP hM hi hg).netStart hs, ?_⟩
      have := hp.doneLt (.inl hs)
      rw [hp.fresh hs] at this; exact this
  last i hi hF := by
    have hl := h.loc i hi
    have hp := h.past i hi
    refine ⟨fun ⟨_, hs, hc⟩ => ?_, fun hn => ?_⟩
    · obtain ⟨y, l, e⟩ := hl.logCur hs
      refine ⟨y, ?_⟩
      show _ ∈ x.log i
      rw [e, Tag.le_antisymm hp.curStop hc]; exact List.mem_cons_self
    · have hlt : (x.s.fed i).started = true → (x.s.fed i).cur < P.stop := by
        intro hs
        rw [← Tag.not_le]
        intro c
        exact hn ⟨hi, hs, c⟩
      exact ⟨hi, hF, hP.stop, fun c => absurd c (h.notGone hi (Tag.le_refl _) hlt), _, .refl _, (h.finv hP hM hi (h.notGone hi (Tag.le_refl _) hlt)).netTimeout, hp.doneBefore hp.curStop hlt⟩
  events i hi t k v hG ht hF := h.events hP hM hi (e := (t, k, v)) ((h.gen i (t, k, v)).1 hG) ht hF
  origin i t y k v hy hv := (h.gen i (t, k, v)).2 (.inr (.inl ⟨y, hy, hv⟩))
  cause i t y hy := (h.loc i (h.inside hy)).cause t y hy
  hop j s d w m hc hd hw hF hm hs := h.hop hP hM hc hd hw hF hm hs

end

end ReactorC.FedDet
