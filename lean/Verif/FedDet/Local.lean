import Verif.FedDet.Run
import Verif.FedDet.Agree
import Verif.FedDet.Hop
import Verif.Fedn.Limit

/-! What holds of one federate that executes a program. -/

set_option linter.unusedVariables false

namespace ReactorC.FedDet
open ReactorC
open ReactorC.Rti (Topology Down Up Sys Sane put put_same put_other)
open ReactorC.Fedn (Config Fed State Ev Act Pc FInv)

variable {V : Type}

/-- What holds of the federate `i` that executes a program; `net` is what it has promised to the RTI. -/
structure Local (P : Program V) (i : Nat) (f : Fed) (net : Tag) (log : List (Entry V)) (pend : List (Event V)) (outs : List (Out V))
    (scheds : List (Event V)) : Prop where
  over : f.pc = .ended ∨ f.pc = .gone → f.cur = f.stop ∧ f.started = true
  netQ : f.pc ≠ .gone → ∀ e ∈ f.q, net ≤ e.tag
  netCur : f.pc = .executing → net ≤ f.cur
  tags : f.q.map (·.tag) = pend.map (·.1)
  later : ∀ e ∈ f.q, f.cur ≤ e.tag ∧ (f.started = true → f.cur < e.tag)
  single : Single pend
  logNil : f.started = false → log = []
  logCur : f.started = true → ∃ y h, log = (f.cur, y) :: h
  logFirst : log ≠ [] → ∃ y, (P.first, y) ∈ log
  sorted : log.Pairwise fun a b => b.1 < a.1
  within : ∀ e ∈ log, P.first ≤ e.1 ∧ e.1 ≤ P.stop ∧ Fit P.T e.1
  cause : ∀ t y, (t, y) ∈ log → t = P.first ∨ t = P.stop ∨ ∃ k v, y k = some v
  idle : f.pc ≠ .executing → outs = [] ∧ scheds = []
  todoOuts : ∀ o ∈ outs, o ∈ P.outs i log
  todoScheds : ∀ e ∈ scheds, e ∈ P.scheds i log

section
variable {P : Program V} {M : Timing} {i : Nat} {f : Fed} {net : Tag} {log : List (Entry V)} {pend : List (Event V)}
  {outs : List (Out V)} {scheds : List (Event V)}

theorem Local.pendLater (h : Local P i f net log pend outs scheds) : ∀ e ∈ pend, f.cur ≤ e.1 ∧ (f.started = true → f.cur < e.1) := by
  intro e he
  have : e.1 ∈ f.q.map (·.tag) := by rw [h.tags]; exact List.mem_map_of_mem he
  obtain ⟨q, hq, k⟩ := List.mem_map.1 this
  rw [← k]; exact h.later q hq

theorem Local.pendNet (h : Local P i f net log pend outs scheds) (hg : f.pc ≠ .gone) : ∀ e ∈ pend, net ≤ e.1 := by
  intro e he
  have : e.1 ∈ f.q.map (·.tag) := by rw [h.tags]; exact List.mem_map_of_mem he
  obtain ⟨q, hq, k⟩ := List.mem_map.1 this
  rw [← k]; exact h.netQ hg q hq

/-- The federate moves on without executing anything. -/
theorem Local.move (h : Local P i f net log pend outs scheds) {f' : Fed} {net' : Tag} (hc : f'.cur = f.cur) (hs : f'.started = f.started)
    (hq : f'.q = f.q) (hst : f'.stop = f.stop) (hn : f'.pc ≠ .gone → ∀ e ∈ f.q, net' ≤ e.tag)
    (hp : (f'.pc ≠ .executing ∧ outs = [] ∧ scheds = []) ∨ (f'.pc = f.pc ∧ net' ≤ net))
    (ho : f'.pc = .ended ∨ f'.pc = .gone → f.cur = f.stop ∧ f.started = true) :
    Local P i f' net' log pend outs scheds where
  over k := by rw [hc, hst, hs]; exact ho k
  netQ k := by rw [hq]; exact hn k
  netCur k := by
    rcases hp with hp | hp
    · exact absurd k hp.1
    · rw [hc]; exact Tag.le_trans hp.2 (h.netCur (by rw [← hp.1]; exact k))
  tags := by rw [hq]; exact h.tags
  later := by rw [hq, hc, hs]; exact h.later
  single := h.single
  logNil := by rw [hs]; exact h.logNil
  logCur := by rw [hs, hc]; exact h.logCur
  logFirst := h.logFirst
  sorted := h.sorted
  within := h.within
  cause := h.cause
  idle k := by
    rcases hp with hp | hp
    · exact hp.2
    · exact h.idle (by rw [← hp.1]; exact k)
  todoOuts := h.todoOuts
  todoScheds := h.todoScheds

/-- An event is inserted. -/
theorem Local.insert (h : Local P i f net log pend outs scheds) {f' : Fed} {net' : Tag} {scheds' : List (Event V)} {ev : Ev}
    {e : Event V} (hc : f'.cur = f.cur) (hs : f'.started = f.started) (hq : f'.q = ev :: f.q) (hst : f'.stop = f.stop)
    (hp : f'.pc = f.pc) (hn : net' ≤ net) (hne : net' ≤ e.1) (he : ev.tag = e.1)
    (hl : f.cur ≤ e.1 ∧ (f.started = true → f.cur < e.1)) (hf : Fresh pend e) (hsc : ∀ a ∈ scheds', a ∈ scheds) :
    Local P i f' net' log (e :: pend) outs scheds' where
  over := by rw [hc, hst, hs, hp]; exact h.over
  netQ k a ha := by
    rw [hq] at ha
    rcases List.mem_cons.1 ha with rfl | ha
    · rw [he]; exact hne
    · exact Tag.le_trans hn (h.netQ (by rw [← hp]; exact k) a ha)
  netCur k := by rw [hc]; exact Tag.le_trans hn (h.netCur (by rw [← hp]; exact k))
  tags := by rw [hq, List.map_cons, List.map_cons, h.tags, he]
  later a ha := by
    rw [hq] at ha
    rw [hc, hs]
    rcases List.mem_cons.1 ha with rfl | ha
    · rw [he]; exact hl
    · exact h.later a ha
  single := by
    unfold Single
    rw [List.map_cons, List.nodup_cons]
    refine ⟨fun k => ?_, h.single⟩
    obtain ⟨a, ha, ka⟩ := List.mem_map.1 k
    exact hf a ha ka
  logNil := by rw [hs]; exact h.logNil
  logCur := by rw [hs, hc]; exact h.logCur
  logFirst := h.logFirst
  sorted := h.sorted
  within := h.within
  cause := h.cause
  idle k := by
    obtain ⟨h1, h2⟩ := h.idle (by rw [← hp]; exact k)
    refine ⟨h1, List.eq_nil_iff_forall_not_mem.2 fun a ha => ?_⟩
    have := hsc a ha
    rw [h2] at this; cases this
  todoOuts := h.todoOuts
  todoScheds a ha := h.todoScheds a (hsc a ha)

theorem present_some {t : Tag} {l : List (Event V)} {k : Nat} {v : V} (h : present t l k = some v) : (t, k, v) ∈ l := by
  unfold present at h
  rw [Option.map_eq_some_iff] at h
  obtain ⟨e, he, hv⟩ := h
  have h1 := List.mem_of_find?_eq_some he
  have h2 := List.find?_some he
  rw [decide_eq_true_eq] at h2
  obtain ⟨a, b, c⟩ := e
  obtain ⟨rfl, rfl⟩ := h2
  dsimp only at hv
  rw [← hv]; exact h1

theorem present_of {l : List (Event V)} (hs : Single l) {e : Event V} (he : e ∈ l) : present e.1 l e.2.1 = some e.2.2 := by
  unfold present
  have : l.find? (fun e' => decide (e'.1 = e.1 ∧ e'.2.1 = e.2.1)) = some e := by
    unfold Single at hs
    induction l with
    | nil => cases he
    | cons a l ih =>
      rw [List.map_cons, List.nodup_cons] at hs
      rcases List.mem_cons.1 he with rfl | he
      · rw [List.find?_cons_of_pos (by simp)]
      · rw [List.find?_cons_of_neg, ih hs.2 he]
        rw [decide_eq_true_eq]
        intro k
        exact hs.1 (List.mem_map.2 ⟨e, he, by rw [k.1, k.2]⟩)
  rw [this]; rfl

/-- The federate gets to a tag. -/
theorem Local.enter (h : Local P i f net log pend outs scheds) {f' : Fed} {net' : Tag} (hs : f'.started = true) (hp : f'.pc = .executing)
    (hq : f'.q = f.q.filter fun e => decide (e.tag ≠ f'.cur)) (hn : net' ≤ f'.cur)
    (hl : (f.started = false ∧ f'.cur = P.first) ∨ (f.started = true ∧ f.cur < f'.cur)) (hm : ∀ e ∈ f.q, f'.cur ≤ e.tag)
    (hw : P.first ≤ f'.cur ∧ f'.cur ≤ P.stop ∧ Fit P.T f'.cur)
    (hc : f'.cur = P.first ∨ f'.cur = P.stop ∨ ∃ e ∈ f.q, e.tag = f'.cur) :
    Local P i f' net' ((f'.cur, present f'.cur pend) :: log) (pend.filter fun e => decide (e.1 ≠ f'.cur))
      (P.outs i ((f'.cur, present f'.cur pend) :: log)) (P.scheds i ((f'.cur, present f'.cur pend) :: log)) where
  over k := by rw [hp] at k; rcases k with k | k <;> cases k
  netQ _ e he := by
    rw [hq, List.mem_filter] at he
    exact Tag.le_trans hn (hm e he.1)
  netCur _ := hn
  tags := by
    rw [hq]
    have e1 : (f.q.filter fun e => decide (e.tag ≠ f'.cur)).map (·.tag) = (f.q.map (·.tag)).filter fun t => decide (t ≠ f'.cur) := by
      rw [List.filter_map]; rfl
    have e2 : (pend.filter fun e => decide (e.1 ≠ f'.cur)).map (·.1) = (pend.map (·.1)).filter fun t => decide (t ≠ f'.cur) := by
      rw [List.filter_map]; rfl
    rw [e1, e2, h.tags]
  later e he := by
    rw [hq, List.mem_filter, decide_eq_true_eq] at he
    refine ⟨hm e he.1, fun _ => ?_⟩
    rcases Tag.lt_or_eq_of_le (hm e he.1) with k | k
    · exact k
    · exact absurd k.symm he.2
  single := h.single.sublist (List.Sublist.map _ List.filter_sublist)
  logNil k := by rw [hs] at k; cases k
  logCur _ := ⟨_, _, rfl⟩
  logFirst _ := by
    rcases hl with ⟨h1, h2⟩ | ⟨h1, h2⟩
    · rw [h2]; exact ⟨_, List.mem_cons_self⟩
    · obtain ⟨y, l, e⟩ := h.logCur h1
      obtain ⟨z, hz⟩ := h.logFirst (by rw [e]; simp)
      exact ⟨z, List.mem_cons_of_mem _ hz⟩
  sorted := by
    rw [List.pairwise_cons]
    refine ⟨fun a ha => ?_, h.sorted⟩
    show a.1 < f'.cur
    rcases hl with ⟨h1, h2⟩ | ⟨h1, h2⟩
    · rw [h.logNil h1] at ha; cases ha
    · obtain ⟨y, l, e⟩ := h.logCur h1
      have hso := h.sorted
      rw [e] at ha hso
      rcases List.mem_cons.1 ha with rfl | ha
      · exact h2
      · exact Tag.lt_trans ((List.pairwise_cons.1 hso).1 a ha) h2
  within e he := by
    rcases List.mem_cons.1 he with rfl | he
    · exact hw
    · exact h.within e he
  cause t y hy := by
    rcases List.mem_cons.1 hy with k | hy
    · cases k
      rcases hc with k | k | ⟨e, he, k⟩
      · exact .inl k
      · exact .inr (.inl k)
      · have : e.tag ∈ pend.map (·.1) := by rw [← h.tags]; exact List.mem_map_of_mem he
        obtain ⟨a, ha, ka⟩ := List.mem_map.1 this
        have := present_of h.single ha
        rw [ka, k] at this
        exact .inr (.inr ⟨_, _, this⟩)
    · exact h.cause t y hy
  idle k := absurd hp k
  todoOuts o ho := ho
  todoScheds e he := he

/-! ## Steps of the thread that advances the tag -/

/-- The federate has moved on without executing anything, or gets to its first tag. -/
def Goes (f f' : Fed) : Prop :=
  (f'.cur = f.cur ∧ f'.started = f.started ∧ f'.q = f.q ∧ f'.stop = f.stop ∧ f'.pc ≠ .executing ∧ f'.taken = f.taken ∧
    (f'.pc = .ended ∨ f'.pc = .gone → f'.pc = f.pc)) ∨
  (f' = { f.pop with pc := .executing, started := true } ∧ f.started = false)

theorem ret_goes (f : Fed) {orig : Option Tag} (g : Tag) (ho : Fedn.OrigOk f orig) : Goes f (f.ret orig g) := by
  unfold Fed.ret
  cases orig with
  | none => exact .inr ⟨rfl, ho⟩
  | some o =>
    left
    dsimp only
    split
    · exact ⟨rfl, rfl, rfl, rfl, by simp, rfl, fun k => by rcases k with k | k <;> cases k⟩
    · exact ⟨rfl, rfl, rfl, rfl, by simp, rfl, fun k => by rcases k with k | k <;> cases k⟩

theorem no_physical (P : Program V) (M : Timing) (i : Nat) : Fedn.physical (conf P M) i = false := by
  unfold Fedn.physical; simp [conf]

theorem ask_goes (f : Fed) (hpc : Fedn.PcOk (conf P M) i f) (hx : f.pc ≠ .executing) : Goes f (Fedn.ask (conf P M) i f).1 := by
  have stay : Goes f f := .inl ⟨rfl, rfl, rfl, rfl, hx, rfl, fun _ => rfl⟩
  unfold Fedn.ask
  cases hp : f.pc with
  | asking orig tag =>
    have ho : Fedn.OrigOk f orig := by
      unfold Fedn.PcOk at hpc
      rw [hp] at hpc
      cases orig with
      | none => exact hpc.1
      | some o => exact ⟨hpc.1, hpc.2.1⟩
    dsimp only
    split
    · exact ret_goes f _ ho
    split
    · exact ret_goes f _ ho
    split
    · rename_i k
      unfold Fedn.bounded at k
      rw [no_physical] at k; cases k
    split
    · exact .inl ⟨rfl, rfl, rfl, rfl, by simp, rfl, fun k => by rcases k with k | k <;> cases k⟩
    · exact ret_goes f _ ho
  | executing => exact absurd hp hx
  | _ => exact stay

theorem wake_goes (f : Fed) (hpc : Fedn.PcOk (conf P M) i f) (hx : f.pc ≠ .executing) : Goes f (Fedn.wake f).1 := by
  have stay : Goes f f := .inl ⟨rfl, rfl, rfl, rfl, hx, rfl, fun _ => rfl⟩
  unfold Fedn.wake
  cases hp : f.pc with
  | waiting orig tag =>
    have ho : Fedn.OrigOk f orig := by
      unfold Fedn.PcOk at hpc
      rw [hp] at hpc
      cases orig with
      | none => exact hpc.1
      | some o => exact ⟨hpc.1, hpc.2.1⟩
    dsimp only
    split
    · exact ret_goes f _ ho
    split <;> exact stay
  | executing => exact absurd hp hx
  | _ => exact stay

/-- What is promised with a next event tag is not later than any event. -/
theorem net_le {n : Option Tag} {done : Tag} {l : List Down} (h : FInv (conf P M) i f net done l)
    (hk : Fedn.NetOk (conf P M) i f n) (hn : ∀ t, n = some t → f.started = true → t = f.next) (hq : ∀ e ∈ f.q, net ≤ e.tag) :
    (∀ e ∈ f.q, Fedn.netAfter n net ≤ e.tag) ∧ (f.started = false → Fedn.netAfter n net ≤ f.cur) := by
  cases n with
  | none => exact ⟨hq, fun k => by rw [h.first k]; exact h.netStart k⟩
  | some n =>
    have hs : f.started = false → n = f.cur := by
      intro k
      rcases hk.2.1 with c | c | c
      · cases c
      · rw [k] at c; cases c
      · exact c
    refine ⟨fun e he => Fedn.later_le ?_ (hq e he), fun k => Fedn.later_le ?_ ?_⟩
    · cases hst : f.started with
      | true => rw [hn n rfl hst]; exact Fedn.next_le he
      | false => rw [hs hst]; exact (h.q e he).1
    · rw [hs k]; exact Tag.le_refl _
    · rw [h.first k]; exact h.netStart k

theorem ask_next {t : Tag} (hpc : Fedn.PcOk (conf P M) i f) (h : (Fedn.ask (conf P M) i f).2 = some t) (hs : f.started = true) :
    t = f.next := by
  obtain ⟨o, hp⟩ := Fedn.ask_some h
  unfold Fedn.PcOk at hpc
  rw [hp] at hpc
  cases o with
  | none => rw [hpc.1] at hs; cases hs
  | some o => exact hpc.2.2

/-- Where the thread that advances the tag is after a step. -/
theorem Local.goes (h : Local P i f net log pend outs scheds) {f' : Fed} {net' done : Tag} {l : List Down}
    (hi : FInv (conf P M) i f net done l) (hg : Goes f f') (hx : f.pc ≠ .executing) (hn : ∀ e ∈ f.q, net' ≤ e.tag)
    (hn0 : f.started = false → net' ≤ f.cur) :
    (f'.pc ≠ .executing → Local P i f' net' log pend outs scheds) ∧
    (f'.pc = .executing → Local P i f' net' ((f'.cur, present f'.cur pend) :: log) (pend.filter fun e => decide (e.1 ≠ f'.cur))
      (P.outs i ((f'.cur, present f'.cur pend) :: log)) (P.scheds i ((f'.cur, present f'.cur pend) :: log))) := by
  rcases hg with ⟨h1, h2, h3, h4, h5, _, h6⟩ | ⟨rfl, hst⟩
  · refine ⟨fun _ => h.move h1 h2 h3 h4 (fun _ => hn) (.inl ⟨h5, h.idle hx⟩) (fun k => h.over ?_), fun k => absurd k h5⟩
    rw [← h6 k]; exact k
  · refine ⟨fun k => absurd rfl k, fun _ => ?_⟩
    have hcur : f.cur = P.first := hi.first hst
    exact h.enter rfl rfl rfl (hn0 hst) (.inl ⟨hst, hcur⟩) (fun e he => (hi.q e he).1)
      ⟨hi.start, Tag.le_trans hi.curStop hi.stopTimeout, hi.sane, hi.finite⟩ (.inl hcur)

/-- The federate advances to its next tag. -/
theorem Local.advance (h : Local P i f net log pend outs scheds) {f' : Fed} {done : Tag} {l : List Down}
    (hi : FInv (conf P M) i f net done l) (hf' : Fedn.advance (conf P M) i f = f') (hp : f.pc = .resting) (hsane : Sane P.T f.next)
    (hF : f.next ≠ FOREVER_TAG) :
    (f'.pc ≠ .executing → Local P i f' net log pend outs scheds) ∧
    (f'.pc = .executing → Local P i f' net ((f'.cur, present f'.cur pend) :: log) (pend.filter fun e => decide (e.1 ≠ f'.cur))
      (P.outs i ((f'.cur, present f'.cur pend) :: log)) (P.scheds i ((f'.cur, present f'.cur pend) :: log))) := by
  have hpc := hi.pc
  unfold Fedn.PcOk at hpc
  rw [hp] at hpc
  have hst := hpc.1
  have hstop : f.stop = P.stop := hi.stops rfl
  unfold Fedn.advance at hf'
  split at hf'
  · rename_i k
    simp only [ge_iff_le, cmp_ge_zero] at k
    subst hf'
    refine ⟨fun _ => h.move rfl rfl rfl rfl (fun _ => h.netQ (by rw [hp]; simp)) (.inl ⟨by simp, h.idle (by rw [hp]; simp)⟩)
      (fun _ => ⟨Tag.le_antisymm hi.curStop k.2, hst⟩), fun k => by cases k⟩
  · rename_i hne
    simp only [ge_iff_le, cmp_ge_zero] at hne
    have hlt : f.cur < f.next := by
      rcases Fedn.next_cases f with k | ⟨e, he, k⟩
      · rw [k]
        rw [← Tag.not_le]
        intro c
        exact hne ⟨by rw [k]; exact Tag.le_refl _, c⟩
      · rw [k]; exact (hi.q e he).2 hst
    subst hf'
    refine ⟨fun k => absurd rfl k, fun _ => ?_⟩
    have hnet : net ≤ f.next := by
      rcases Fedn.next_cases f with k | ⟨e, he, k⟩
      · rw [k, hstop]; exact hi.netTimeout
      · rw [k]; exact h.netQ (by rw [hp]; simp) e he
    refine h.enter hst rfl rfl hnet (.inr ⟨hst, hlt⟩) (fun e he => Fedn.next_le he)
      ⟨Tag.le_trans hi.start (Tag.le_of_lt hlt), by rw [← hstop]; exact Fedn.next_le_stop f, hsane, hF⟩ ?_
    rcases Fedn.next_cases f with k | ⟨e, he, k⟩
    · exact .inr (.inl (k.trans hstop))
    · exact .inr (.inr ⟨e, he, k.symm⟩)

/-! ## Past and future -/

/-- What holds of every federate, also of one that is gone; `done` is the last tag that it has reported complete, `out` what the RTI has
written to it. -/
structure Past (P : Program V) (i : Nat) (f : Fed) (done : Tag) (out : List Down) : Prop where
  stop : f.stop = P.stop
  start : P.first ≤ f.cur
  fresh : f.started = false → f.cur = P.first
  curStop : f.cur ≤ P.stop
  fit : Fit P.T f.cur
  doneLe : done ≤ f.cur
  doneLt : f.started = false ∨ f.pc = .executing → done < f.cur
  granted : f.started = true → P.T.up i ≠ [] → ∃ g, f.cur ≤ g ∧ Down.tag g ∈ out.take f.taken

theorem Past.of (h0 : 0 ≤ P.start) {f : Fed} {done : Tag} {out : List Down} (h : FInv (conf P M) i f net done (out.take f.taken))
    (hN : ∀ g, Down.ptag g ∉ out) : Past P i f done out where
  stop := h.stops rfl
  start := h.start
  fresh := h.first
  curStop := Tag.le_trans h.curStop h.stopTimeout
  fit := ⟨h.sane, h.finite⟩
  doneLe := by rw [h.ltc]; exact h.ltcLe
  doneLt k := by rw [h.ltc]; exact h.ltcLt k
  granted k1 k2 := by
    have hl := h.granted k1 (Fedn.hasUp_iff.2 k2)
    refine ⟨_, hl, ?_⟩
    rcases h.last with c | ⟨_, c⟩ | ⟨_, c⟩
    · exfalso
      rw [c] at hl
      have := h.start
      have h1 : (conf P M).start = P.start := rfl
      rw [h1] at this
      have hN : NEVER_TAG.time = -9223372036854775808 := rfl
      tag_omega
    · exact c
    · exact absurd (List.mem_of_mem_take c) (hN _)

/-- A federate that is gone stays as it is. -/
theorem Past.keep {f f' : Fed} {done : Tag} {out out' : List Down} (h : Past P i f done out) (h1 : f'.cur = f.cur) (h2 : f'.stop = f.stop)
    (h3 : f'.started = f.started) (h4 : f'.pc = .executing → f.pc = .executing) (h5 : out <+: out') (h6 : f.taken ≤ f'.taken) : Past P i f' done out' where
  stop := by rw [h2]; exact h.stop
  start := by rw [h1]; exact h.start
  fresh := by rw [h3, h1]; exact h.fresh
  curStop := by rw [h1]; exact h.curStop
  fit := by rw [h1]; exact h.fit
  doneLe := by rw [h1]; exact h.doneLe
  doneLt k := by
    rw [h1]; rw [h3] at k
    exact h.doneLt (k.imp id h4)
  granted := by
    rw [h3, h1]
    intro k1 k2
    obtain ⟨g, hg, hm⟩ := h.granted k1 k2
    refine ⟨g, hg, ?_⟩
    obtain ⟨l, rfl⟩ := h5
    rw [List.take_append]
    exact List.mem_append_left _ ((List.take_prefix_take_left h6).subset hm)

end

end ReactorC.FedDet
