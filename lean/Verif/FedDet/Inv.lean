import Verif.FedDet.Parts
import Verif.Fedn.Props

/-! What holds of every state of the execution of a federated program. -/

set_option linter.unusedVariables false

namespace ReactorC.FedDet
open ReactorC
open ReactorC.Rti (Topology Down Up Sys Sane put put_same put_other)
open ReactorC.Fedn (Config Fed State Ev Act Pc FInv)

variable {V : Type}

/-- The event is somewhere: on the event queue, executed, on the way, or yet to be sent or scheduled. -/
def Made (P : Program V) (x : St V) (i : Nat) (e : Event V) : Prop :=
  e ∈ x.pend i ∨ (∃ y, (e.1, y) ∈ x.log i ∧ y e.2.1 = some e.2.2) ∨ e ∈ x.down i ∨ (∃ j, (i, e) ∈ x.up j) ∨ e ∈ x.scheds i ∨
    ∃ j o, o ∈ x.outs j ∧ o.dest = i ∧ e = (lf_delay_tag (x.s.fed j).cur o.delay, o.port, o.val) ∧ e.1 ≤ P.stop

structure Inv (P : Program V) (M : Timing) (x : St V) : Prop where
  reach : Fedn.Reach (conf P M) x.s
  live : Live P x.s
  loc : ∀ i < P.T.n, Local P i (x.s.fed i) (x.s.sys.net i) (x.log i) (x.pend i) (x.outs i) (x.scheds i)
  past : ∀ i < P.T.n, Past P i (x.s.fed i) (x.s.sys.done i) (x.s.sys.rti.out i)
  upQ : ∀ j, (x.up j).map (fun a => (a.1, a.2.1)) = sent (x.s.sys.up j)
  downQ : ∀ j < P.T.n, (x.down j).map (·.1) = msgs ((x.s.sys.rti.out j).drop (x.s.fed j).taken)
  outside : ∀ j, P.T.n ≤ j → x.log j = [] ∧ x.outs j = []
  gen : ∀ i e, Gen P x.log i e.1 e.2.1 e.2.2 ↔ Made P x i e

/-! ## Events and what is executed -/

section
variable {P : Program V}

theorem upTo_cons_old {l : List (Entry V)} {x a : Entry V} (h : x.1 < a.1) : upTo x.1 (a :: l) = upTo x.1 l := by
  unfold upTo
  rw [List.filter_cons, if_neg]
  rw [decide_eq_true_eq]
  exact Tag.not_le.2 h

theorem upTo_cons_new {l : List (Entry V)} {a : Entry V} (h : ∀ x ∈ l, x.1 < a.1) : upTo a.1 (a :: l) = a :: l := by
  unfold upTo
  rw [List.filter_eq_self]
  intro x hx
  rw [decide_eq_true_eq]
  rcases List.mem_cons.1 hx with rfl | hx
  · exact Tag.le_refl _
  · exact Tag.le_of_lt (h x hx)

/-- What a tag that is executed adds. -/
theorem gen_enter {log : Nat → List (Entry V)} {j : Nat} {a : Entry V} (ha : ∀ x ∈ log j, x.1 < a.1) (i : Nat) (t : Tag) (k : Nat) (v : V) :
    Gen P (put log j (a :: log j)) i t k v ↔ Gen P log i t k v ∨ (i = j ∧ (t, k, v) ∈ P.scheds j (a :: log j)) ∨
      ∃ o ∈ P.outs j (a :: log j), o.dest = i ∧ (t, k, v) = (lf_delay_tag a.1 o.delay, o.port, o.val) ∧ t ≤ P.stop := by
  constructor
  · intro h
    cases h with
    | init h => exact .inl (.init h)
    | @sched _ x e hx he =>
      by_cases c : i = j
      · subst c
        rw [put_same] at hx he
        rcases List.mem_cons.1 hx with rfl | hx
        · rw [upTo_cons_new ha] at he
          exact .inr (.inl ⟨rfl, he⟩)
        · rw [upTo_cons_old (ha x hx)] at he
          exact .inl (.sched hx he)
      · rw [put_other _ _ _ c] at hx he
        exact .inl (.sched hx he)
    | @mail d x o hx ho hs =>
      by_cases c : d = j
      · subst c
        rw [put_same] at hx ho
        rcases List.mem_cons.1 hx with rfl | hx
        · rw [upTo_cons_new ha] at ho
          exact .inr (.inr ⟨o, ho, rfl, rfl, hs⟩)
        · rw [upTo_cons_old (ha x hx)] at ho
          exact .inl (.mail hx ho hs)
      · rw [put_other _ _ _ c] at hx ho
        exact .inl (.mail hx ho hs)
  · rintro (h | ⟨rfl, h⟩ | ⟨o, ho, rfl, e, hs⟩)
    · cases h with
      | init h => exact .init h
      | @sched _ x e hx he =>
        by_cases c : i = j
        · subst c
          exact .sched (x := x) (by rw [put_same]; exact List.mem_cons_of_mem _ hx) (by rw [put_same, upTo_cons_old (ha x hx)]; exact he)
        · exact .sched (x := x) (by rw [put_other _ _ _ c]; exact hx) (by rw [put_other _ _ _ c]; exact he)
      | @mail d x o hx ho hs =>
        by_cases c : d = j
        · subst c
          exact .mail (j := d) (x := x) (by rw [put_same]; exact List.mem_cons_of_mem _ hx) (by rw [put_same, upTo_cons_old (ha x hx)]; exact ho) hs
        · exact .mail (j := d) (x := x) (by rw [put_other _ _ _ c]; exact hx) (by rw [put_other _ _ _ c]; exact ho) hs
    · exact .sched (x := a) (e := (t, k, v)) (by rw [put_same]; exact List.mem_cons_self) (by rw [put_same, upTo_cons_new ha]; exact h)
    · cases e
      exact .mail (j := j) (x := a) (by rw [put_same]; exact List.mem_cons_self) (by rw [put_same, upTo_cons_new ha]; exact ho) hs

/-- Only the position of federates that have nothing to send has changed. -/
theorem made_fed {x : St V} {s : State} (h : ∀ j, (s.fed j).cur = (x.s.fed j).cur) (i : Nat) (e : Event V) :
    Made P { x with s := s } i e ↔ Made P x i e := by
  unfold Made
  dsimp only
  simp only [h]

end

/-! ## Steps -/

section
variable {P : Program V} {M : Timing} {rank : Nat → Nat}

/-- A step that a federate takes. -/
def Own : Act → Prop
  | .handle _ => False
  | .leave _ => False
  | a => Allowed a

theorem Own.allowed {a : Act} (h : Own a) : Allowed a := by
  cases a with
  | handle j => exact absurd h id
  | leave j => exact absurd h id
  | _ => exact h

theorem Own.rti {a : Act} (h : Own a) : ∀ j, a ≠ .handle j := by
  rintro j rfl; exact h

/-- A federate that is gone does nothing any more. -/
theorem stays_gone {C : Config} {s : State} {a : Act} (ha : Own a) (hp : Fedn.pre C s a) {i : Nat} (hg : (s.fed i).pc = .gone) :
    ((Fedn.post C s a).fed i).pc = .gone ∧ (Fedn.post C s a).sys.up i = s.sys.up i := by
  have fed : ∀ (j : Nat) (f : Fed), (i = j → f.pc = .gone) → (put s.fed j f i).pc = .gone := by
    intro j f h
    by_cases e : i = j
    · subst e; rw [put_same]; exact h rfl
    · rw [put_other _ _ _ e]; exact hg
  have up : ∀ (j : Nat) (q : List Up), i ≠ j → put s.sys.up j q i = s.sys.up i := fun j q h => put_other _ _ _ h
  cases a with
  | handle j => exact absurd ha id
  | closed j => exact absurd ha id
  | breaks j => exact absurd ha id
  | physical j e => exact absurd ha id
  | leave j => exact absurd ha id
  | stop t => exact absurd ha id
  | learn j t => exact absurd ha id
  | tick j t => exact ⟨fed j _ fun e => by subst e; exact hg, rfl⟩
  | begin j =>
    have hpc : (s.fed j).pc = .starting := hp.2.1
    exact ⟨fed j _ fun e => (by subst e; rw [hg] at hpc; cases hpc), rfl⟩
  | resume j =>
    refine ⟨fed j _ fun e => ?_, rfl⟩
    subst e; unfold Fedn.resume; rw [hg]; exact hg
  | advance j =>
    have hpc : (s.fed j).pc = .resting := hp.2.1
    exact ⟨fed j _ fun e => (by subst e; rw [hg] at hpc; cases hpc), rfl⟩
  | send j d w =>
    have hpc : (s.fed j).pc = .executing := hp.2.2.2.1
    refine ⟨hg, up j _ ?_⟩
    rintro rfl
    rw [hg] at hpc; cases hpc
  | schedule j δ e =>
    have hpc : (s.fed j).pc = .executing := hp.2.1
    exact ⟨fed j _ fun e => (by subst e; rw [hg] at hpc; cases hpc), rfl⟩
  | ask j =>
    by_cases c : i = j
    · subst c
      have e : Fedn.ask C i (s.fed i) = (s.fed i, none) := by unfold Fedn.ask; rw [hg]
      refine ⟨fed i _ fun _ => by rw [e]; exact hg, ?_⟩
      show (Fedn.sendNet i (Fedn.ask C i (s.fed i)).2 s.sys).up i = _
      rw [e]; rfl
    · refine ⟨fed j _ fun e => absurd e c, ?_⟩
      show (Fedn.sendNet j (Fedn.ask C j (s.fed j)).2 s.sys).up i = _
      cases (Fedn.ask C j (s.fed j)).2 with
      | none => rfl
      | some n => exact up j _ c
  | wake j =>
    by_cases c : i = j
    · subst c
      have e : Fedn.wake (s.fed i) = (s.fed i, none) := by unfold Fedn.wake; rw [hg]
      refine ⟨fed i _ fun _ => by rw [e]; exact hg, ?_⟩
      show (Fedn.sendNet i (Fedn.wake (s.fed i)).2 s.sys).up i = _
      rw [e]; rfl
    · refine ⟨fed j _ fun e => absurd e c, ?_⟩
      show (Fedn.sendNet j (Fedn.wake (s.fed j)).2 s.sys).up i = _
      cases (Fedn.wake (s.fed j)).2 with
      | none => rfl
      | some n => exact up j _ c
  | exit j =>
    have hpc : (s.fed j).pc = .ended := hp.2
    have c : i ≠ j := by
      rintro rfl
      rw [hg] at hpc; cases hpc
    refine ⟨fed j _ fun e => absurd e c, ?_⟩
    show (Fedn.sendNet j _ s.sys).up i = _
    cases Fedn.lastNet C j (s.fed j) with
    | none => rfl
    | some n => exact up j _ c
  | complete j need =>
    have hpc : (s.fed j).pc = .executing := hp.2
    have c : i ≠ j := by
      rintro rfl
      rw [hg] at hpc; cases hpc
    refine ⟨fed j _ fun e => absurd e c, ?_⟩
    show (Fedn.sendLtc j _ s.sys).up i = _
    cases (Fedn.complete need (s.fed j)).2 with
    | none => rfl
    | some n => exact up j _ c
  | take j direct need =>
    have c : i ≠ j := by
      rintro rfl
      have hfree := hp.2.1
      unfold Fed.free at hfree; rw [hg] at hfree; cases hfree
    show ((Fedn.take j direct need s).fed i).pc = _ ∧ (Fedn.take j direct need s).sys.up i = _
    unfold Fedn.take
    split
    · exact ⟨fed j _ fun e => absurd e c, rfl⟩
    · refine ⟨fed j _ fun e => absurd e c, ?_⟩
      rename_i g _
      show (Fedn.sendLtc j (Fedn.takePtag need g (s.fed j).read).2 s.sys).up i = _
      cases (Fedn.takePtag need g (s.fed j).read).2 with
      | none => rfl
      | some n => exact up j _ c
    · refine ⟨fed j _ fun e => absurd e c, ?_⟩
      dsimp only
      split
      · unfold Fedn.receive; split <;> rfl
      · rfl
    · exact ⟨hg, rfl⟩

theorem Live.keep {s s' : State} (h : Live P s) (hr : s'.sys.rti = s.sys.rti)
    (hg : ∀ i, (s.fed i).pc = .gone → (s'.fed i).pc = .gone ∧ s'.sys.up i = s.sys.up i)
    (hu : ∀ i, Up.resign ∈ s'.sys.up i → Up.resign ∈ s.sys.up i) : Live P s' := by
  refine ⟨by rw [hr]; exact h.whole, fun i => ?_, fun i hi => ?_⟩
  · rw [hr]
    rcases h.connected i with k | ⟨k0, k1, k2⟩
    · exact .inl k
    · exact .inr ⟨k0, (hg i k1).1, by rw [(hg i k1).2]; exact k2⟩
  · obtain ⟨k1, k2⟩ := h.last i (hu i hi)
    exact ⟨(hg i k1).1, by rw [(hg i k1).2]; exact k2⟩

theorem post_rti {C : Config} {s : State} {a : Act} (ha : Allowed a) (hh : ∀ j, a ≠ .handle j) :
    (Fedn.post C s a).sys.rti = s.sys.rti := by
  cases a with
  | handle j => exact absurd rfl (hh j)
  | closed j => exact absurd ha id
  | breaks j => exact absurd ha id
  | physical j e => exact absurd ha id
  | leave j => rfl
  | stop t => exact absurd ha id
  | learn j t => exact absurd ha id
  | tick j t => rfl
  | begin j => rfl
  | resume j => rfl
  | advance j => rfl
  | send j d w => rfl
  | schedule j δ e => rfl
  | ask j => exact Fedn.sendNet_rti _ _ _
  | wake j => exact Fedn.sendNet_rti _ _ _
  | exit j => exact Fedn.sendNet_rti _ _ _
  | complete j need => exact Fedn.sendLtc_rti _ _ _
  | take j direct need =>
    show (Fedn.take j direct need s).sys.rti = _
    unfold Fedn.take
    split
    · rfl
    · exact Fedn.sendLtc_rti _ _ _
    · dsimp only
      split
      · exact Fedn.receive_rti _ _ _
      · rfl
    · rfl

theorem Inv.sys {x : St V} (h : Inv P M x) (hP : P.Ok rank) (hM : M.Ok) : Rti.Reach P.T P.start x.s.sys :=
  (h.reach.inv (hP.conf hM) (conf_calm P M)).sys

theorem Inv.finv {x : St V} (h : Inv P M x) (hP : P.Ok rank) (hM : M.Ok) {i : Nat} (hi : i < P.T.n) (hg : (x.s.fed i).pc ≠ .gone) :
    FInv (conf P M) i (x.s.fed i) (x.s.sys.net i) (x.s.sys.done i) ((x.s.sys.rti.out i).take (x.s.fed i).taken) :=
  ((h.reach.inv (hP.conf hM) (conf_calm P M)).good i hi).inv hg

theorem Program.Ok.start0 (hP : P.Ok rank) : 0 ≤ P.start ∧ P.start < FOREVER := by
  rcases hP.start.1 with k | k
  · exact absurd k hP.start.2
  · exact ⟨k.1, k.2.1⟩

/-- The destination of a message that the RTI reads has not resigned. -/
theorem Inv.dest {x : St V} (h : Inv P M x) (hP : P.Ok rank) (hM : M.Ok) (i d : Nat) (t : Tag) (w : Int) (m : Tag) (q : List Up)
    (hq : x.s.sys.up i = .msg d t w m :: q) : (x.s.sys.rti.node d).connected = true ∧ (x.s.fed d).pc ≠ .gone := by
  have hc := h.live.conn (i := i) (.inl (by rw [hq]; simp))
  obtain ⟨β, hi⟩ := (h.sys hP hM).inv hP.topology hP.down hP.start0.1 hP.start0.2
  have hp := hi.pre i hc
  rw [hq] at hp
  have hd : d < P.T.n := hp.1.dest
  have hm : m ≤ P.stop := (Fedn.within (hP.conf hM) (conf_calm P M) (τ := P.stop) (fun _ _ => Tag.le_refl _) h.reach).up i d t w m
    (by rw [hq]; exact List.mem_cons_self)
  have hng : (x.s.fed d).pc ≠ .gone := by
    intro hg
    have hpast := h.past d hd
    obtain ⟨k1, k2⟩ := (h.loc d hd).over (.inr hg)
    obtain ⟨g, k3, k4⟩ := hpast.granted k2 (List.ne_nil_of_mem hp.1.conn)
    have hF : m ≠ FOREVER_TAG := by
      rintro rfl
      have hfin := hpast.fit.2
      rw [← hpast.stop, ← k1] at hm
      rcases hpast.fit.1 with c | ⟨_, c, _⟩
      · exact hfin c
      · rw [Tag.le_def] at hm
        have e1 : FOREVER_TAG.time = FOREVER := rfl
        omega
    have := Rti.coming_later hP.topology hP.down hP.start0.1 hP.start0.2 (h.sys hP hM) hc hq hF (List.mem_of_mem_take k4)
    rw [k1, hpast.stop] at k3
    exact absurd (Tag.lt_of_lt_of_le this hm) (Tag.not_lt.2 k3)
  exact ⟨h.live.conn (.inr hng), hng⟩

theorem Inv.effect {x : St V} (h : Inv P M x) (hP : P.Ok rank) (hM : M.Ok) {i : Nat} {σ' : Sys}
    (hh : Fedn.handle (conf P M) i x.s.sys = some σ') :
    σ'.net = x.s.sys.net ∧ σ'.done = x.s.sys.done ∧ Live P ⟨σ', x.s.fed⟩ ∧ (∀ j, x.s.sys.rti.out j <+: σ'.rti.out j) ∧
    ((∃ d t w m q, x.s.sys.up i = .msg d t w m :: q ∧ σ'.up = put x.s.sys.up i q ∧ d < P.T.n ∧
        (∃ l, σ'.rti.out d = x.s.sys.rti.out d ++ .msg m :: l ∧ ∀ p, Down.msg p ∉ l) ∧
        ∀ j, j ≠ d → ∃ l, σ'.rti.out j = x.s.sys.rti.out j ++ l ∧ ∀ p, Down.msg p ∉ l) ∨
      ((¬ ∃ d t w m q, x.s.sys.up i = .msg d t w m :: q) ∧ (∀ j, sent (σ'.up j) = sent (x.s.sys.up j)) ∧ Silent x.s.sys.rti σ'.rti)) :=
  handle_effect hP (h.sys hP hM) h.live (fun d t w m q hq => (h.dest hP hM i d t w m q hq).1) hh

/-- What is written stays. -/
theorem Inv.out {x : St V} (h : Inv P M x) (hP : P.Ok rank) (hM : M.Ok) {a : Act} (ha : Allowed a) (j : Nat) :
    x.s.sys.rti.out j <+: (Fedn.post (conf P M) x.s a).sys.rti.out j := by
  by_cases c : ∃ i, a = .handle i
  · obtain ⟨i, rfl⟩ := c
    unfold Fedn.post
    dsimp only
    cases hh : Fedn.handle (conf P M) i x.s.sys with
    | none => exact List.prefix_refl _
    | some σ => exact (h.effect hP hM hh).2.2.2.1 j
  · rw [post_rti ha fun i e => c ⟨i, e⟩]

theorem Inv.pastPost {x : St V} (h : Inv P M x) (hP : P.Ok rank) (hM : M.Ok) {a : Act} (ha : Allowed a) (hp : Fedn.pre (conf P M) x.s a) :
    ∀ i < P.T.n, Past P i ((Fedn.post (conf P M) x.s a).fed i) ((Fedn.post (conf P M) x.s a).sys.done i)
      ((Fedn.post (conf P M) x.s a).sys.rti.out i) := by
  intro i hi
  have hr : Fedn.Reach (conf P M) (Fedn.post (conf P M) x.s a) := .step a h.reach hp
  have hI := hr.inv (hP.conf hM) (conf_calm P M)
  by_cases hg : ((Fedn.post (conf P M) x.s a).fed i).pc = .gone
  · obtain ⟨k1, k2, k3, k4, k5⟩ := frozen (fun j σ hh => (h.effect hP hM hh).2.1) ha hp hg
    rw [k4]
    exact (h.past i hi).keep k1 k2 k3 (fun k => by rw [hg] at k; cases k) (h.out hP hM ha i) k5
  · exact Past.of hP.start0.1 ((hI.good i hi).inv hg) (hP.noPtag hI.sys i)

/-- A federate other than the one that acts. -/
theorem Inv.loc_other {x : St V} (h : Inv P M x) {fed : Nat → Fed} {net : Nat → Tag} {log : Nat → List (Entry V)} {pend : Nat → List (Event V)}
    {outs : Nat → List (Out V)} {scheds : Nat → List (Event V)} (i : Nat)
    (ho : ∀ j, j ≠ i → fed j = x.s.fed j ∧ net j = x.s.sys.net j ∧ log j = x.log j ∧ pend j = x.pend j ∧ outs j = x.outs j ∧
      scheds j = x.scheds j)
    (hi : i < P.T.n → Local P i (fed i) (net i) (log i) (pend i) (outs i) (scheds i)) :
    ∀ j < P.T.n, Local P j (fed j) (net j) (log j) (pend j) (outs j) (scheds j) := by
  intro j hj
  by_cases e : j = i
  · subst e; exact hi hj
  · obtain ⟨h1, h2, h3, h4, h5, h6⟩ := ho j e
    rw [h1, h2, h3, h4, h5, h6]
    exact h.loc j hj

theorem sent_sendNet (i : Nat) (n : Option Tag) (σ : Sys) (j : Nat) :
    sent ((Fedn.sendNet i n σ).up j) = sent (σ.up j) ∧ (Up.resign ∈ (Fedn.sendNet i n σ).up j → Up.resign ∈ σ.up j) := by
  cases n with
  | none => exact ⟨rfl, id⟩
  | some n =>
    unfold Fedn.sendNet Sys.send
    dsimp only
    by_cases e : j = i
    · subst e; rw [put_same, sent_append]
      refine ⟨by simp [sent], fun k => ?_⟩
      simpa using k
    · rw [put_other _ _ _ e]; exact ⟨rfl, id⟩

theorem sent_sendLtc (i : Nat) (n : Option Tag) (σ : Sys) (j : Nat) :
    sent ((Fedn.sendLtc i n σ).up j) = sent (σ.up j) ∧ (Up.resign ∈ (Fedn.sendLtc i n σ).up j → Up.resign ∈ σ.up j) := by
  cases n with
  | none => exact ⟨rfl, id⟩
  | some n =>
    unfold Fedn.sendLtc Sys.send
    dsimp only
    by_cases e : j = i
    · subst e; rw [put_same, sent_append]
      refine ⟨by simp [sent], fun k => ?_⟩
      simpa using k
    · rw [put_other _ _ _ e]; exact ⟨rfl, id⟩

/-- A step of one federate in which no message is sent or received and no tag is begun. -/
theorem Inv.quiet {x : St V} (h : Inv P M x) (hP : P.Ok rank) (hM : M.Ok) {a : Act} (ha : Own a)
    (hp : Fedn.pre (conf P M) x.s a) {i : Nat} {f : Fed} (hf : (Fedn.post (conf P M) x.s a).fed = put x.s.fed i f)
    (hnet : ∀ j, j ≠ i → (Fedn.post (conf P M) x.s a).sys.net j = x.s.sys.net j)
    (hup : ∀ j, sent ((Fedn.post (conf P M) x.s a).sys.up j) = sent (x.s.sys.up j) ∧
      (Up.resign ∈ (Fedn.post (conf P M) x.s a).sys.up j → Up.resign ∈ x.s.sys.up j))
    (ht : msgs ((x.s.sys.rti.out i).drop f.taken) = msgs ((x.s.sys.rti.out i).drop (x.s.fed i).taken)) (hc : f.cur = (x.s.fed i).cur)
    (hl : i < P.T.n → Local P i f ((Fedn.post (conf P M) x.s a).sys.net i) (x.log i) (x.pend i) (x.outs i) (x.scheds i)) :
    Inv P M { x with s := Fedn.post (conf P M) x.s a } := by
  have hr := post_rti (C := conf P M) (s := x.s) ha.allowed ha.rti
  refine ⟨.step a h.reach hp, h.live.keep hr (fun j hg => stays_gone ha hp hg) (fun j => (hup j).2),
    h.loc_other i (fun j hj => ⟨?_, hnet j hj, rfl, rfl, rfl, rfl⟩) (fun hi => ?_), h.pastPost hP hM ha.allowed hp,
    fun j => ?_, fun j hj => ?_, h.outside, fun j e => ?_⟩
  · rw [hf, put_other _ _ _ hj]
  · rw [hf, put_same]; exact hl hi
  · rw [h.upQ, (hup j).1]
  · rw [h.downQ j hj, hr, hf]
    by_cases e : j = i
    · subst e; rw [put_same]; exact ht.symm
    · rw [put_other _ _ _ e]
  · refine (h.gen j e).trans (made_fed (fun j' => ?_) j e).symm
    rw [hf]
    by_cases c : j' = i
    · subst c; rw [put_same]; exact hc
    · rw [put_other _ _ _ c]

theorem Inv.idle {x : St V} (h : Inv P M x) (hP : P.Ok rank) (hM : M.Ok) {a : Act} (ha : Idle a) (hp : Fedn.pre (conf P M) x.s a) :
    Inv P M { x with s := Fedn.post (conf P M) x.s a } := by
  cases a with
  | tick i t =>
    refine h.quiet hP hM trivial hp (i := i) rfl (fun j _ => rfl) (fun j => ⟨rfl, id⟩) rfl rfl fun hi => ?_
    have k := h.loc i hi
    exact k.move rfl rfl rfl rfl k.netQ (.inr ⟨rfl, Tag.le_refl _⟩) k.over
  | begin i =>
    refine h.quiet hP hM trivial hp (i := i) rfl (fun j _ => rfl) (fun j => ⟨rfl, id⟩) rfl rfl fun hi => ?_
    have k := h.loc i hi
    have hpc : (x.s.fed i).pc = .starting := hp.2.1
    exact k.move rfl rfl rfl rfl (fun _ => k.netQ (by rw [hpc]; simp)) (.inl ⟨by simp, k.idle (by rw [hpc]; simp)⟩)
      (fun c => by rcases c with c | c <;> cases c)
  | resume i =>
    have e : Fedn.resume (x.s.fed i) = x.s.fed i ∨ ∃ o, (x.s.fed i).pc = .pausing o ∧ Fedn.resume (x.s.fed i) =
        { x.s.fed i with pc := .asking o (x.s.fed i).next } := by
      unfold Fedn.resume
      cases hpc : (x.s.fed i).pc with
      | pausing o => exact .inr ⟨o, rfl, rfl⟩
      | _ => exact .inl rfl
    have ht : (Fedn.resume (x.s.fed i)).taken = (x.s.fed i).taken := by rcases e with e | ⟨o, _, e⟩ <;> rw [e]
    have hc : (Fedn.resume (x.s.fed i)).cur = (x.s.fed i).cur := by rcases e with e | ⟨o, _, e⟩ <;> rw [e]
    refine h.quiet hP hM trivial hp (i := i) rfl (fun j _ => rfl) (fun j => ⟨rfl, id⟩) (by rw [ht]) hc fun hi => ?_
    have k := h.loc i hi
    rcases e with e | ⟨o, hpc, e⟩
    · rw [e]; exact k
    · rw [e]
      exact k.move rfl rfl rfl rfl (fun _ => k.netQ (by rw [hpc]; simp)) (.inl ⟨by simp, k.idle (by rw [hpc]; simp)⟩)
        (fun c => by rcases c with c | c <;> cases c)
  | exit i =>
    refine h.quiet hP hM trivial hp (i := i) rfl (fun j hj => Fedn.sendNet_other _ _ hj)
      (fun j => sent_sendNet _ _ _ j) rfl rfl fun hi => ?_
    have k := h.loc i hi
    have hpc : (x.s.fed i).pc = .ended := hp.2
    exact k.move rfl rfl rfl rfl (fun c => absurd rfl c) (.inl ⟨by simp, k.idle (by rw [hpc]; simp)⟩) (fun _ => k.over (.inl hpc))
  | _ => exact absurd ha id

/-- The thread that advances the tag takes a step. -/
theorem Inv.mover {x : St V} (h : Inv P M x) (hP : P.Ok rank) (hM : M.Ok) {i : Nat} {a : Act} (ha : Mover i a)
    (hp : Fedn.pre (conf P M) x.s a) : i < P.T.n ∧ Own a ∧
    (Fedn.post (conf P M) x.s a).fed = put x.s.fed i ((Fedn.post (conf P M) x.s a).fed i) ∧
    (∀ j, j ≠ i → (Fedn.post (conf P M) x.s a).sys.net j = x.s.sys.net j) ∧
    (∀ j, sent ((Fedn.post (conf P M) x.s a).sys.up j) = sent (x.s.sys.up j) ∧
      (Up.resign ∈ (Fedn.post (conf P M) x.s a).sys.up j → Up.resign ∈ x.s.sys.up j)) ∧
    ((x.s.fed i).pc ≠ .executing → ((Fedn.post (conf P M) x.s a).fed i).taken = (x.s.fed i).taken ∧
      (((Fedn.post (conf P M) x.s a).fed i).pc ≠ .executing → ((Fedn.post (conf P M) x.s a).fed i).cur = (x.s.fed i).cur ∧
        Local P i ((Fedn.post (conf P M) x.s a).fed i) ((Fedn.post (conf P M) x.s a).sys.net i) (x.log i) (x.pend i) (x.outs i) (x.scheds i)) ∧
      (((Fedn.post (conf P M) x.s a).fed i).pc = .executing →
        Local P i ((Fedn.post (conf P M) x.s a).fed i) ((Fedn.post (conf P M) x.s a).sys.net i)
          ((((Fedn.post (conf P M) x.s a).fed i).cur, present ((Fedn.post (conf P M) x.s a).fed i).cur (x.pend i)) :: x.log i)
          ((x.pend i).filter fun e => decide (e.1 ≠ ((Fedn.post (conf P M) x.s a).fed i).cur))
          (P.outs i ((((Fedn.post (conf P M) x.s a).fed i).cur, present ((Fedn.post (conf P M) x.s a).fed i).cur (x.pend i)) :: x.log i))
          (P.scheds i ((((Fedn.post (conf P M) x.s a).fed i).cur, present ((Fedn.post (conf P M) x.s a).fed i).cur (x.pend i)) :: x.log i)))) := by
  have hput : ∀ f : Fed, put x.s.fed i f = put x.s.fed i (put x.s.fed i f i) := by intro f; rw [put_same]
  cases a with
  | ask j =>
    cases ha
    refine ⟨hp.1, trivial, hput _, fun j hj => Fedn.sendNet_other _ _ hj, fun j => sent_sendNet _ _ _ j, fun hx => ?_⟩
    have e2 : (Fedn.post (conf P M) x.s (.ask i)).fed i = (Fedn.ask (conf P M) i (x.s.fed i)).1 := put_same _ _ _
    have e3 : (Fedn.post (conf P M) x.s (.ask i)).sys.net i = Fedn.netAfter (Fedn.ask (conf P M) i (x.s.fed i)).2 (x.s.sys.net i) :=
      Fedn.sendNet_net _ _ _
    rw [e2, e3]
    by_cases hg : (x.s.fed i).pc = .gone
    · have e : Fedn.ask (conf P M) i (x.s.fed i) = (x.s.fed i, none) := by unfold Fedn.ask; rw [hg]
      rw [e]
      exact ⟨rfl, fun _ => ⟨rfl, h.loc i hp.1⟩, fun k => absurd k hx⟩
    · have hF := h.finv hP hM hp.1 hg
      have hgo := ask_goes (P := P) (M := M) (x.s.fed i) hF.pc hx
      obtain ⟨n1, n2⟩ := net_le hF hp.2 (fun t k hs => ask_next hF.pc k hs) ((h.loc i hp.1).netQ hg)
      obtain ⟨l1, l2⟩ := (h.loc i hp.1).goes hF hgo hx n1 n2
      refine ⟨?_, fun k => ⟨?_, l1 k⟩, l2⟩
      · rcases hgo with c | c
        · exact c.2.2.2.2.2.1
        · rw [c.1]; rfl
      · rcases hgo with c | c
        · exact c.1
        · rw [c.1]; rfl
  | wake j =>
    cases ha
    refine ⟨hp.1, trivial, hput _, fun j hj => Fedn.sendNet_other _ _ hj, fun j => sent_sendNet _ _ _ j, fun hx => ?_⟩
    have e2 : (Fedn.post (conf P M) x.s (.wake i)).fed i = (Fedn.wake (x.s.fed i)).1 := put_same _ _ _
    have e3 : (Fedn.post (conf P M) x.s (.wake i)).sys.net i = Fedn.netAfter (Fedn.wake (x.s.fed i)).2 (x.s.sys.net i) :=
      Fedn.sendNet_net _ _ _
    rw [e2, e3]
    by_cases hg : (x.s.fed i).pc = .gone
    · have e : Fedn.wake (x.s.fed i) = (x.s.fed i, none) := by unfold Fedn.wake; rw [hg]
      rw [e]
      exact ⟨rfl, fun _ => ⟨rfl, h.loc i hp.1⟩, fun k => absurd k hx⟩
    · have hF := h.finv hP hM hp.1 hg
      have hgo := wake_goes (P := P) (M := M) (x.s.fed i) hF.pc hx
      obtain ⟨n1, n2⟩ := net_le hF hp.2 (fun t k hs => by
        revert k
        unfold Fedn.wake
        split
        · split
          · intro k; cases k
          split
          · intro k; cases k; rfl
          · intro k; cases k
        · intro k; cases k) ((h.loc i hp.1).netQ hg)
      obtain ⟨l1, l2⟩ := (h.loc i hp.1).goes hF hgo hx n1 n2
      refine ⟨?_, fun k => ⟨?_, l1 k⟩, l2⟩
      · rcases hgo with c | c
        · exact c.2.2.2.2.2.1
        · rw [c.1]; rfl
      · rcases hgo with c | c
        · exact c.1
        · rw [c.1]; rfl
  | advance j =>
    cases ha
    refine ⟨hp.1, trivial, hput _, fun j hj => rfl, fun j => ⟨rfl, id⟩, fun hx => ?_⟩
    have e2 : (Fedn.post (conf P M) x.s (.advance i)).fed i = Fedn.advance (conf P M) i (x.s.fed i) := put_same _ _ _
    have e3 : (Fedn.post (conf P M) x.s (.advance i)).sys.net i = x.s.sys.net i := rfl
    rw [e2, e3]
    have hpc : (x.s.fed i).pc = .resting := hp.2.1
    have hF := h.finv hP hM hp.1 (by rw [hpc]; simp)
    obtain ⟨l1, l2⟩ := (h.loc i hp.1).advance hF rfl hpc hp.2.2.1 hp.2.2.2.1
    refine ⟨?_, fun k => ⟨?_, l1 k⟩, l2⟩
    · unfold Fedn.advance; split <;> rfl
    · revert k
      unfold Fedn.advance; split
      · intro _; rfl
      · intro k; exact absurd rfl k
  | _ => exact absurd ha id

end

end ReactorC.FedDet
