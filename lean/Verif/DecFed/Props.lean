import Verif.DecFed.Exec
import Verif.DecFed.Runs
import Verif.FedDet.EndProps

/-!
# C76: a federation with decentralized coordination computes what the program says, if the offsets are large enough

A federated program (`Program`, Verif.FedDet.Spec) is executed by federates that coordinate with each other directly (`Reach`,
Verif.DecFed.Model): clocks, threads and connections take their steps in any order, within the bounds of the setup.  `g.log i` is what federate `i`
has executed: the tags, the latest one first, and what is present at each of them.  `Setup.Ok` says that the STA and STAA offsets
cover these bounds.
-/

namespace ReactorC.DecFed
open ReactorC
open ReactorC.Rti (Topology put)
open ReactorC.FedDet (Program Entry Event Inputs Out Fit Single present upTo Seq Done Exec mem_dues)
open ReactorC.Level (Config MIN_SLEEP_DURATION)

section
variable {S S' : Setup} {rank : Nat → Nat} {g g' : State}

/-- Delays belong to ports. -/
theorem Setup.Ok.same_delay (hS : S.Ok rank) : ∀ j j' h h', ∀ o ∈ S.P.outs j h, ∀ o' ∈ S.P.outs j' h', o'.dest = o.dest → o'.port = o.port → o'.delay = o.delay := by
  intro j j' h h' o ho o' ho' e1 e2
  rw [(hS.outs j h o ho).2.2, (hS.outs j' h' o' ho').2.2, e1, e2]

theorem seq_weak (hS : S.Ok rank) {s : Seq Nat} (hs : Seq.Reach S.P rank s) : (s.toExec S.P rank).Weak S.P :=
  ((hs.inv hS.prog).exec hS.prog).weak hS.prog (hs.rising hS.prog hS.same_delay)

/-- What a federate has executed is the beginning of what it executes in an execution that is done. -/
theorem weak_within {P : Program Nat} (hP : P.Ok rank) {A B : Exec Nat} (hA : A.Weak P) (hB : B.Weak P) {i : Nat} (h : ∀ u, B.passed i u) :
    A.log i <:+ B.log i := by
  cases ha : A.log i with
  | nil => exact List.nil_suffix
  | cons a l =>
    have e := FedDet.weak_agree hP hA hB (hA.reached i a (by rw [ha]; exact List.mem_cons_self)) (h a.1)
    have hso := hA.sorted i
    rw [ha] at hso e
    rw [FedDet.upTo_all] at e
    · rw [e]; exact FedDet.upTo_suffix (hB.sorted i) _
    · intro x hx
      rcases List.mem_cons.1 hx with rfl | hx
      · exact Tag.le_refl _
      · exact Tag.le_of_lt ((List.pairwise_cons.1 hso).1 x hx)

/-- **C76** No message is processed late, or changed: what the reactions of a federate find at a port, they find at the tag that the message has, and the
federate that the port is connected to has sent it. -/
theorem C76_no_message_is_tardy_partial (hS : S.Ok rank) (h : Reach S g) {i : Nat} (hi : i < S.P.T.n) {d : Decentral.Delivery}
    (hd : d ∈ (g.fed i).out) : d.late = false ∧ d.at_ = d.intended ∧
      ∃ j u x, (u, x) ∈ g.log j ∧ ∃ o ∈ S.P.outs j ((g.log j).filter fun e => decide (e.1 ≤ u)),
        o.dest = i ∧ o.port = d.port ∧ o.val = d.val ∧ d.intended = lf_delay_tag u o.delay := by
  have hI := h.inv hS
  have L := hI.fed i hi
  obtain ⟨hG, -, hD⟩ := L.timely hS hi
  obtain ⟨e1, -, e3⟩ := hD.out d hd
  have hl : d.late = false := by
    cases e : d.late with
    | false => rfl
    | true =>
      have := (hG.out d hd).2.1.1 e
      rw [e1] at this; exact absurd this (Tag.lt_irrefl _)
  obtain ⟨u, k⟩ := (hI.chan i hi d.port (L.out d hd).1).got _ _ e3
  obtain ⟨-, x, hx, o, ho, o1, o2, o3⟩ := k.msg _ rfl
  have o4 := (hS.outs _ _ o ho).2.2
  rw [o1, o2] at o4
  exact ⟨hl, e1, _, u, x, hx, o, ho, o1, o2, o3, by rw [o4]; exact k.tag⟩

/-- **C76** No message is lost: a federate that is done with the tag of a message has executed this tag, with the message. -/
theorem C76_every_message_arrives_partial (hS : S.Ok rank) (h : Reach S g) {j : Nat} {u : Tag} {x : Inputs Nat} (hx : (u, x) ∈ g.log j)
    {o : Out Nat} (ho : o ∈ S.P.outs j ((g.log j).filter fun e => decide (e.1 ≤ u))) (hF : Fit S.P.T (lf_delay_tag u o.delay))
    (hstop : lf_delay_tag u o.delay ≤ S.P.stop) (hr : (g.fed o.dest).lv.phase = .running)
    (hp : lf_delay_tag u o.delay < (g.fed o.dest).lv.cur ∨ lf_delay_tag u o.delay = (g.fed o.dest).lv.cur ∧ g.fin o.dest = true) :
    ∃ y, (lf_delay_tag u o.delay, y) ∈ g.log o.dest ∧ y o.port = some o.val := by
  have hE := (h.inv hS).exec hS
  have hd := (hS.prog.dest j _ o ho).1
  rcases hE.events o.dest hd _ _ _ (FedDet.Gen.mail (P := S.P) (log := (g.exec S).log) (x := (u, x)) hx ho hstop) hstop hF with k | k
  · exact k
  · exact absurd (show (g.exec S).passed o.dest (lf_delay_tag u o.delay) from ⟨hd, hr, hp⟩) k.1

/-- **C76** Two federations that execute the same program, with whatever offsets, bounds, clocks, latencies and interleavings, as long as the offsets
cover the bounds: what a federate has executed in one is the beginning of what it has executed in the other. -/
theorem C76_results_do_not_depend_on_timing_partial (hP : S'.P = S.P) (hS : S.Ok rank) (hS' : S'.Ok rank) (h : Reach S g) (h' : Reach S' g') (i : Nat) :
    g.log i <:+ g'.log i ∨ g'.log i <:+ g.log i := by
  have hE' := (h'.inv hS').exec hS'
  rw [hP] at hE'
  exact FedDet.weak_comparable hS.prog ((h.inv hS).exec hS) hE' i

/-- **C76** At a tag that a federate is done with in both, it has executed the same up to this tag. -/
theorem C76_same_up_to_a_tag_partial (hP : S'.P = S.P) (hS : S.Ok rank) (hS' : S'.Ok rank) (h : Reach S g) (h' : Reach S' g') {i : Nat}
    (hi : i < S.P.T.n) {t : Tag} (h1 : (g.fed i).lv.phase = .running ∧ t < (g.fed i).lv.cur) (h2 : (g'.fed i).lv.phase = .running ∧ t < (g'.fed i).lv.cur) :
    (g.log i).filter (fun e => decide (e.1 ≤ t)) = (g'.log i).filter (fun e => decide (e.1 ≤ t)) := by
  have hE' := (h'.inv hS').exec hS'
  have p' : (g'.exec S').passed i t := ⟨by rw [hP]; exact hi, h2.1, .inl h2.2⟩
  rw [hP] at hE'
  exact FedDet.weak_agree hS.prog ((h.inv hS).exec hS) hE' (i := i) (t := t) ⟨hi, h1.1, .inl h1.2⟩ p'

/-- **C76** What the federation executes is what the sequential execution of the program says, in which there is no network, no clock and no
thread: the one is the beginning of the other. -/
theorem C76_federation_computes_the_program_partial (hS : S.Ok rank) (h : Reach S g) {s : Seq Nat} (hs : Seq.Reach S.P rank s) (i : Nat) :
    g.log i <:+ s.log i ∨ s.log i <:+ g.log i :=
  FedDet.weak_comparable hS.prog ((h.inv hS).exec hS) (seq_weak hS hs) i

/-- **C76** A federate that has executed the stop tag has executed all that the sequential execution says, and nothing else. -/
theorem C76_federation_computes_all_partial (hS : S.Ok rank) (h : Reach S g) {s : Seq Nat} (hs : Seq.Reach S.P rank s) (h2 : ∀ j u, ¬ s.Due S.P j u)
    {i : Nat} (hi : i < S.P.T.n) (hr : (g.fed i).lv.phase = .running) (hc : (g.fed i).lv.cur = S.P.stop) (hf : g.fin i = true) : g.log i = s.log i :=
  FedDet.weak_equal hS.prog ((h.inv hS).exec hS) (seq_weak hS hs) (i := i) ⟨hi, hr, .inr ⟨hc.symm, hf⟩⟩ fun j u k => absurd k (h2 j u)

/-- **C76** The same program with centralized coordination, that is, with the RTI: what a federate has executed with the one kind of coordination is the
beginning of what it has executed with the other. -/
theorem C76_same_as_with_the_RTI_partial (hS : S.Ok rank) (h : Reach S g) {s : Seq Nat} (hs : Done S.P rank s) {M : FedDet.Timing} (hM : M.Ok)
    {x : FedDet.St Nat} (hx : FedDet.Reach S.P M x) (i : Nat) : g.log i <:+ x.log i ∨ x.log i <:+ g.log i := by
  have hI := hx.inv hS.prog hM
  have hp : ∀ u, (s.toExec S.P rank).passed i u := fun u j u k => absurd k (hs.2 j u)
  have e1 := weak_within hS.prog ((h.inv hS).exec hS) (seq_weak hS hs.1) hp
  have e2 : x.log i <:+ s.log i := by
    rcases FedDet.comparable hS.prog (hI.exec hS.prog hM) ((hs.1.inv hS.prog).exec hS.prog) i with k | k
    · exact k
    · cases ha : x.log i with
      | nil => exact List.nil_suffix
      | cons a l =>
        have hG := hI.exec hS.prog hM
        have hso := hG.sorted i
        have e := FedDet.agree hS.prog hG ((hs.1.inv hS.prog).exec hS.prog) (hG.reached i a (show a ∈ x.log i by rw [ha]; exact List.mem_cons_self)) (hp a.1)
        change (x.log i).Pairwise _ at hso
        change upTo a.1 (x.log i) = upTo a.1 (s.log i) at e
        rw [ha] at hso e
        rw [FedDet.upTo_all] at e
        · rw [e]; exact FedDet.upTo_suffix ((seq_weak hS hs.1).sorted i) _
        · intro y hy
          rcases List.mem_cons.1 hy with rfl | hy
          · exact Tag.le_refl _
          · exact Tag.le_of_lt ((List.pairwise_cons.1 hso).1 y hy)
  exact List.suffix_or_suffix_of_suffix e1 e2

end

/-! ## The hypotheses are met -/

theorem ping_prog : ping.Ok pingRank := by
  refine ⟨⟨by decide, fun i u w h => ?_, fun i u w h => ?_⟩, fun i j h => ?_, by decide, by decide, fun i h o ho => ?_, fun i x h e he => ?_,
    fun i e he => ?_, fun d i w h hw => ?_⟩
  · simp only [ping, pingT] at h ⊢
    split at h
    · simp at h; omega
    · split at h
      · simp at h; omega
      · cases h
  · have : ∀ x ∈ ([2000000, NEVER] : List Int), IsI64 x := by decide
    refine this w ?_
    simp only [ping, pingT] at h
    split at h
    · simp at h; simp; omega
    · split at h
      · simp at h; simp; omega
      · cases h
  · simp only [ping, pingT] at h ⊢
    split at h
    · simp at h; omega
    · split at h
      · simp at h; omega
      · cases h
  · simp only [ping] at ho
    split at ho
    · rename_i k
      subst k
      rw [List.mem_singleton.1 ho]; exact ⟨(by decide : 1 < 2), (by decide : ((0 : Nat), NEVER) ∈ ping.T.up 1)⟩
    split at ho
    · rename_i _ k
      subst k
      split at ho
      · split at ho
        · rw [List.mem_singleton.1 ho]; exact ⟨(by decide : 0 < 2), (by decide : ((1 : Nat), (2000000 : Int)) ∈ ping.T.up 0)⟩
        · cases ho
      · cases ho
    · cases ho
  · simp only [ping] at he
    split at he
    · rename_i t y k
      split at he
      · rename_i c
        rw [List.mem_singleton.1 he, (List.cons.inj k).1]; exact c.2
      · cases he
    · cases he
  · simp only [ping] at he
    split at he
    · rw [List.mem_singleton.1 he]; decide
    · cases he
  · simp only [ping, pingT] at h
    unfold pingRank
    split at h
    · simp at h; omega
    · split at h
      · simp at h; omega
      · cases h

theorem ping_outs {i : Nat} {h : List (Entry Nat)} {o : Out Nat} (ho : o ∈ ping.outs i h) :
    (i = 0 ∧ o.dest = 1 ∧ o.port = 0 ∧ o.delay = NEVER) ∨ (i = 1 ∧ o.dest = 0 ∧ o.port = 0 ∧ o.delay = 2000000) := by
  simp only [ping] at ho
  split at ho
  · rename_i k
    rw [List.mem_singleton.1 ho]; exact .inl ⟨k, rfl, rfl, rfl⟩
  split at ho
  · rename_i _ k
    split at ho
    · split at ho
      · rw [List.mem_singleton.1 ho]; exact .inr ⟨k, rfl, rfl, rfl⟩
      · cases ho
    · cases ho
  · cases ho

theorem ping_single (i : Nat) : Single (ping.init i) := by
  simp only [ping]
  split
  · exact List.nodup_singleton _
  · exact List.nodup_nil

/-- The offsets cover the bounds: 100 + 300 + 200 + 10 microseconds to federate 1. -/
theorem ping_ok {sta lag1 : Int} (h1 : 610000 ≤ sta) (h2 : sta ≤ lag1) (h3 : lag1 + 510000 ≤ 2000000) : (pingS sta lag1).Ok pingRank where
  prog := ping_prog
  stop := (by decide : ping.stop.time ≤ FOREVER)
  wf i hi := by
    have hi2 : i = 0 ∨ i = 1 := by have : i < 2 := hi; omega
    have hN : NEVER = -9223372036854775808 := rfl
    have hF : FOREVER = 9223372036854775807 := rfl
    rcases hi2 with rfl | rfl
    · refine ⟨⟨?_, ?_, ?_, ?_, ?_⟩, rfl, rfl, ?_, fun p _ => ?_⟩ <;> simp [pingS] <;> omega
    · refine ⟨⟨?_, ?_, ?_, ?_, ?_⟩, rfl, rfl, ?_, fun p _ => ?_⟩ <;> simp [pingS] <;> omega
  start i hi := rfl
  outs i h o ho := by
    rcases ping_outs ho with ⟨rfl, e1, e2, e3⟩ | ⟨rfl, e1, e2, e3⟩ <;> rw [e1, e2, e3] <;> simp [pingS]
  source d hd p hp := by
    simp only [pingS]
    split <;> exact ⟨by decide, rfl⟩
  inits i e he := by
    simp only [pingS, ping] at he ⊢
    split at he
    · rw [List.mem_singleton.1 he]; decide
    · cases he
  scheds i h e he := by
    simp only [pingS, ping] at he ⊢
    split at he
    · split at he
      · rw [List.mem_singleton.1 he]; decide
      · cases he
    · cases he
  lag i hi := by
    simp only [pingS]
    split <;> omega
  latency d hd p hp := by simp [pingS]
  covered d hd p hp := by
    have hd2 : d = 0 ∨ d = 1 := by have : d < 2 := hd; omega
    have hN : NEVER = -9223372036854775808 := rfl
    have hM : MIN_SLEEP_DURATION = 10000 := rfl
    rcases hd2 with rfl | rfl <;> simp [pingS] <;> omega

theorem ping_inside (sta lag1 : Int) : (pingS sta lag1).Inside := by
  intro i h o ho
  rcases ping_outs ho with ⟨rfl, e1, e2, e3⟩ | ⟨rfl, e1, e2, e3⟩ <;> rw [e1, e2] <;> simp [pingS, ping, pingT]

theorem ping_now {sta lag1 : Int} (h : 0 ≤ lag1) : ∀ i < (pingS sta lag1).P.T.n, now0 i + MIN_SLEEP_DURATION ≤ FOREVER ∧
    now0 i ≤ (pingS sta lag1).P.start + (pingS sta lag1).lag i ∧ ∀ j < (pingS sta lag1).P.T.n, now0 i ≤ now0 j + (pingS sta lag1).error := by
  intro i hi
  have hM : MIN_SLEEP_DURATION = 10000 := rfl
  have hF : FOREVER = 9223372036854775807 := rfl
  have hs : (pingS sta lag1).P.start = 10000000 := rfl
  refine ⟨by simp only [now0]; omega, ?_, fun j _ => by simp [now0, pingS]⟩
  rw [hs]
  simp only [now0, pingS]
  split <;> omega

/-- The program `ping` is executed in two ways, with different offsets and latencies: in both, the federates have come to the end, with the same
results. -/
example : (pingS 650000 1100000).Ok pingRank ∧ (pingS 700000 1150000).Ok pingRank ∧ (pingS 700000 1150000).P = (pingS 650000 1100000).P ∧
    (∃ g, Reach (pingS 650000 1100000) g ∧ decide (saw (g.log 0) = saw0 ∧ saw (g.log 1) = saw1 ∧ (g.fed 1).lv.phase = .running ∧
      (g.fed 1).lv.cur = ping.stop ∧ g.fin 1 = true ∧ (g.fed 1).out.length = 3) = true) ∧
    ∃ g, Reach (pingS 700000 1150000) g ∧ decide (saw (g.log 0) = saw0 ∧ saw (g.log 1) = saw1 ∧ (g.fed 1).lv.phase = .running ∧
      (g.fed 1).lv.cur = ping.stop ∧ g.fin 1 = true) = true :=
  ⟨ping_ok (by decide) (by decide) (by decide), ping_ok (by decide) (by decide) (by decide), rfl,
    reach_of_run (ping_inside _ _) ping_single now0 (ping_now (by decide)) r1 (by decide +kernel),
    reach_of_run (ping_inside _ _) ping_single now0 (ping_now (by decide)) r2 (by decide +kernel)⟩

/-- The sequential execution of `ping` is done after seven tags, with the same results. -/
theorem ping_done : ∃ s, Done ping pingRank s ∧ saw (s.log 0) = saw0 ∧ saw (s.log 1) = saw1 := by
  have h : (Seq.run ping pingRank ⟨fun _ => [], ping.init⟩ pingSeq).any
      (fun s => decide (s.dues ping = [] ∧ saw (s.log 0) = saw0 ∧ saw (s.log 1) = saw1)) = true := by
    decide +kernel
  cases e : Seq.run ping pingRank ⟨fun _ => [], ping.init⟩ pingSeq with
  | none => rw [e] at h; cases h
  | some s =>
    rw [e] at h
    obtain ⟨h1, h2⟩ := of_decide_eq_true h
    refine ⟨s, ⟨Seq.run_reach ping_prog (.init ping_single) ping_single e, fun j u k => ?_⟩, h2⟩
    rw [← mem_dues, h1] at k; cases k

/-- **C76** (limit) If the offsets do not cover the bounds, nothing of this holds, and nobody is told: federate 1 of `ping`, without an STA offset, has executed
the tag of 11.2 ms and skipped that of 11 ms, at which it should have got a message; it gets the message later, at a tag that the program does not
have. -/
theorem C76_fails_if_offsets_do_not_cover : ∃ g, Reach (pingS 0 1150000) g ∧ saw (g.log 1) = [(⟨11200000, 0⟩, none), (⟨10000000, 0⟩, some 1)] ∧
    (∃ d ∈ (g.fed 1).out, d.late = true ∧ d.intended = ⟨11000000, 0⟩ ∧ d.at_ = ⟨11200000, 1⟩) ∧
    ∃ s, Done (pingS 0 1150000).P pingRank s ∧ ¬ (g.log 1 <:+ s.log 1) ∧ ¬ (s.log 1 <:+ g.log 1) := by
  obtain ⟨g, hg, h⟩ := reach_of_run (ping_inside 0 1150000) ping_single now0 (ping_now (by decide)) r3
    (p := fun g => decide (saw (g.log 1) = [(⟨11200000, 0⟩, none), (⟨10000000, 0⟩, some 1)] ∧
      ∃ d ∈ (g.fed 1).out, d.late = true ∧ d.intended = ⟨11000000, 0⟩ ∧ d.at_ = ⟨11200000, 1⟩)) (by decide +kernel)
  obtain ⟨h1, h2⟩ := of_decide_eq_true h
  obtain ⟨s, hs, -, h3⟩ := ping_done
  refine ⟨g, hg, h1, h2, s, hs, fun k => ?_, fun k => ?_⟩
  · have := k.map (fun e : Entry Nat => (e.1, e.2 0))
    change saw (g.log 1) <:+ saw (s.log 1) at this
    rw [h1, h3] at this
    revert this; decide
  · have := k.map (fun e : Entry Nat => (e.1, e.2 0))
    change saw (s.log 1) <:+ saw (g.log 1) at this
    rw [h1, h3] at this
    revert this; decide

end ReactorC.DecFed
