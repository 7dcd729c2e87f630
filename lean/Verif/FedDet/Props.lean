import Verif.FedDet.RunExec
import Verif.FedDet.SeqExec
import Verif.FedDet.Runs

/-!
# C71: the results of a federation do not depend on timing

A federated program (`Program`, Verif.FedDet.Spec) is executed by the RTI and the federates of the code (`Reach`,
Verif.FedDet.Run): threads, sockets, clocks and the RTI take their steps in any order.  `x.log i` is what federate `i` has
executed: the tags and, for each of them, what is present at its input ports, actions and timers; its reactions, and hence what
it sends, are a function of this.
-/

namespace ReactorC.FedDet
open ReactorC
open ReactorC.Rti (Topology Sane put)

variable {V : Type}

theorem upTo_suffix {l : List (Entry V)} (h : l.Pairwise fun a b => b.1 < a.1) (t : Tag) : upTo t l <:+ l := by
  induction l with
  | nil => exact List.suffix_refl _
  | cons a l ih =>
    obtain ⟨h1, h2⟩ := List.pairwise_cons.1 h
    unfold upTo
    rw [List.filter_cons]
    split
    · rename_i k
      rw [decide_eq_true_eq] at k
      have e : l.filter (fun x => decide (x.1 ≤ t)) = l := List.filter_eq_self.2 fun x hx => by
        rw [decide_eq_true_eq]
        exact Tag.le_trans (Tag.le_of_lt (h1 x hx)) k
      rw [e]
    · exact (ih h2).trans (List.suffix_cons _ _)

theorem upTo_all {l : List (Entry V)} {t : Tag} (h : ∀ x ∈ l, x.1 ≤ t) : upTo t l = l := by
  unfold upTo
  rw [List.filter_eq_self]
  intro x hx
  rw [decide_eq_true_eq]; exact h x hx

section
variable {P : Program V} {rank : Nat → Nat}

theorem comparable (hP : P.Ok rank) {A B : Exec V} (hA : A.Good P) (hB : B.Good P) (i : Nat) :
    A.log i <:+ B.log i ∨ B.log i <:+ A.log i := by
  have key : ∀ {A B : Exec V}, A.Good P → B.Good P → ∀ a l b m, A.log i = a :: l → B.log i = b :: m → a.1 ≤ b.1 → A.log i <:+ B.log i := by
    intro A B hA hB a l b m ha hb hle
    have pa : A.passed i a.1 := hA.reached i a (by rw [ha]; exact List.mem_cons_self)
    have pb : B.passed i a.1 := hB.down i _ _ (hB.reached i b (by rw [hb]; exact List.mem_cons_self)) hle
    have e := agree hP hA hB pa pb
    have hso := hA.sorted i
    rw [ha] at hso
    rw [upTo_all (l := A.log i)] at e
    · rw [e]; exact upTo_suffix (hB.sorted i) _
    · intro x hx
      rw [ha] at hx
      rcases List.mem_cons.1 hx with rfl | hx
      · exact Tag.le_refl _
      · exact Tag.le_of_lt ((List.pairwise_cons.1 hso).1 x hx)
  cases ha : A.log i with
  | nil => exact .inl (List.nil_suffix)
  | cons a l =>
    cases hb : B.log i with
    | nil => exact .inr (List.nil_suffix)
    | cons b m =>
      rcases Tag.le_total a.1 b.1 with c | c
      · left; rw [← ha, ← hb]; exact key hA hB a l b m ha hb c
      · right; rw [← ha, ← hb]; exact key hB hA b m a l hb ha c

theorem equal (hP : P.Ok rank) {A B : Exec V} (hA : A.Good P) (hB : B.Good P) {i : Nat} (pa : A.passed i P.stop) (pb : B.passed i P.stop) :
    A.log i = B.log i := by
  have e := agree hP hA hB pa pb
  rwa [upTo_all fun x hx => (hA.fits i x hx).2.2.1, upTo_all fun x hx => (hB.fits i x hx).2.2.1] at e

/-- Any two executions of a program, whatever the timing, agree on every federate as far as both of them have got: what the federate
has executed in one is the beginning of what it has executed in the other.  (The latest tag comes first: `<:+` says that a list is the
end of another.) -/
theorem C71_results_do_not_depend_on_timing_partial (hP : P.Ok rank) {M M' : Timing} (hM : M.Ok) (hM' : M'.Ok) {x y : St V}
    (hx : Reach P M x) (hy : Reach P M' y) (i : Nat) : x.log i <:+ y.log i ∨ y.log i <:+ x.log i :=
  comparable hP ((hx.inv hP hM).exec hP hM) ((hy.inv hP hM').exec hP hM') i

/-- At a tag that a federate has got to in both executions, it has executed the same up to this tag: an input that is present in one is
present in the other, with the same value, and a tag that is executed in one is not skipped in the other. -/
theorem C71_same_up_to_a_tag_partial (hP : P.Ok rank) {M M' : Timing} (hM : M.Ok) (hM' : M'.Ok) {x y : St V} (hx : Reach P M x)
    (hy : Reach P M' y) {i : Nat} (hi : i < P.T.n) {t : Tag} (h1 : (x.s.fed i).started = true ∧ t ≤ (x.s.fed i).cur)
    (h2 : (y.s.fed i).started = true ∧ t ≤ (y.s.fed i).cur) :
    (x.log i).filter (fun e => decide (e.1 ≤ t)) = (y.log i).filter (fun e => decide (e.1 ≤ t)) :=
  agree hP ((hx.inv hP hM).exec hP hM) ((hy.inv hP hM').exec hP hM') (i := i) (t := t) ⟨hi, h1⟩ ⟨hi, h2⟩

/-- A federate that has ended has executed the same in every execution. -/
theorem C71_same_results_at_the_end_partial (hP : P.Ok rank) {M M' : Timing} (hM : M.Ok) (hM' : M'.Ok) {x y : St V} (hx : Reach P M x)
    (hy : Reach P M' y) {i : Nat} (hi : i < P.T.n) (h1 : (x.s.fed i).pc = .ended ∨ (x.s.fed i).pc = .gone)
    (h2 : (y.s.fed i).pc = .ended ∨ (y.s.fed i).pc = .gone) : x.log i = y.log i := by
  have key : ∀ {M : Timing} {x : St V}, M.Ok → Reach P M x → ((x.s.fed i).pc = .ended ∨ (x.s.fed i).pc = .gone) → (x.exec P).passed i P.stop := by
    intro M x hM hx h
    have hI := hx.inv hP hM
    obtain ⟨k1, k2⟩ := (hI.loc i hi).over h
    exact ⟨hi, k2, by rw [k1, (hI.past i hi).stop]; exact Tag.le_refl _⟩
  exact equal hP ((hx.inv hP hM).exec hP hM) ((hy.inv hP hM').exec hP hM') (key hM hx h1) (key hM' hy h2)

/-- What a federation executes is what the sequential execution of the program says, in which there is no RTI, no network, no
clock and no thread: the one is the beginning of the other, for every federate. -/
theorem C71_federation_computes_the_program_partial (hP : P.Ok rank) {M : Timing} (hM : M.Ok) {x : St V} (hx : Reach P M x) {s : Seq V}
    (hs : Seq.Reach P rank s) (i : Nat) : x.log i <:+ s.log i ∨ s.log i <:+ x.log i :=
  comparable hP ((hx.inv hP hM).exec hP hM) ((hs.inv hP).exec hP) i

/-- When the sequential execution is done and the federate has ended, they are the same. -/
theorem C71_federation_computes_all_partial (hP : P.Ok rank) {M : Timing} (hM : M.Ok) {x : St V} (hx : Reach P M x) {s : Seq V}
    (hs : Seq.Reach P rank s) {i : Nat} (hi : i < P.T.n) (h1 : (x.s.fed i).pc = .ended ∨ (x.s.fed i).pc = .gone)
    (h2 : ∀ j u, ¬ s.Due P j u) : x.log i = s.log i := by
  have hI := hx.inv hP hM
  obtain ⟨k1, k2⟩ := (hI.loc i hi).over h1
  exact equal hP (hI.exec hP hM) ((hs.inv hP).exec hP) (i := i) ⟨hi, k2, by rw [k1, (hI.past i hi).stop]; exact Tag.le_refl _⟩
    fun j u k => absurd k (h2 j u)

/-- What the sequential execution gives does not depend on the order in which federates without connections between them are
executed. -/
theorem C71_sequential_execution_is_deterministic (hP : P.Ok rank) {s s' : Seq V} (hs : Seq.Reach P rank s) (hs' : Seq.Reach P rank s')
    (i : Nat) : s.log i <:+ s'.log i ∨ s'.log i <:+ s.log i := comparable hP ((hs.inv hP).exec hP) ((hs'.inv hP).exec hP) i

/-- No message is late: a federate that reads a message has not got to its tag. -/
theorem C71_no_input_is_late_partial (hP : P.Ok rank) {M : Timing} (hM : M.Ok) {x : St V} (hx : Reach P M x) {i : Nat} (hi : i < P.T.n)
    {e : Event V} (he : e ∈ x.down i) (hF : Fit P.T e.1) : ¬ ((x.s.fed i).started = true ∧ e.1 ≤ (x.s.fed i).cur) := by
  have hI := hx.inv hP hM
  intro k
  have hstop : e.1 ≤ P.stop := Tag.le_trans k.2 (hI.past i hi).curStop
  have hm : Rti.Down.msg e.1 ∈ (x.s.sys.rti.out i).drop (x.s.fed i).taken := by
    rw [← mem_msgs, ← hI.downQ i hi]; exact List.mem_map_of_mem he
  obtain ⟨l, l', e'⟩ := List.append_of_mem hm
  refine (hI.arrive hP hM (a := { x.s.sys with rti := { x.s.sys.rti with out := fun j => (x.s.sys.rti.out j).take (x.s.fed j).taken } })
    hi hF hstop (.refl _) ⟨l, l', ?_⟩ fun g hg => hg).1 ⟨hi, k⟩
  show x.s.sys.rti.out i = (x.s.sys.rti.out i).take (x.s.fed i).taken ++ l ++ _
  rw [List.append_assoc, ← e', List.take_append_drop]

end

/-! ## The hypotheses are met -/

theorem demo_ok : demo.Ok demoRank := by
  refine ⟨⟨by decide, fun i u w h => ?_, fun i u w h => ?_⟩, fun i j h => ?_, by decide, by decide, fun i h o ho => ?_, fun i x h e he => ?_,
    fun i e he => (by cases he), fun d i w h hw => ?_⟩
  · simp only [demo, demoT] at h ⊢
    split at h
    · simp at h; omega
    · cases h
  · simp only [demo, demoT] at h
    have : ∀ x ∈ ([5, NEVER] : List Int), IsI64 x := by decide
    refine this w ?_
    split at h
    · simp at h; simp; omega
    · cases h
  · simp only [demo, demoT] at h ⊢
    split at h
    · simp at h; omega
    · cases h
  · simp only [demo] at ho
    split at ho
    · rename_i k
      subst k
      rw [List.mem_singleton.1 ho]
      exact ⟨(by decide : 2 < 3), (by decide : ((0 : Nat), NEVER) ∈ demo.T.up 2)⟩
    split at ho
    · rename_i _ k
      obtain ⟨rfl, _⟩ := k
      rw [List.mem_singleton.1 ho]; exact ⟨by decide, by decide⟩
    · cases ho
  · simp only [demo] at he
    split at he
    · rename_i t y k
      split at he
      · rename_i c
        rw [List.mem_singleton.1 he]
        have := (List.cons.inj k).1
        rw [this]; exact c.2
      · cases he
    · cases he
  · simp only [demo, demoT] at h
    split at h
    · rename_i k
      subst k
      have h5 : (0 : Int) ≤ 5 := by decide
      simp at h
      rcases h with h | h
      · obtain ⟨rfl, _⟩ := h; decide
      · obtain ⟨rfl, rfl⟩ := h; omega
    · cases h

theorem demo_single (i : Nat) : Single (demo.init i) := List.nodup_nil

/-- The program `demo` is executed in two ways, as fast as possible and with clocks, with different interleavings; in both, federate
2 ends, and it has executed four tags, with inputs from both other federates. -/
example : demo.Ok demoRank ∧ fastT.Ok ∧ lateT.Ok ∧
    (∃ x, Reach demo fastT x ∧ decide ((x.s.fed 2).pc = .gone ∧ seen (x.log 2) = demoSeen) = true) ∧
    ∃ y, Reach demo lateT y ∧ decide ((y.s.fed 2).pc = .gone ∧ seen (y.log 2) = demoSeen) = true :=
  ⟨demo_ok, by unfold Timing.Ok; decide, by unfold Timing.Ok; decide, moves_exists demo_single (l := demoFirst) (by decide +kernel),
    moves_exists demo_single (l := demoSecond) (by decide +kernel)⟩

/-- Federates 0 and 1 have resigned before federate 2 begins, which does not change what it executes. -/
example : ∃ x, Reach demo fastT x ∧ decide ((x.s.sys.rti.node 0).connected = false ∧ (x.s.sys.rti.node 1).connected = false ∧
    (x.s.fed 2).pc = .gone ∧ seen (x.log 2) = demoSeen) = true := moves_exists demo_single (l := demoThird) (by decide +kernel)

/-- In the middle of the second execution, federate 2 has executed less than at the end of the first. -/
example : ∃ y, Reach demo lateT y ∧ decide ((y.s.fed 2).pc = .resting ∧ (y.s.fed 2).cur = ⟨100, 0⟩ ∧ (y.s.fed 2).started = true) = true :=
  moves_exists demo_single (l := demoSecond.take 53) (by decide +kernel)

/-- The sequential execution of `demo` is done after nine tags, and federate 2 has executed the same. -/
example : ∃ s, Seq.Reach demo demoRank s ∧ (∀ j u, ¬ s.Due demo j u) ∧ seen (s.log 2) = demoSeen := by
  have h : (Seq.run demo demoRank ⟨fun _ => [], demo.init⟩ demoSeq).any (fun s => decide (s.dues demo = [] ∧ seen (s.log 2) = demoSeen)) = true := by
    decide +kernel
  cases e : Seq.run demo demoRank ⟨fun _ => [], demo.init⟩ demoSeq with
  | none => rw [e] at h; cases h
  | some s =>
    rw [e] at h
    obtain ⟨h1, h2⟩ := of_decide_eq_true h
    refine ⟨s, Seq.run_reach demo_ok (.init demo_single) demo_single e, fun j u k => ?_, h2⟩
    rw [← mem_dues, h1] at k; cases k

/-- A message that is about to be read: federate 2 has got to 100, and there is a message with tag 110. -/
example : ∃ y, Reach demo lateT y ∧ decide ((y.s.fed 2).started = true ∧ (y.down 2).map (·.1) = [⟨110, 0⟩]) = true :=
  moves_exists demo_single (l := demoSecond.take 60) (by decide +kernel)

end ReactorC.FedDet
