import Verif.FedDet.Run
import Verif.Fedn.Runs

/-! Executable runs of federated programs. -/

namespace ReactorC.FedDet
open ReactorC
open ReactorC.Rti (Topology Down Up Sys Sane put)
open ReactorC.Fedn (Config Fed State Ev Act Pc)

/-- A step, without what follows from the state. -/
inductive Move
  | idle (a : Act)
  | moves (i : Nat) (a : Act)
  | enters (i : Nat) (a : Act)
  | sends (i : Nat)
  | drops (i : Nat)
  | schedules (i : Nat)
  | completes (i : Nat) (need : Bool)
  | resigns (i : Nat)
  | handles (i : Nat)
  | forwards (i : Nat)
  | takes (i : Nat)
  | receives (i : Nat)

variable {V : Type}

instance (i : Nat) (a : Act) : Decidable (Mover i a) := by cases a <;> unfold Mover <;> infer_instance
instance (a : Act) : Decidable (Idle a) := by cases a <;> unfold Idle <;> infer_instance
instance (l : List (Event V)) (e : Event V) : Decidable (Fresh l e) := by unfold Fresh; infer_instance

/-- Whether the first message from `i` that the RTI has yet to read is one for a federate. -/
def nextUp (s : State) (i : Nat) : Bool :=
  match s.sys.up i with
  | .msg _ _ _ _ :: _ => true
  | _ => false

/-- The tag of the message that `i` reads next. -/
def nextDown (s : State) (i : Nat) : Option Tag :=
  match (s.sys.rti.out i)[(s.fed i).taken]? with
  | some (.msg m) => some m
  | _ => none

theorem nextUp_iff {s : State} {i : Nat} : nextUp s i = true ↔ NextUp s i := by
  unfold nextUp NextUp
  constructor
  · intro h
    split at h
    · rename_i d t w m q e; exact ⟨d, t, w, m, q, e⟩
    · cases h
  · rintro ⟨d, t, w, m, q, e⟩
    rw [e]

theorem nextDown_some {s : State} {i : Nat} {m : Tag} : nextDown s i = some m ↔ NextDown s i m := by
  unfold nextDown NextDown
  constructor
  · intro h
    split at h
    · rename_i m' e; cases h; exact e
    · cases h
  · intro e
    rw [e]

/-- Takes a step if it can be taken. -/
def move (P : Program V) (M : Timing) (x : St V) : Move → Option (St V)
  | .idle a => if Idle a ∧ Fedn.pre (conf P M) x.s a then some { x with s := Fedn.post (conf P M) x.s a } else none
  | .moves i a =>
    if Mover i a ∧ Fedn.pre (conf P M) x.s a ∧ ((Fedn.post (conf P M) x.s a).fed i).pc ≠ .executing then
      some { x with s := Fedn.post (conf P M) x.s a } else none
  | .enters i a =>
    if Mover i a ∧ Fedn.pre (conf P M) x.s a ∧ (x.s.fed i).pc ≠ .executing ∧ ((Fedn.post (conf P M) x.s a).fed i).pc = .executing then
      some (x.enter P i (Fedn.post (conf P M) x.s a)) else none
  | .sends i => match x.outs i with
    | [] => none
    | o :: r =>
      if Fedn.pre (conf P M) x.s (.send i o.dest o.delay) then
        some { x with
          s := Fedn.post (conf P M) x.s (.send i o.dest o.delay)
          outs := put x.outs i r
          up := put x.up i (x.up i ++ [(o.dest, lf_delay_tag (x.s.fed i).cur o.delay, o.port, o.val)]) }
      else none
  | .drops i => match x.outs i with
    | [] => none
    | o :: r =>
      if (x.s.fed i).pc = .executing ∧ (x.s.fed i).stop < lf_delay_tag (x.s.fed i).cur o.delay then some { x with outs := put x.outs i r }
      else none
  | .schedules i => match x.scheds i with
    | [] => none
    | e :: r =>
      if Fedn.pre (conf P M) x.s (.schedule i 0 ⟨e.1, some 0⟩) ∧ Fresh (x.pend i) e then
        some { x with
          s := Fedn.post (conf P M) x.s (.schedule i 0 ⟨e.1, some 0⟩)
          scheds := put x.scheds i r
          pend := put x.pend i (e :: x.pend i) }
      else none
  | .completes i need =>
    if (x.outs i).isEmpty = true ∧ (x.scheds i).isEmpty = true ∧ Fedn.pre (conf P M) x.s (.complete i need) ∧
        (Down.msg (x.s.fed i).cur ∈ (x.s.sys.rti.out i).take (x.s.fed i).taken → need = true) then
      some { x with s := Fedn.post (conf P M) x.s (.complete i need) } else none
  | .resigns i =>
    if (x.s.fed i).pc = .gone ∧ (x.s.sys.rti.node i).connected = true ∧ Up.resign ∉ x.s.sys.up i ∧ Fedn.pre (conf P M) x.s (.leave i) then
      some { x with s := Fedn.post (conf P M) x.s (.leave i) } else none
  | .handles i =>
    if nextUp x.s i = false ∧ Fedn.pre (conf P M) x.s (.handle i) then some { x with s := Fedn.post (conf P M) x.s (.handle i) } else none
  | .forwards i => match x.up i with
    | [] => none
    | (d, e) :: r =>
      if nextUp x.s i = true ∧ Fedn.pre (conf P M) x.s (.handle i) then
        some { x with
          s := Fedn.post (conf P M) x.s (.handle i)
          up := put x.up i r
          down := put x.down d (x.down d ++ [e]) }
      else none
  | .takes i =>
    if nextDown x.s i = none ∧ Fedn.pre (conf P M) x.s (.take i false false) then
      some { x with s := Fedn.post (conf P M) x.s (.take i false false) } else none
  | .receives i => match x.down i with
    | [] => none
    | e :: r =>
      if (nextDown x.s i).isSome = true ∧ Fedn.pre (conf P M) x.s (.take i false false) ∧ Fresh (x.pend i) e then
        some { x with
          s := Fedn.post (conf P M) x.s (.take i false false)
          down := put x.down i r
          pend := put x.pend i (e :: x.pend i) }
      else none

theorem move_step {P : Program V} {M : Timing} {x y : St V} {m : Move} (h : move P M x m = some y) : Step P M x y := by
  unfold move at h
  split at h
  · split at h
    · rename_i k; cases h; exact .idle _ k.1 k.2
    · cases h
  · split at h
    · rename_i k; cases h; exact .moves _ _ k.1 k.2.1 k.2.2
    · cases h
  · split at h
    · rename_i k; cases h; exact .enters _ _ k.1 k.2.1 k.2.2.1 k.2.2.2
    · cases h
  · split at h
    · cases h
    · rename_i o r e
      split at h
      · rename_i k; cases h; exact .sends _ o r e k
      · cases h
  · split at h
    · cases h
    · rename_i o r e
      split at h
      · rename_i k; cases h; exact .drops _ o r e k.1 k.2
      · cases h
  · split at h
    · cases h
    · rename_i e r he
      split at h
      · rename_i k; cases h; exact .schedules _ e r he k.1 k.2
      · cases h
  · split at h
    · rename_i k; cases h; exact .completes _ _ (List.isEmpty_iff.1 k.1) (List.isEmpty_iff.1 k.2.1) k.2.2.1 k.2.2.2
    · cases h
  · split at h
    · rename_i k; cases h; exact .resigns _ k.1 k.2.1 k.2.2.1 k.2.2.2
    · cases h
  · split at h
    · rename_i k; cases h
      refine .handles _ (fun c => ?_) k.2
      rw [← nextUp_iff, k.1] at c; cases c
    · cases h
  · split at h
    · cases h
    · rename_i d e r he
      split at h
      · rename_i k; cases h; exact .forwards _ d e r (nextUp_iff.1 k.1) he k.2
      · cases h
  · split at h
    · rename_i k; cases h
      refine .takes _ false false (fun m c => ?_) k.2
      rw [← nextDown_some, k.1] at c; cases c
    · cases h
  · split at h
    · cases h
    · rename_i e r he
      split at h
      · rename_i k; cases h
        obtain ⟨m, hm⟩ := Option.isSome_iff_exists.1 k.1
        exact .receives _ false false m e r (nextDown_some.1 hm) he k.2.1 k.2.2
      · cases h

/-- Takes the steps of a list. -/
def moves (P : Program V) (M : Timing) : St V → List Move → Option (St V)
  | x, [] => some x
  | x, m :: l => match move P M x m with
    | some y => moves P M y l
    | none => none

theorem moves_reach {P : Program V} {M : Timing} {l : List Move} : ∀ {x y : St V}, Reach P M x → moves P M x l = some y → Reach P M y := by
  induction l with
  | nil => intro x y h e; cases e; exact h
  | cons m l ih =>
    intro x y h e
    unfold moves at e
    cases hm : move P M x m with
    | none => rw [hm] at e; cases e
    | some z => rw [hm] at e; exact ih (h.step (move_step hm)) e

theorem moves_exists {P : Program V} {M : Timing} (hs : ∀ i, Single (P.init i)) {l : List Move} {p : St V → Bool}
    (h : (moves P M (St.init P M) l).any p = true) : ∃ x, Reach P M x ∧ p x = true := by
  cases e : moves P M (St.init P M) l with
  | none => rw [e] at h; cases h
  | some x => rw [e] at h; exact ⟨x, moves_reach (.init hs) e, h⟩

/-! ## A program -/

/-- Federates 0 and 1 send to 2, without delay and with delay 5. -/
def demoT : Topology :=
  { n := 3
    up := fun i => if i = 2 then [(0, NEVER), (1, 5)] else []
    down := fun i => if i = 0 ∨ i = 1 then [2] else [] }

/-- Federate 0 has an action, trigger 9, that it schedules once, at the start, and sends how often it has been executed to port
0 of federate 2; federate 1 sends 7 to port 1 at the start. -/
def demo : Program Nat :=
  { T := demoT
    start := 100
    stop := ⟨120, 0⟩
    init := fun _ => []
    outs := fun i h =>
      if i = 0 then [⟨2, NEVER, 0, h.length⟩] else if i = 1 ∧ h.length = 1 then [⟨2, 5, 1, 7⟩] else []
    scheds := fun i h => match h with
      | [(t, _)] => if i = 0 ∧ t < ⟨110, 0⟩ then [(⟨110, 0⟩, 9, 1)] else []
      | _ => [] }

/-- As fast as possible. -/
def fastT : Timing := { interval := 10000000, fast := true, now0 := fun _ => 0 }

/-- With physical clocks, which are late. -/
def lateT : Timing := { interval := 5000000, fast := false, now0 := fun _ => 1000 }

/-- Federates 0 and 1 are done before federate 2 begins. -/
def demoFirst : List Move :=
  [.idle (.begin 0), .enters 0 (.ask 0), .sends 0, .schedules 0, .completes 0 true, .moves 0 (.ask 0), .enters 0 (.advance 0),
   .sends 0, .completes 0 true, .moves 0 (.ask 0), .enters 0 (.advance 0), .sends 0, .completes 0 true, .moves 0 (.ask 0),
   .moves 0 (.advance 0), .handles 0, .forwards 0, .handles 0, .handles 0, .handles 0, .forwards 0, .handles 0, .handles 0,
   .handles 0, .forwards 0, .handles 0, .handles 0, .handles 0, .idle (.exit 0), .handles 0, .idle (.begin 1),
   .enters 1 (.ask 1), .sends 1, .completes 1 true, .moves 1 (.ask 1), .enters 1 (.advance 1), .completes 1 true,
   .moves 1 (.ask 1), .moves 1 (.advance 1), .handles 1, .forwards 1, .handles 1, .handles 1, .handles 1, .handles 1,
   .handles 1, .handles 1, .idle (.exit 1), .handles 1, .idle (.begin 2), .moves 2 (.ask 2), .handles 2, .receives 2,
   .receives 2, .receives 2, .receives 2, .takes 2, .enters 2 (.wake 2), .completes 2 true, .moves 2 (.ask 2), .handles 2,
   .handles 2, .handles 2, .takes 2, .moves 2 (.wake 2), .enters 2 (.advance 2), .completes 2 true, .moves 2 (.ask 2),
   .enters 2 (.advance 2), .completes 2 true, .moves 2 (.ask 2), .enters 2 (.advance 2), .completes 2 true, .moves 2 (.ask 2),
   .moves 2 (.advance 2), .handles 2, .handles 2, .handles 2, .handles 2, .handles 2, .handles 2, .idle (.exit 2), .handles 2]

/-- Federates 0 and 1 are done and have resigned before federate 2 begins. -/
def demoThird : List Move :=
  [.idle (.begin 0), .enters 0 (.ask 0), .sends 0, .schedules 0, .completes 0 true, .moves 0 (.ask 0), .enters 0 (.advance 0),
   .sends 0, .completes 0 true, .moves 0 (.ask 0), .enters 0 (.advance 0), .sends 0, .completes 0 true, .moves 0 (.ask 0),
   .moves 0 (.advance 0), .handles 0, .forwards 0, .handles 0, .handles 0, .handles 0, .forwards 0, .handles 0, .handles 0,
   .handles 0, .forwards 0, .handles 0, .handles 0, .handles 0, .idle (.exit 0), .handles 0, .idle (.begin 1),
   .enters 1 (.ask 1), .sends 1, .completes 1 true, .moves 1 (.ask 1), .enters 1 (.advance 1), .completes 1 true,
   .moves 1 (.ask 1), .moves 1 (.advance 1), .handles 1, .forwards 1, .handles 1, .handles 1, .handles 1, .handles 1,
   .handles 1, .handles 1, .idle (.exit 1), .handles 1,.resigns 0, .handles 0, .resigns 1, .handles 1, .idle (.begin 2), .moves 2 (.ask 2), .handles 2, .receives 2,
   .receives 2, .receives 2, .receives 2, .takes 2, .takes 2, .takes 2, .takes 2, .enters 2 (.wake 2), .completes 2 true, .moves 2 (.ask 2),
   .enters 2 (.advance 2), .completes 2 true, .moves 2 (.ask 2),
   .enters 2 (.advance 2), .completes 2 true, .moves 2 (.ask 2), .enters 2 (.advance 2), .completes 2 true, .moves 2 (.ask 2),
   .moves 2 (.advance 2), .idle (.exit 2), .resigns 2]

/-- Federate 2 begins first, and federate 1 before federate 0. -/
def demoSecond : List Move :=
  [.idle (.begin 2), .moves 2 (.ask 2), .handles 2, .idle (.begin 1), .enters 1 (.ask 1), .sends 1, .completes 1 true,
   .moves 1 (.ask 1), .enters 1 (.advance 1), .completes 1 true, .moves 1 (.ask 1), .moves 1 (.advance 1), .handles 1,
   .forwards 1, .receives 2, .handles 1, .handles 1, .handles 1, .handles 1, .handles 1, .handles 1, .idle (.exit 1),
   .handles 1, .idle (.begin 0), .enters 0 (.ask 0), .sends 0, .schedules 0, .completes 0 true, .moves 0 (.ask 0),
   .enters 0 (.advance 0), .sends 0, .completes 0 true, .moves 0 (.ask 0), .enters 0 (.advance 0), .sends 0, .completes 0 true,
   .moves 0 (.ask 0), .moves 0 (.advance 0), .handles 0, .forwards 0, .receives 2, .handles 0, .takes 2, .enters 2 (.wake 2),
   .completes 2 true, .moves 2 (.ask 2), .handles 2, .handles 2, .handles 2, .handles 0, .handles 0, .takes 2,
   .moves 2 (.wake 2), .enters 2 (.advance 2), .completes 2 true, .moves 2 (.ask 2), .handles 2, .handles 2, .handles 2,
   .forwards 0, .receives 2, .handles 0, .takes 2, .moves 2 (.wake 2), .moves 2 (.ask 2), .enters 2 (.advance 2),
   .completes 2 true, .moves 2 (.ask 2), .handles 2, .handles 2, .handles 2, .handles 0, .handles 0, .forwards 0, .receives 2,
   .handles 0, .takes 2, .moves 2 (.wake 2), .enters 2 (.advance 2), .completes 2 true, .moves 2 (.ask 2),
   .moves 2 (.advance 2), .handles 2, .handles 2, .idle (.exit 2), .handles 2, .handles 0, .handles 0, .idle (.exit 0),
   .handles 0]

/-- The order of the federates of `demo`. -/
def demoRank (i : Nat) : Nat := if i = 2 then 1 else 0

/-- What federate 2 has executed: the tags and what is present at its ports. -/
def seen (l : List (Entry Nat)) : List (Tag × Option Nat × Option Nat) := l.map fun e => (e.1, e.2 0, e.2 1)

/-- What federate 2 of `demo` executes. -/
def demoSeen : List (Tag × Option Nat × Option Nat) :=
  [(⟨120, 0⟩, some 3, none), (⟨110, 0⟩, some 2, none), (⟨105, 0⟩, none, some 7), (⟨100, 0⟩, some 1, none)]

/-! ## Sequential runs -/

/-- What is due. -/
def Seq.dues (P : Program V) (s : Seq V) : List (Nat × Tag) :=
  (List.range P.T.n).flatMap fun j =>
    (((s.pend j).map (·.1) ++ (if (s.log j).isEmpty then [P.first] else []) ++
      (if (s.log j).all (fun x => decide (x.1 ≠ P.stop)) then [P.stop] else [])).filter fun t => decide (t ≤ P.stop)).map fun t => (j, t)

theorem mem_dues {P : Program V} {s : Seq V} {j : Nat} {t : Tag} : (j, t) ∈ s.dues P ↔ s.Due P j t := by
  unfold Seq.dues Seq.Due
  simp only [List.mem_flatMap, List.mem_range, List.mem_map, List.mem_filter, List.mem_append, decide_eq_true_eq, Prod.mk.injEq]
  constructor
  · rintro ⟨j', hj, u, ⟨h, hu⟩, rfl, rfl⟩
    refine ⟨hj, hu, ?_⟩
    rcases h with (⟨e, he, k⟩ | h) | h
    · exact .inl ⟨e, he, k⟩
    · split at h
      · rename_i k
        exact .inr (.inl ⟨List.mem_singleton.1 h, List.isEmpty_iff.1 k⟩)
      · cases h
    · split at h
      · rename_i k
        rw [List.all_eq_true] at k
        have e := List.mem_singleton.1 h
        exact .inr (.inr ⟨e, fun x hx => by rw [e]; exact of_decide_eq_true (k x hx)⟩)
      · cases h
  · rintro ⟨hj, hu, h⟩
    refine ⟨j, hj, t, ⟨?_, hu⟩, rfl, rfl⟩
    rcases h with ⟨e, he, k⟩ | ⟨k1, k2⟩ | ⟨k1, k2⟩
    · exact .inl (.inl ⟨e, he, k⟩)
    · refine .inl (.inr ?_)
      rw [if_pos (List.isEmpty_iff.2 k2), k1]; exact List.mem_singleton.2 rfl
    · refine .inr ?_
      rw [if_pos, k1]
      · exact List.mem_singleton.2 rfl
      · rw [List.all_eq_true]
        intro x hx
        have := k2 x hx
        rw [k1] at this
        exact decide_eq_true this

instance (T : Topology) (t : Tag) : Decidable (Fit T t) := by unfold Fit; infer_instance
instance (l : List (Event V)) : Decidable (Single l) := by unfold Single; infer_instance

/-- Executes the tags of a list, if it is their turn. -/
def Seq.run (P : Program V) (rank : Nat → Nat) : Seq V → List (Nat × Tag) → Option (Seq V)
  | s, [] => some s
  | s, (i, t) :: l =>
    if (i, t) ∈ s.dues P ∧ (∀ a ∈ s.dues P, t < a.2 ∨ (t = a.2 ∧ rank i ≤ rank a.1)) ∧ Fit P.T t ∧
        ∀ d ∈ List.range P.T.n, Single ((s.exec P i t).pend d) then
      Seq.run P rank (s.exec P i t) l
    else none

theorem Seq.run_reach {P : Program V} {rank : Nat → Nat} (hP : P.Ok rank) {l : List (Nat × Tag)} : ∀ {s s' : Seq V}, Seq.Reach P rank s →
    (∀ d, Single (s.pend d)) → Seq.run P rank s l = some s' → Seq.Reach P rank s' := by
  induction l with
  | nil => intro s s' h _ e; cases e; exact h
  | cons a l ih =>
    obtain ⟨i, t⟩ := a
    intro s s' h hs e
    unfold Seq.run at e
    split at e
    · rename_i k
      obtain ⟨k1, k2, k3, k4⟩ := k
      have hd := mem_dues.1 k1
      have hsingle : ∀ d, Single ((s.exec P i t).pend d) := by
        intro d
        by_cases c : d < P.T.n
        · exact k4 d (List.mem_range.2 c)
        · have hi := hd.1
          have hm : mail P i d t ((t, present t (s.pend i)) :: s.log i) = [] := by
            unfold mail
            rw [List.filterMap_eq_nil_iff]
            intro o ho
            have := (hP.dest i _ o ho).1
            rw [if_neg]
            rintro ⟨rfl, _⟩
            exact c this
          unfold Seq.exec
          dsimp only
          rw [if_neg (by omega), hm, List.append_nil]
          exact hs d
      exact ih (h.step hd (fun j u hu => k2 (j, u) (mem_dues.2 hu)) k3 hsingle) hsingle e
    · cases e

/-- The order in which the tags of `demo` are executed. -/
def demoSeq : List (Nat × Tag) :=
  [(0, ⟨100, 0⟩), (1, ⟨100, 0⟩), (2, ⟨100, 0⟩), (2, ⟨105, 0⟩), (0, ⟨110, 0⟩), (2, ⟨110, 0⟩), (1, ⟨120, 0⟩), (0, ⟨120, 0⟩), (2, ⟨120, 0⟩)]

end ReactorC.FedDet
