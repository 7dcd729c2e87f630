import Verif.Fedn.Safe

/-! Executable runs of the federation of Verif.Fedn.Model. -/

namespace ReactorC.Fedn
open ReactorC
open ReactorC.Rti (Topology Down Up Sys Sane put)

instance (C : Config) (i : Nat) (f : Fed) (n : Option Tag) : Decidable (NetOk C i f n) := by
  cases n <;> unfold NetOk <;> infer_instance

instance (f : Fed) (δ : Int) (e : Ev) : Decidable (SchedOk f δ e) := by
  unfold SchedOk; cases e.rem <;> infer_instance

instance (C : Config) (i : Nat) (f : Fed) (e : Ev) : Decidable (PhysOk C i f e) := by
  unfold PhysOk; cases e.rem <;> infer_instance

instance (C : Config) (s : State) (a : Act) : Decidable (pre C s a) := by
  cases a with
  | take i d n =>
    unfold pre
    dsimp only
    cases h : (s.sys.rti.out i)[(s.fed i).taken]? with
    | none => infer_instance
    | some x => cases x <;> infer_instance
  | _ => unfold pre; infer_instance

/-- Takes the steps of a list as long as they can be taken. -/
def run (C : Config) : State → List Act → Option State
  | s, [] => some s
  | s, a :: l => if pre C s a then run C (post C s a) l else none

theorem run_reach {C : Config} {l : List Act} : ∀ {s s' : State}, Reach C s → run C s l = some s' → Reach C s' := by
  induction l with
  | nil => intro s s' h e; cases e; exact h
  | cons a l ih =>
    intro s s' h e
    unfold run at e
    split at e
    · rename_i hp; exact ih (h.step a hp) e
    · cases e

/-- A run shows that there is a state with a property. -/
theorem run_exists {C : Config} {l : List Act} {p : State → Bool} (h : (run C (init C) l).any p = true) :
    ∃ s, Reach C s ∧ p s = true := by
  cases e : run C (init C) l with
  | none => rw [e] at h; cases h
  | some s => rw [e] at h; exact ⟨s, run_reach .init e, h⟩

/-- Federate 2 sends to 0 with delay 5, and 0 to 1 without delay. -/
def lineT : Topology :=
  { n := 3
    up := fun i => if i = 0 then [(2, 5)] else if i = 1 then [(0, NEVER)] else []
    down := fun i => if i = 0 then [1] else if i = 2 then [0] else [] }

/-- A program: federates 0 and 2 have reactions to startup that send; 1 has a timer; 2 has a physical action that leads to
an output 7 ns later or more. -/
def line : Config :=
  { T := lineT
    start := 100
    minDelay := fun i => if i = 2 then 7 else -1
    timeout := fun _ => ⟨1000, 0⟩
    interval := 10000000
    fast := false
    q0 := fun i => if i = 1 then [⟨⟨103, 0⟩, none⟩] else []
    c0 := fun i => if i = 0 ∨ i = 2 then [0] else []
    now0 := fun _ => 100
    early := false
    ties := false
    stops := false
    shut := false }

/-- Federate 0 executes its reaction to startup with a grant, sends to 1, and 1 executes it; 2 is given an event by its
physical action. -/
def lineRun : List Act :=
  [.begin 2, .ask 2, .begin 0, .ask 0, .begin 1, .ask 1, .send 2 0 5, .complete 2 true, .ask 2,
   .physical 2 ⟨⟨103, 0⟩, some 4⟩, .resume 2, .ask 2, .ask 2, .advance 2, .schedule 2 4 ⟨⟨107, 0⟩, some 0⟩, .complete 2 true,
   .handle 0, .handle 1, .handle 2, .handle 2, .handle 2, .handle 2, .handle 2, .handle 2,
   .take 0 false false, .take 0 false false, .wake 0, .send 0 1 NEVER, .complete 0 true, .ask 0,
   .handle 0, .handle 0, .handle 0, .handle 0, .take 1 false false]

theorem line_ok : line.Ok := by
  refine ⟨⟨by decide, fun i u w h => ?_, fun i u w h => ?_⟩, fun i j h => ?_, by decide, by decide, ?_, ?_, ?_, by decide, ?_⟩
  · simp only [line, lineT] at h ⊢
    repeat' split at h
    all_goals simp at h
    all_goals omega
  · simp only [line, lineT] at h
    have : ∀ x ∈ ([5, NEVER] : List Int), IsI64 x := by decide
    refine this w ?_
    repeat' split at h
    all_goals simp at h
    all_goals simp
    all_goals omega
  · simp only [line, lineT] at h ⊢
    repeat' split at h
    all_goals simp at h
    all_goals omega
  · intro i; show (⟨100, 0⟩ : Tag) ≤ ⟨1000, 0⟩; decide
  · intro i e he
    simp only [line] at he ⊢
    split at he
    · simp at he; subst he; exact ⟨by decide, fun d h => by cases h⟩
    · cases he
  · intro i d hd
    simp only [line] at hd
    split at hd
    · simp at hd; omega
    · cases hd
  · intro h; cases h

theorem line_calm : line.Calm := ⟨rfl, rfl, .inl rfl⟩

/-! ## An early wake-up -/

/-- 2 and 3 send to 0, without delay and with delay 5; 0 sends to 1 without delay. -/
def joinT : Topology :=
  { n := 4
    up := fun i => if i = 0 then [(2, NEVER), (3, 5)] else if i = 1 then [(0, NEVER)] else []
    down := fun i => if i = 0 then [1] else if i = 2 ∨ i = 3 then [0] else [] }

/-- Federates 0 and 3 have reactions to startup that send; 1 has a timer. -/
def join : Config :=
  { T := joinT
    start := 100
    minDelay := fun _ => -1
    timeout := fun _ => ⟨1000, 0⟩
    interval := 10000000
    fast := false
    q0 := fun i => if i = 1 then [⟨⟨103, 0⟩, none⟩] else []
    c0 := fun i => if i = 0 ∨ i = 3 then [0] else []
    now0 := fun _ => 100
    early := true
    ties := false
    stops := false
    shut := false }

/-- The message of 3, with the tag 105, wakes 0, which has not executed its reaction to startup yet and reports 105 as its
next event; 2 completes the start tag late; 1 is granted 103 and advances; then 0 sends at the start tag. -/
def joinRun : List Act :=
  [.begin 0, .ask 0, .handle 0, .begin 1, .ask 1, .handle 1, .begin 3, .ask 3, .handle 3, .send 3 0 5, .complete 3 true,
   .ask 3, .handle 3, .handle 3, .handle 3, .handle 3, .take 0 false false, .wake 0, .handle 0, .begin 2, .ask 2,
   .complete 2 true, .ask 2, .handle 2, .handle 2, .handle 2, .handle 2, .take 1 false false, .wake 1, .complete 1 true,
   .ask 1, .handle 1, .handle 1, .handle 1, .take 1 false false, .wake 1, .advance 1, .take 0 false false, .wake 0,
   .send 0 1 NEVER, .handle 0, .take 1 false false]

/-! ## A requested stop -/

/-- 0 sends to 1 without delay; 1 has a timer, and nothing else happens. -/
def pair : Config :=
  { T := { n := 2, up := fun i => if i = 1 then [(0, NEVER)] else [], down := fun i => if i = 0 then [1] else [] }
    start := 100
    minDelay := fun _ => -1
    timeout := fun _ => FOREVER_TAG
    interval := 10000000
    fast := false
    q0 := fun i => if i = 1 then [⟨⟨100200, 0⟩, none⟩] else []
    c0 := fun _ => []
    now0 := fun _ => 100
    early := false
    ties := false
    stops := true
    shut := true }

/-- 0 reports that it has no more events, so 1 is granted 100200; both learn that they stop at 100150; 1 gets there; the
reaction to shutdown of 0 sends. -/
def pairRun : List Act :=
  [.begin 0, .ask 0, .complete 0 true, .ask 0, .handle 0, .handle 0, .handle 0, .handle 0,
   .begin 1, .ask 1, .handle 1, .take 1 false false, .wake 1, .complete 1 true, .ask 1, .handle 1, .handle 1, .handle 1,
   .take 1 false false, .wake 1, .learn 0 ⟨100150, 0⟩, .learn 1 ⟨100150, 0⟩, .tick 1 100150, .advance 1,
   .tick 0 100150, .advance 0, .send 0 1 NEVER, .handle 0, .take 1 false false]

/-- The same program, but the connection has the delay 100000, and 0 has a reaction to startup that sends. -/
def late : Config :=
  { pair with
    T := { pair.T with up := fun i => if i = 1 then [(0, 100000)] else [] }
    c0 := fun i => if i = 0 then [0] else []
    shut := false }

/-- 1 learns of the stop and gets to the stop tag 50100 before the message with tag 100100 comes in. -/
def lateRun : List Act :=
  [.begin 0, .ask 0, .handle 0, .begin 1, .ask 1, .handle 1, .take 1 false false, .wake 1,
   .learn 1 ⟨50100, 0⟩, .complete 1 true, .ask 1, .handle 1, .handle 1, .handle 1, .take 1 false false, .wake 1, .tick 1 50100, .advance 1,
   .send 0 1 100000, .handle 0, .take 1 false false]

/-! ## A tie -/

/-- The program `line`, except that a physical action of 0 leads to an output without delay, and 1 has a timer at
100000. -/
def tie : Config :=
  { line with
    minDelay := fun i => if i = 0 then 0 else -1
    timeout := fun _ => ⟨1000000, 0⟩
    q0 := fun i => if i = 1 then [⟨⟨100000, 0⟩, none⟩] else []
    ties := true }

/-- 0 has an event at (100000, 1) and reports it at the physical time 100000; 1 is granted (100000, 0); in the same nanosecond,
the physical action of 0 gets the tag (100000, 0). -/
def tieRun : List Act :=
  [.begin 2, .ask 2, .complete 2 true, .ask 2, .handle 2, .handle 2, .handle 2, .handle 2,
   .begin 0, .ask 0, .handle 0, .take 0 false false, .wake 0,
   .schedule 0 0 ⟨⟨100000, 1⟩, none⟩, .complete 0 true, .tick 0 100000, .ask 0, .handle 0, .handle 0, .handle 0,
   .begin 1, .ask 1, .handle 1, .take 1 false false, .wake 1, .complete 1 true, .ask 1, .handle 1, .handle 1, .handle 1,
   .take 1 false false, .wake 1, .tick 1 100000, .advance 1,
   .physical 0 ⟨⟨100000, 0⟩, some 0⟩, .take 0 false false, .wake 0, .advance 0, .send 0 1 NEVER, .handle 0,
   .take 1 false false]

/-! ## A zero-delay cycle -/

/-- 0 and 1 send to each other without delay. -/
def ring : Config :=
  { T := { n := 2, up := fun i => if i = 0 then [(1, NEVER)] else if i = 1 then [(0, NEVER)] else [],
           down := fun i => if i = 0 then [1] else if i = 1 then [0] else [] }
    start := 100
    minDelay := fun _ => -1
    timeout := fun _ => ⟨1000, 0⟩
    interval := 10000000
    fast := false
    q0 := fun _ => []
    c0 := fun i => if i = 0 then [0] else []
    now0 := fun _ => 100
    early := false
    ties := false
    stops := false
    shut := false }

/-- Both get a provisional grant of the start tag; 0 sends at the start tag, and the message is about to be read by 1. -/
def ringRun : List Act :=
  [.begin 0, .ask 0, .begin 1, .ask 1, .handle 0, .handle 1, .take 0 false false, .wake 0, .take 1 false false, .wake 1,
   .send 0 1 NEVER, .handle 0]

end ReactorC.Fedn
