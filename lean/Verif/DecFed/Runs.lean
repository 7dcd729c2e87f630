import Verif.DecFed.Steps
import Verif.Decentral.Run

/-! Executions of a federation with decentralized coordination by computation, for the examples. -/

set_option linter.unusedVariables false

namespace ReactorC.DecFed
open ReactorC
open ReactorC.Rti (Topology Sane put put_same put_other)
open ReactorC.FedDet (Program Entry Event Inputs Out Fit Single present upTo)
open ReactorC.Level (Config MIN_SLEEP_DURATION Small exempt blocks waitOver newKnown upd)
open ReactorC.Decentral (Ev Delivery due nextTag open_ raise release handle)

inductive Act
  | begin (i : Nat)
  | wait (i : Nat)
  | arm (i : Nat) (v : Int)
  | timeout (i p : Nat)
  | clock (i : Nat) (t : Int)
  | start (i : Nat)
  | finish (i : Nat) (silent : Bool)
  | advance (i : Nat)
  | header (d p : Nat)
  | complete (d p : Nat)
  | absent (d p : Nat)
  | gone (d p : Nat)

instance (s : Decentral.State) (fin : Bool) (u : Tag) : Decidable (Passed s fin u) := by unfold Passed; infer_instance
instance (l : List (Event Nat)) : Decidable (Single l) := by unfold Single; infer_instance

/-- The tags at which there may be something to execute. -/
def dues (S : Setup) (s : Decentral.State) : List Tag := s.q.map (·.tag) ++ [S.P.first, S.P.stop, s.lv.cur]

def PromptC (S : Setup) (g : State) (i : Nat) (t : Int) : Prop :=
  (∀ j ∈ List.range S.P.T.n, t ≤ (g.fed j).lv.now + S.error) ∧
  (∀ u ∈ dues S (g.fed i), u ≤ S.P.stop → ¬ Passed (g.fed i) (g.fin i) u → t ≤ u.time + S.lag i) ∧
  (∀ p ∈ List.range (S.c i).n, ∀ it ∈ g.chan i p, t ≤ it.sent + S.error + S.latency i p)

instance (S : Setup) (g : State) (i : Nat) (t : Int) : Decidable (PromptC S g i t) := by unfold PromptC; infer_instance

theorem PromptC.prompt {S : Setup} {g : State} {i : Nat} {t : Int} (h : PromptC S g i t) : Prompt S g i t := by
  obtain ⟨h1, h2, h3⟩ := h
  refine ⟨fun j hj => h1 j (List.mem_range.2 hj), fun u k => ?_, fun p hp => h3 p (List.mem_range.2 hp)⟩
  obtain ⟨k1, k2, k3⟩ := k
  refine h2 u ?_ k1 k2
  unfold dues
  rw [List.mem_append, List.mem_map]
  rcases k3 with ⟨e, k3, k4⟩ | k3 | k3 | ⟨k3, k4⟩
  · exact .inl ⟨e, k3, k4⟩
  · subst k3; simp
  · subst k3; simp
  · subst k4; simp

def FineC (S : Setup) (g : State) (i : Nat) (silent : Nat → Nat → Bool) : Prop :=
  let s := g.fed i
  let h := (s.lv.cur, inputs (S.c i) s.out (g.loc i) s.lv.cur) :: g.log i
  Fit S.P.T s.lv.cur ∧ Single (g.loc i ++ S.P.scheds i h) ∧
    ∀ d ∈ List.range S.P.T.n, ∀ p ∈ List.range (S.c d).n, (posts S i d p s.lv.cur h s.lv.now (silent d p)).length ≤ 1 ∧
      ∀ it ∈ posts S i d p s.lv.cur h s.lv.now (silent d p), g.sent d p < it.tag ∧ Fit S.P.T it.tag

instance (S : Setup) (g : State) (i : Nat) (silent : Nat → Nat → Bool) : Decidable (FineC S g i silent) := by unfold FineC; infer_instance

/-- Messages are for ports that there are. -/
def Setup.Inside (S : Setup) : Prop := ∀ i, ∀ h, ∀ o ∈ S.P.outs i h, o.dest < S.P.T.n ∧ o.port < (S.c o.dest).n

theorem FineC.fine {S : Setup} (hS : S.Inside) {g : State} {i : Nat} {silent : Nat → Nat → Bool} (h : FineC S g i silent) : Fine S g i silent := by
  obtain ⟨h1, h2, h3⟩ := h
  refine ⟨h1, h2, fun d p => ?_⟩
  by_cases c : d < S.P.T.n ∧ p < (S.c d).n
  · exact h3 d (List.mem_range.2 c.1) p (List.mem_range.2 c.2)
  · have : posts S i d p (g.fed i).lv.cur (((g.fed i).lv.cur, inputs (S.c i) (g.fed i).out (g.loc i) (g.fed i).lv.cur) :: g.log i) (g.fed i).lv.now
        (silent d p) = [] := by
      unfold posts letters
      dsimp only
      have hl : (S.P.outs i (((g.fed i).lv.cur, inputs (S.c i) (g.fed i).out (g.loc i) (g.fed i).lv.cur) :: g.log i)).filterMap (fun o =>
          if o.dest = d ∧ o.port = p ∧ lf_delay_tag (g.fed i).lv.cur o.delay ≤ S.P.stop then
            some (⟨lf_delay_tag (g.fed i).lv.cur o.delay, some o.val, (g.fed i).lv.now⟩ : Item) else none) = [] := by
        rw [List.filterMap_eq_nil_iff]
        intro o ho
        rw [if_neg]
        rintro ⟨rfl, rfl, -⟩
        exact c (hS i _ o ho)
      rw [if_neg]
      · exact hl
      · rintro ⟨-, -, k⟩
        unfold noticeable at k
        simp only [Bool.and_eq_true, decide_eq_true_eq] at k
        exact c k.1.1
    rw [this]
    exact ⟨Nat.zero_le _, fun it hi => by cases hi⟩

def guard_ (p : Prop) [Decidable p] (s : State) : Option State := if p then some s else none

theorem guard_some {p : Prop} [Decidable p] {s s' : State} (h : guard_ p s = some s') : p ∧ s = s' := by
  unfold guard_ at h
  split at h
  · rename_i hp; exact ⟨hp, by simpa using h⟩
  · cases h

def act (S : Setup) (g : State) : Act → Option State
  | .begin i => guard_ (i < S.P.T.n ∧ (g.fed i).lv.phase = .waiting ∧ waitOver (S.c i) (g.fed i).lv.now (S.c i).startTime)
      { g with fed := put g.fed i { g.fed i with lv := { (g.fed i).lv with phase := .atStart, cur := (S.c i).start } } }
  | .wait i => guard_ (i < S.P.T.n ∧ (g.fed i).lv.phase = .running ∧ (g.fed i).waited = none ∧
        waitOver (S.c i) (g.fed i).lv.now (Decentral.waitUntilTime (S.c i) (g.fed i) (nextTag (g.fed i))))
      { g with fed := put g.fed i { g.fed i with waited := some (nextTag (g.fed i)) } }
  | .arm i v => guard_ (i < S.P.T.n ∧ (g.fed i).lv.phase = .running)
      { g with fed := put g.fed i { g.fed i with
        lv := { (g.fed i).lv with staaWait := some ((g.fed i).lv.cur, v, Level.staaUntil (S.c i) (g.fed i).lv.cur v) } } }
  | .timeout i p => match (g.fed i).lv.staaWait with
    | none => none
    | some (t, v, u) => guard_ (i < S.P.T.n ∧ p < (S.c i).n ∧ v = ((S.c i).port p).staa ∧ waitOver (S.c i) (g.fed i).lv.now u ∧
        (g.fed i).lv.cur = t ∧ (g.fed i).lv.status p = .unknown ∧ Small ((g.fed i).lv.known p))
      { g with fed := put g.fed i { g.fed i with
        lv := { Level.updatePort (S.c i) { (g.fed i).lv with status := Level.upd (g.fed i).lv.status p .absent } p (g.fed i).lv.cur with
          hist := .timeout p (g.fed i).lv.cur (g.fed i).lv.now :: (g.fed i).lv.hist } } }
  | .clock i t => guard_ (i < S.P.T.n ∧ (g.fed i).lv.now ≤ t ∧ t + MIN_SLEEP_DURATION ≤ FOREVER ∧ PromptC S g i t)
      { g with fed := put g.fed i { g.fed i with lv := { (g.fed i).lv with now := t } } }
  | .start i => guard_ (i < S.P.T.n ∧ (g.fed i).lv.phase = .atStart ∧ open_ (g.fed i) (S.c i).start)
      { g with fed := put g.fed i (Decentral.start_ (S.c i) (g.fed i) (due (g.fed i).q (S.c i).start)) }
  | .finish i b => guard_ (i < S.P.T.n ∧ (g.fed i).lv.phase = .running ∧ g.fin i = false ∧
        (∀ p ∈ List.range (S.c i).n, blocks (S.c i) (g.fed i).lv.cur (g.fed i).lv.known p = false) ∧ FineC S g i fun _ _ => b)
      (finish S g i fun _ _ => b)
  | .advance i => guard_ (i < S.P.T.n ∧ g.fin i = true ∧ (g.fed i).waited.isSome = true ∧ (g.fed i).lv.cur < nextTag (g.fed i) ∧
        (nextTag (g.fed i)).time < FOREVER ∧ (nextTag (g.fed i)).microstep < UINT_MAX ∧ open_ (g.fed i) (nextTag (g.fed i)) ∧
        (g.fed i).lv.phase = .running)
      { g with fed := put g.fed i (Decentral.advance (S.c i) (g.fed i) (nextTag (g.fed i)) (due (g.fed i).q (nextTag (g.fed i)))), fin := put g.fin i false }
  | .header d p => match g.chan d p with
    | ⟨t, some v, a⟩ :: rest => guard_ (d < S.P.T.n ∧ p < (S.c d).n ∧ ∀ r ∈ (g.fed d).reading, r.1 ≠ p)
      { g with fed := put g.fed d { raise (g.fed d) t with
        reading := (p, t, v) :: (g.fed d).reading, said := Level.upd (g.fed d).said p t } }
    | _ => none
  | .complete d p => match (g.fed d).reading.find? fun r => decide (r.1 = p) with
    | some (q, t, v) => guard_ (d < S.P.T.n ∧ (p, t, v) ∈ (g.fed d).reading ∧ Small ((g.fed d).lv.known p) ∧
        ¬ ((g.fed d).lv.phase = .atStart ∧ t = (S.c d).start))
      { g with
        fed := put g.fed d (release { handle (S.c d) (g.fed d) p t v with reading := (g.fed d).reading.erase (p, t, v) })
        chan := put g.chan d (put (g.chan d) p (g.chan d p).tail) }
    | none => none
  | .absent d p => match g.chan d p with
    | ⟨t, none, a⟩ :: rest => guard_ (d < S.P.T.n ∧ p < (S.c d).n ∧ (∀ r ∈ (g.fed d).reading, r.1 ≠ p) ∧ Small ((g.fed d).lv.known p))
      { g with
        fed := put g.fed d { g.fed d with
          lv := { Level.updatePort (S.c d) (g.fed d).lv p t with hist := .absent p t :: (g.fed d).lv.hist }
          said := Level.upd (g.fed d).said p t }
        chan := put g.chan d (put (g.chan d) p rest) }
    | _ => none
  | .gone d p => guard_ (d < S.P.T.n ∧ p < (S.c d).n ∧ g.chan d p = [] ∧ Small ((g.fed d).lv.known p) ∧
        (g.fed ((S.c d).port p).source).lv.phase = .running ∧ g.fin ((S.c d).port p).source = true ∧
        (g.fed ((S.c d).port p).source).lv.cur = S.P.stop)
      { g with fed := put g.fed d { g.fed d with
        lv := { Level.updatePort (S.c d) (g.fed d).lv p FOREVER_TAG with hist := .gone p :: (g.fed d).lv.hist }
        gone := Level.upd (g.fed d).gone p true } }

theorem act_step {S : Setup} (hS : S.Inside) {g g' : State} {x : Act} (h : act S g x = some g') : Step S g g' := by
  cases x with
  | begin i =>
    obtain ⟨⟨h1, h2, h3⟩, rfl⟩ := guard_some h
    exact .own h1 (.begin h2 h3)
  | wait i =>
    obtain ⟨⟨h1, h2, h3, h4⟩, rfl⟩ := guard_some h
    exact .own h1 (.wait h2 h3 h4)
  | arm i v =>
    obtain ⟨⟨h1, h2⟩, rfl⟩ := guard_some h
    exact .own h1 (.arm h2)
  | timeout i p =>
    unfold act at h
    dsimp only at h
    split at h
    · cases h
    · rename_i t v u he
      obtain ⟨⟨h1, h2, h3, h4, h5, h6, h7⟩, rfl⟩ := guard_some h
      rw [h3] at he
      exact .own h1 (.timeout h2 he h4 h5 h6 h7)
  | clock i t =>
    obtain ⟨⟨h1, h2, h3, h4⟩, rfl⟩ := guard_some h
    exact .clock h1 h2 h3 h4.prompt
  | start i =>
    obtain ⟨⟨h1, h2, h3⟩, rfl⟩ := guard_some h
    exact .start h1 h2 h3 (List.Perm.refl _)
  | finish i b =>
    obtain ⟨⟨h1, h2, h3, h4, h5⟩, rfl⟩ := guard_some h
    exact .finish _ h1 h2 h3 (fun p hp => h4 p (List.mem_range.2 hp)) (h5.fine hS)
  | advance i =>
    obtain ⟨⟨h1, h2, h3, h4, h5, h6, h7, h8⟩, rfl⟩ := guard_some h
    obtain ⟨p, hp⟩ := Option.isSome_iff_exists.1 h3
    exact .advance h1 h2 hp h4 h5 h6 h7 h8 (List.Perm.refl _)
  | header d p =>
    unfold act at h
    dsimp only at h
    split at h
    · rename_i t v a rest he
      obtain ⟨⟨h1, h2, h3⟩, rfl⟩ := guard_some h
      exact .header h1 h2 he h3
    · cases h
  | complete d p =>
    unfold act at h
    dsimp only at h
    split at h
    · rename_i q t v he
      obtain ⟨⟨h1, h2, h3, h4⟩, rfl⟩ := guard_some h
      exact .complete h1 h2 h3 h4
    · cases h
  | absent d p =>
    unfold act at h
    dsimp only at h
    split at h
    · rename_i t a rest he
      obtain ⟨⟨h1, h2, h3, h4⟩, rfl⟩ := guard_some h
      exact .absent h1 h2 he h3 h4
    · cases h
  | gone d p =>
    obtain ⟨⟨h1, h2, h3, h4, h5, h6, h7⟩, rfl⟩ := guard_some h
    exact .gone h1 h2 h3 h4 h5 h6 h7

/-- One action after the other. -/
def run (S : Setup) (g : State) : List Act → Option State
  | [] => some g
  | x :: xs => match act S g x with
    | none => none
    | some g' => run S g' xs

theorem run_reach {S : Setup} (hS : S.Inside) {g g' : State} (h : Reach S g) (xs : List Act) (hr : run S g xs = some g') : Reach S g' := by
  induction xs generalizing g with
  | nil => simp only [run, Option.some.injEq] at hr; rw [← hr]; exact h
  | cons x xs ih =>
    unfold run at hr
    cases hx : act S g x with
    | none => rw [hx] at hr; cases hr
    | some s1 => rw [hx] at hr; exact ih (.step h (act_step hS hx)) hr

/-- From the result of a computation to a reachable state. -/
theorem reach_of_run {S : Setup} (hS : S.Inside) (hs : ∀ i, Single (S.P.init i)) (now : Nat → Int)
    (hn : ∀ i < S.P.T.n, now i + MIN_SLEEP_DURATION ≤ FOREVER ∧ now i ≤ S.P.start + S.lag i ∧ ∀ j < S.P.T.n, now i ≤ now j + S.error)
    (xs : List Act) {p : State → Bool} (h : (run S (init S now) xs).any p = true) : ∃ g, Reach S g ∧ p g = true := by
  cases hr : run S (init S now) xs with
  | none => rw [hr] at h; cases h
  | some g => rw [hr] at h; exact ⟨g, run_reach hS (.init now hs hn) xs hr, h⟩

/-! ## A program -/

/-- Federate 0 sends to federate 1, without delay, and 1 to 0, with a delay of 2 ms. -/
def pingT : Topology :=
  { n := 2
    up := fun i => if i = 1 then [(0, NEVER)] else if i = 0 then [(1, 2000000)] else []
    down := fun i => if i = 0 then [1] else if i = 1 then [0] else [] }

/-- Federate 0 sends how often it has been executed, and has an action, trigger 5, that it schedules once, for 11 ms. Federate 1 answers, and has a
timer, trigger 7, at 11.2 ms. The program starts at 10 ms and stops at 12 ms. -/
def ping : Program Nat :=
  { T := pingT
    start := 10000000
    stop := ⟨12000000, 0⟩
    init := fun i => if i = 1 then [(⟨11200000, 0⟩, 7, 1)] else []
    outs := fun i h =>
      if i = 0 then [⟨1, NEVER, 0, h.length⟩]
      else if i = 1 then match h with
        | (_, x) :: _ => match x 0 with
          | some v => [⟨0, 2000000, 0, v + 10⟩]
          | none => []
        | [] => []
      else []
    scheds := fun i h => match h with
      | [(t, _)] => if i = 0 ∧ t < ⟨11000000, 0⟩ then [(⟨11000000, 0⟩, 5, 1)] else []
      | _ => [] }

def pingRank (i : Nat) : Nat := i

/-- The federates, with an STA for federate 1. -/
def pingS (sta lag1 : Int) : Setup :=
  { P := ping
    c := fun i =>
      { dec := true, n := 1, startTime := 10000000, sta := if i = 1 then sta else 0
        port := fun _ => if i = 1 then { index := 0, delay := NEVER, source := 0 } else { index := 0, delay := 2000000, source := 1 } }
    lag := fun i => if i = 1 then lag1 else 100000
    error := 300000
    latency := fun _ _ => 200000 }

/-- What a federate has executed: the tags and what is present at its port. -/
def saw (l : List (Entry Nat)) : List (Tag × Option Nat) := l.map fun e => (e.1, e.2 0)

/-- What the federates of `ping` execute. -/
def saw0 : List (Tag × Option Nat) := [(⟨12000000, 0⟩, some 11), (⟨11000000, 0⟩, none), (⟨10000000, 0⟩, none)]
def saw1 : List (Tag × Option Nat) :=
  [(⟨12000000, 0⟩, some 3), (⟨11200000, 0⟩, none), (⟨11000000, 0⟩, some 2), (⟨10000000, 0⟩, some 1)]

/-! ## Runs -/

/-- All clocks show the start time at first. -/
def now0 : Nat → Int := fun _ => 10000000

/-- Clocks go on, in units of 10 microseconds. -/
def ck (l : List (Nat × Int)) : List Act := l.map fun x => .clock x.1 (x.2 * 10000)

/-- A run to the end, with an STA of 650 microseconds. -/
def r1 : List Act := [.begin 0, .start 0, .finish 0 true, .begin 1, .start 1, .header 1 0, .complete 1 0, .finish 1 true, .header 0 0, .complete 0 0] ++
  ck [(0, 1030), (1, 1030), (0, 1060), (1, 1060), (0, 1080), (1, 1090), (0, 1100)] ++ [.wait 0, .advance 0, .finish 0 true, .header 1 0, .complete 1 0] ++
  ck [(1, 1110), (0, 1130), (1, 1140), (0, 1160), (1, 1165)] ++
  [.wait 1, .advance 1, .finish 1 true] ++ ck [(0, 1185), (1, 1185)] ++ [.wait 1, .advance 1, .arm 1 0, .timeout 1 0, .finish 1 true] ++ ck [(0, 1200)] ++
  [.wait 0, .advance 0, .finish 0 true, .header 1 0, .complete 1 0] ++ ck [(1, 1210), (0, 1230), (1, 1240), (0, 1260), (1, 1265)] ++
  [.wait 1, .advance 1, .finish 1 true]

/-- A run to the end, with an STA of 700 microseconds: messages take longer, and federate 1 ends when the connection has been closed. -/
def r2 : List Act := [.begin 1, .start 1, .begin 0, .start 0] ++ ck [(0, 1010)] ++ [.finish 0 false] ++ ck [(1, 1030), (0, 1040)] ++
  [.header 1 0] ++ ck [(1, 1040)] ++ [.complete 1 0, .finish 1 false] ++ ck [(1, 1070), (0, 1070), (0, 1085)] ++ [.header 0 0] ++ ck [(0, 1090)] ++
  [.complete 0 0] ++ ck [(1, 1100), (0, 1110)] ++ [.wait 0, .advance 0, .finish 0 true] ++ ck [(0, 1120), (1, 1120), (1, 1130)] ++ [.header 1 0] ++
  ck [(1, 1150)] ++ [.complete 1 0] ++ ck [(0, 1150), (1, 1180)] ++ [.wait 1, .advance 1, .finish 1 true] ++ ck [(0, 1180), (1, 1190), (0, 1200)] ++
  [.wait 1, .advance 1] ++ ck [(0, 1205)] ++ [.wait 0, .advance 0, .finish 0 true] ++ ck [(1, 1210)] ++
  [.header 1 0, .complete 1 0, .gone 1 0, .finish 1 true] ++ ck [(0, 1230), (1, 1240), (0, 1255), (1, 1270)] ++ [.wait 1, .advance 1, .finish 1 true, .gone 0 0]

/-- A run without an STA: federate 1 does not wait for the message of 11 ms. -/
def r3 : List Act := [.begin 0, .start 0, .finish 0 true, .begin 1, .start 1, .header 1 0, .complete 1 0, .finish 1 true, .header 0 0, .complete 0 0] ++
  ck [(0, 1030), (1, 1030), (0, 1060), (1, 1060), (0, 1080), (1, 1090), (0, 1100)] ++ [.wait 0, .advance 0, .finish 0 true] ++ ck [(1, 1119), (1, 1120)] ++
  [.wait 1, .advance 1, .header 1 0, .complete 1 0, .arm 1 0] ++ ck [(1, 1125)] ++ [.timeout 1 0, .finish 1 true, .wait 1, .advance 1]

/-- The sequential execution of `ping`. -/
def pingSeq : List (Nat × Tag) :=
  [(0, ⟨10000000, 0⟩), (1, ⟨10000000, 0⟩), (0, ⟨11000000, 0⟩), (1, ⟨11000000, 0⟩), (1, ⟨11200000, 0⟩), (0, ⟨12000000, 0⟩), (1, ⟨12000000, 0⟩)]

end ReactorC.DecFed
