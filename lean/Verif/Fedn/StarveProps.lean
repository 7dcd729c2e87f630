import Verif.Fedn.Starve

/-! Property C72, where it fails: a federate may be held back for ever. -/

namespace ReactorC.Fedn
open ReactorC
open ReactorC.Rti (Topology Down Up Sys Sane put)

/-- A federate `g` with a message to be sent at `t` at the earliest, as far as it has told the RTI, is granted the end of time.
Then it may execute as many tags as it likes: unless it has something to confirm, a federate `d` downstream does not get to
the tag at which the RTI expects a message that `g` sends at `t`, as long as `g` does not resign. -/
theorem C72_granted_the_end_of_time_holds_back_downstream {C : Config} (hO : C.Ok) (hC : C.Calm)
    (hN : ¬ ∃ u, Rti.OnZeroDelayCycle C.T u) {s : State} (hr : Reach C s) {g d : Nat} {w : Int} (hg : g < C.T.n) (hd : d < C.T.n)
    (hw : (g, w) ∈ C.T.up d) (htime : C.timeout g ≤ FOREVER_TAG) (hpc : (s.fed g).pc = .executing)
    (hlast : FOREVER_TAG ≤ (s.fed g).lastTAG) {t m : Tag} (ht : Sane C.T t) (hF : t ≠ FOREVER_TAG) (hm : Sane C.T m)
    (hmF : m ≠ FOREVER_TAG) (hst : ⟨C.start, 0⟩ ≤ t) (hdone : s.sys.done g < t) (hnet : s.sys.net g ≤ t)
    (hdel : lf_delay_tag t w ≤ m) {s' : State} (hs : Steps C g s s') (hb : ∀ i, s'.sys.rti.broken i = false)
    (hc : (s'.sys.rti.node g).connected = true) (hn : Up.resign ∉ s'.sys.up g) (hex : (s'.fed d).pc = .executing) :
    (s'.fed d).cur < m := by
  have hf := ((hr.inv hO hC).good g hg).inv (by rw [hpc]; exact fun k => by cases k)
  have hstop := Tag.le_trans hf.stopTimeout htime
  have hd' := ((hs.reach hr).inv hO hC).good d hd
  have hg' : (s'.fed d).pc ≠ .gone := by rw [hex]; exact fun k => by cases k
  have hst' : (s'.fed d).started = true := by
    have := (hd'.inv hg').pc
    unfold PcOk at this
    rw [hex] at this
    exact this
  exact held_back hO hC hN hr hg hd hw ⟨hlast, hstop, Tag.le_trans hf.curStop hstop, fun o t e => by rw [hpc] at e; cases e⟩
    ht hF hm hmF hst hdone hnet hdel hs hb hc hn hst' hg'

/-- 0 sends to 1 and 1 sends to 2, without delay.  Federate 1 has a reaction to startup that sends. -/
def relay : Config :=
  { T := { n := 3
           up := fun i => if i = 1 then [(0, NEVER)] else if i = 2 then [(1, NEVER)] else []
           down := fun i => if i = 0 then [1] else if i = 1 then [2] else [] }
    start := 100
    minDelay := fun _ => -1
    timeout := fun _ => FOREVER_TAG
    interval := 10000000
    fast := false
    q0 := fun _ => []
    c0 := fun i => if i = 1 then [0] else []
    now0 := fun _ => 100
    early := false
    ties := false
    stops := false
    shut := false }

/-- Federate 0 resigns; 1 and 2 report that they are at the start tag; 1 is granted the end of time and executes the start tag. -/
def relayRun : List Act :=
  [.leave 0, .handle 0, .begin 1, .ask 1, .handle 1, .take 1 false false, .wake 1, .begin 2, .ask 2, .handle 2]

theorem relay_ok : relay.Ok := by
  refine ⟨⟨by decide, fun i u w h => ?_, fun i u w h => ?_⟩, fun i j h => ?_, by decide, by decide, ?_, ?_, ?_, by decide, ?_⟩
  · simp only [relay] at h ⊢
    repeat' split at h
    all_goals simp at h
    all_goals omega
  · simp only [relay] at h
    have : IsI64 NEVER := by decide
    repeat' split at h
    all_goals simp at h
    all_goals rw [h.2]; exact this
  · simp only [relay] at h ⊢
    repeat' split at h
    all_goals simp at h
    all_goals omega
  · intro i; show (⟨100, 0⟩ : Tag) ≤ FOREVER_TAG; decide
  · intro i e he; cases he
  · intro i d hd
    simp only [relay] at hd
    split at hd
    · simp at hd; omega
    · cases hd
  · intro h; cases h

theorem relay_noCycle : ¬ ∃ u, Rti.OnZeroDelayCycle relay.T u := by
  let rank : Nat → Nat := fun i => if i = 2 then 0 else if i = 1 then 1 else 2
  have edge : ∀ i u w, (u, w) ∈ relay.T.up i → rank i < rank u := by
    intro i u w h
    simp only [relay, rank] at h ⊢
    repeat' split at h
    all_goals simp at h
    all_goals rw [h.1]; subst_vars; decide
  have path : ∀ e u ws, Rti.Path relay.T (fun _ => true) e u ws → rank e < rank u := by
    intro e u ws h
    induction h with
    | last u w _ h => exact edge e u w h
    | step u i w ws _ h _ ih => exact Nat.lt_trans ih (edge i u w h)
  rintro ⟨u, ws, h, _⟩
  exact Nat.lt_irrefl _ (path u u ws h)

/-- A list of steps, none of which confirms a tag of `g`. -/
theorem run_steps {C : Config} {g : Nat} {l : List Act} (hl : ∀ a ∈ l, Unconfirmed g a) :
    ∀ {s s0 s' : State}, Steps C g s0 s → run C s l = some s' → Steps C g s0 s' := by
  induction l with
  | nil => intro s s0 s' h e; cases e; exact h
  | cons a l ih =>
    intro s s0 s' h e
    unfold run at e
    split at e
    · rename_i hp
      exact ih (fun b hb => hl b (List.mem_cons_of_mem _ hb)) (h.step a hp (hl a List.mem_cons_self)) e
    · cases e

deriving instance DecidableEq for Rti.Up

/-- What follows: federate 1 sends to 2, goes on at 200, sends again and goes on; federate 2 reads both messages and is woken by
each. -/
def relayMore : List Act :=
  [.send 1 2 NEVER, .schedule 1 100 ⟨⟨200, 0⟩, some 0⟩, .complete 1 false, .handle 1, .take 2 false false, .wake 2,
   .ask 1, .tick 1 200, .advance 1, .send 1 2 NEVER, .schedule 1 100 ⟨⟨300, 0⟩, some 0⟩, .complete 1 false, .handle 1,
   .take 2 false false, .wake 2, .ask 1, .tick 1 300, .advance 1]

/-- **The RTI lets a federate starve.**  After its only upstream federate has resigned, federate 1 is granted the end of time.  It
goes on executing and sends messages to federate 2, which come in; but federate 2 does not get to execute the start tag, whatever
happens, as long as 1 does not resign, fail or lose its connection. -/
theorem C72_starves_when_upstream_has_resigned : relay.Ok ∧ relay.Calm ∧ (¬ ∃ u, Rti.OnZeroDelayCycle relay.T u) ∧
    ∃ s, Reach relay s ∧ (s.fed 2).started = false ∧ (∃ t, (s.fed 2).pc = .waiting none t) ∧
      (∀ s', Steps relay 1 s s' → (∀ i, s'.sys.rti.broken i = false) → (s'.sys.rti.node 1).connected = true →
        Up.resign ∉ s'.sys.up 1 → (s'.fed 2).pc ≠ .executing) ∧
      ∃ s', Steps relay 1 s s' ∧ (s'.sys.rti.broken 0 = false ∧ s'.sys.rti.broken 1 = false ∧ s'.sys.rti.broken 2 = false) ∧ (s'.sys.rti.node 1).connected = true ∧ s'.sys.up 1 = [] ∧
        s'.sys.rti.out 2 = [.msg ⟨100, 0⟩, .msg ⟨200, 0⟩] ∧ (s'.fed 2).taken = 2 ∧ (s'.fed 1).pc = .executing ∧
        (s'.fed 1).cur = ⟨300, 0⟩ := by
  refine ⟨relay_ok, ⟨rfl, rfl, .inl rfl⟩, relay_noCycle, ?_⟩
  have e1 : (run relay (init relay) relayRun).any (fun s => decide ((s.fed 2).started = false ∧
      (s.fed 2).pc = .waiting none ⟨100, 0⟩ ∧ (s.fed 1).pc = .executing ∧ FOREVER_TAG ≤ (s.fed 1).lastTAG ∧
      s.sys.done 1 = NEVER_TAG ∧ s.sys.net 1 = ⟨100, 0⟩)) = true := by decide +kernel
  have e2 : (run relay (init relay) (relayRun ++ relayMore)).any (fun (s : State) => decide (s.sys.rti.broken 0 = false ∧ s.sys.rti.broken 1 = false ∧ s.sys.rti.broken 2 = false) && decide ((s.sys.rti.node 1).connected = true ∧
      s.sys.up 1 = [] ∧ s.sys.rti.out 2 = [.msg ⟨100, 0⟩, .msg ⟨200, 0⟩] ∧ (s.fed 2).taken = 2 ∧ (s.fed 1).pc = .executing ∧
      (s.fed 1).cur = ⟨300, 0⟩)) = true := by decide +kernel
  have e3 : ∀ (l l' : List Act) (s : State), run relay s (l ++ l') = (run relay s l).bind fun s => run relay s l' := by
    intro l l'
    induction l with
    | nil => intro s; rfl
    | cons a l ih =>
      intro s
      show (if pre relay s a then run relay (post relay s a) (l ++ l') else none) =
        (if pre relay s a then run relay (post relay s a) l else none).bind _
      split
      · exact ih _
      · rfl
  rw [e3] at e2
  cases hs : run relay (init relay) relayRun with
  | none => rw [hs] at e1; cases e1
  | some s =>
    rw [hs] at e1 e2
    obtain ⟨k1, k2, k3, k4, k5, k6⟩ := of_decide_eq_true e1
    have hr := run_reach .init hs
    refine ⟨s, hr, k1, ⟨_, k2⟩, fun s' h hb hc hn hex => ?_, ?_⟩
    · have key := C72_granted_the_end_of_time_holds_back_downstream relay_ok ⟨rfl, rfl, .inl rfl⟩ relay_noCycle hr
        (g := 1) (d := 2) (w := NEVER) (by decide) (by decide) (by decide) (Tag.le_refl _) k3 k4 (t := ⟨100, 0⟩) (m := ⟨100, 0⟩)
        (by decide) (by decide) (by decide) (by decide) (by decide) (by rw [k5]; decide) (by rw [k6]; decide) (by decide)
        h hb hc hn hex
      have hst := (((h.reach hr).inv relay_ok ⟨rfl, rfl, .inl rfl⟩).good 2 (by decide)).inv
        (by rw [hex]; exact fun k => by cases k)
      have h1 : (⟨100, 0⟩ : Tag) ≤ (s'.fed 2).cur := hst.start
      exact absurd key (Tag.not_lt.2 h1)
    · cases hs' : run relay s relayMore with
      | none => simp [hs'] at e2
      | some s' =>
        rw [Option.bind_some, hs'] at e2
        rw [Option.any_some, Bool.and_eq_true] at e2
        have j := And.intro (of_decide_eq_true e2.1) (of_decide_eq_true e2.2)
        have hst : Steps relay 1 s s' := run_steps (by
          intro a ha
          simp only [relayMore, List.mem_cons, List.not_mem_nil, or_false] at ha
          rcases ha with h | h | h | h | h | h | h | h | h | h | h | h | h | h | h | h | h | h <;> subst h <;> simp [Unconfirmed]) .refl hs'
        exact ⟨s', hst, j⟩

end ReactorC.Fedn
