import Verif.FedDet.Stuck
import Verif.FedDet.Multi

/-!
# C72: a federation does not get stuck, and its execution ends with the results of the program

`Step` (Verif.FedDet.Run) gives the steps of the threads of the federates and of the RTI, in any order.  Some of them change nothing that
matters: physical time passes, or the thread that waits for a grant wakes up and goes on waiting (`Waits`).  A federation is stuck when no
other step is possible, now or when time has passed.  `Ended` says that all federates have come to their stop tag and have
resigned.  A program is asked to have a sequential execution that is done: no trigger has two events with one tag and no tag is near
the greatest microstep.
-/

set_option linter.unusedVariables false

namespace ReactorC.FedDet
open ReactorC
open ReactorC.Rti (Topology Down Up Sys Sane put put_same put_other)
open ReactorC.Fedn (Config Fed State Ev Act Pc FInv)

variable {V : Type} {P : Program V} {M : Timing} {rank : Nat → Nat}

/-- `s` is all that the program does. -/
def Done (P : Program V) (rank : Nat → Nat) (s : Seq V) : Prop := Seq.Reach P rank s ∧ ∀ j u, ¬ s.Due P j u

/-- A step that is more than a wait. -/
def Works (P : Program V) (M : Timing) (x y : St V) : Prop := Step P M x y ∧ ¬ Waits P M x y

/-- The federation can go on, now or when the physical clock of a federate has got to some time. -/
def GoesOn (P : Program V) (M : Timing) (x : St V) : Prop :=
  (∃ y, Works P M x y) ∨ ∃ i t y, Step P M x (x.tick P M i t) ∧ Works P M (x.tick P M i t) y

/-- A thread that waits for a grant wakes up and goes on waiting; perhaps it sends its next event tag once more. -/
def Rewakes (P : Program V) (M : Timing) (x y : St V) : Prop :=
  ∃ i < P.T.n, ∃ o t, (x.s.fed i).pc = .waiting o t ∧ y = { x with s := Fedn.post (conf P M) x.s (.wake i) } ∧ y.s.fed i = x.s.fed i

/-- An execution that goes on for ever, if only by physical time passing. -/
def Run (P : Program V) (M : Timing) (f : Nat → St V) : Prop := Reach P M (f 0) ∧ ∀ n, Step P M (f n) (f (n + 1))

/-- What can always go on does go on. -/
def Fair (P : Program V) (M : Timing) (f : Nat → St V) : Prop :=
  ∀ N, (∀ n, N ≤ n → GoesOn P M (f n)) → ∃ n, N ≤ n ∧ ¬ Waits P M (f n) (f (n + 1))

/-! ## Helpers -/

section
variable {x y : St V}

theorem Run.reach {f : Nat → St V} (h : Run P M f) (n : Nat) : Reach P M (f n) := by
  induction n with
  | zero => exact h.1
  | succ n ih => exact .step ih (h.2 n)

theorem Reach.suffix (h : Reach P M x) (hP : P.Ok rank) (hM : M.Ok) {s : Seq V} (hs : Done P rank s) (i : Nat) : x.log i <:+ s.log i := by
  have hA := (h.inv hP hM).exec hP hM
  have hB := (hs.1.inv hP).exec hP
  cases ha : x.log i with
  | nil => exact List.nil_suffix
  | cons a l =>
    have pa : (x.exec P).passed i a.1 := hA.reached i a (by show a ∈ x.log i; rw [ha]; exact List.mem_cons_self)
    have e := agree hP hA hB pa (show (s.toExec P rank).passed i a.1 from fun j u k => absurd k (hs.2 j u))
    have hso := hA.sorted i
    replace e : upTo a.1 (x.log i) = upTo a.1 (s.log i) := e
    replace hso : (x.log i).Pairwise fun a b => b.1 < a.1 := hso
    rw [upTo_all (l := x.log i)] at e
    · rw [← ha, e]; exact upTo_suffix (hB.sorted i) _
    · intro b hb
      rw [ha] at hb hso
      rcases List.mem_cons.1 hb with rfl | hb
      · exact Tag.le_refl _
      · exact Tag.le_of_lt ((List.pairwise_cons.1 hso).1 b hb)

theorem gen_suffix {log log' : Nat → List (Entry V)} (hs : ∀ i, (log' i).Pairwise fun a b => b.1 < a.1) (h : ∀ i, log i <:+ log' i) {i : Nat} {t : Tag}
    {k : Nat} {v : V} (g : Gen P log i t k v) : Gen P log' i t k v := by
  have key : ∀ j, ∀ x ∈ log j, upTo x.1 (log j) = upTo x.1 (log' j) := by
    intro j x hx
    obtain ⟨p, hp⟩ := h j
    have hs' := hs j
    rw [← hp, List.pairwise_append] at hs'
    rw [← hp]
    unfold upTo
    rw [List.filter_append]
    have : p.filter (fun y => decide (y.1 ≤ x.1)) = [] := by
      rw [List.filter_eq_nil_iff]
      intro a ha
      rw [decide_eq_true_eq]
      exact Tag.not_le.2 (hs'.2.2 a ha x hx)
    rw [this]; rfl
  cases g with
  | init h => exact .init h
  | @sched _ x e hx he => exact .sched (x := x) ((h i).subset hx) (by rw [← key i x hx]; exact he)
  | @mail j x o hx ho hm => exact .mail (j := j) (x := x) ((h j).subset hx) (by rw [← key j x hx]; exact ho) hm

theorem Reach.not_full (h : Reach P M x) (hP : P.Ok rank) (hM : M.Ok) {s : Seq V} (hs : Done P rank s) : ¬ Full P x := by
  rintro ⟨i, hi, t, k, v, hg, ht, hn⟩
  have hI := hs.1.inv hP
  have hg' := gen_suffix hI.sorted (h.suffix hP hM hs) hg
  rcases (hI.gen i (t, k, v)).1 hg' with c | ⟨y, c, _⟩
  · exact hs.2 i t ⟨hi, ht, .inl ⟨_, c, rfl⟩⟩
  · exact hn (hI.fits i _ c).2.2.2

theorem Reach.not_clash (h : Reach P M x) (hP : P.Ok rank) (hM : M.Ok) {s : Seq V} (hs : Done P rank s) : ¬ Clash P x := by
  rintro ⟨i, hi, e, he, hn⟩
  have h1 := h.once hP hM i e.1 e.2.1
  have h2 := genCnt_suffix (P := P) (h.suffix hP hM hs) i e.1 e.2.1
  have h3 := (seq_once hP hs.1 i e.1 e.2.1).1
  have h4 : 0 < cnt e.1 e.2.1 (x.pend i) := by
    unfold Fresh at hn
    push Not at hn
    obtain ⟨e', he', k⟩ := hn
    obtain ⟨k1, k2⟩ := Prod.mk.inj k
    rw [← k1, ← k2]; exact cnt_pos he'
  unfold madeCnt at h1
  rcases he with he | he
  · have := cnt_pos he; omega
  · have := cnt_pos he; omega

/-- The same is left to do. -/
def Same (P : Program V) (x y : St V) : Prop :=
  mFar P y = mFar P x ∧ mTodo P y = mTodo P x ∧ mPhase P y = mPhase P x ∧ mUp P y = mUp P x ∧ mDown P y = mDown P x

theorem same_tick (x : St V) (i : Nat) (t : Int) : Same P x (x.tick P M i t) := by
  have gen : ∀ (F : Nat → Fed → Nat), (∀ k (f : Fed), F k { f with now := t } = F k f) →
      ∀ j, F j (put x.s.fed i { x.s.fed i with now := t } j) = F j (x.s.fed j) := by
    intro F e j
    by_cases c : j = i
    · subst c; rw [put_same]; exact e _ _
    · rw [put_other _ _ _ c]
  refine ⟨total_eq fun j _ => ?_, total_eq fun j _ => ?_, total_eq fun j _ => ?_, total_eq fun j _ => rfl, total_eq fun j _ => ?_⟩
  · exact gen (fun _ f => far P f) (fun _ _ => rfl) j
  · exact gen (fun j f => todo f (x.outs j) (x.scheds j)) (fun _ _ => rfl) j
  · exact gen (fun j f => phase P j f (x.s.sys.rti.node j).connected (x.s.sys.up j)) (fun _ _ => rfl) j
  · exact gen (fun j f => (x.s.sys.rti.out j).length - f.taken) (fun _ _ => rfl) j

theorem can_works (h : Can P M x) : ∃ y, Works P M x y := by
  obtain ⟨y, h1, h2⟩ := h
  exact ⟨y, h1, fun k => k.not_less h2⟩

theorem CanSoon.goesOn (h : CanSoon P M x) : GoesOn P M x := by
  rcases h with h | ⟨i, t, h1, h2⟩
  · exact .inl (can_works h)
  · obtain ⟨y, hy⟩ := can_works h2
    exact .inr ⟨i, t, y, .idle (.tick i t) trivial h1, hy⟩

theorem noput (g : Nat → Fed) (i : Nat) : put g i (g i) = g := by
  funext j
  by_cases c : j = i
  · subst c; exact put_same _ _ _
  · exact put_other _ _ _ c

theorem tick_now (x : St V) (i : Nat) : x.tick P M i (x.s.fed i).now = x := by
  show ({ x with s := { x.s with fed := put x.s.fed i (x.s.fed i) } } : St V) = x
  rw [noput]

/-- A run in which every step works or lets time pass does not work for ever. -/
theorem eventually_ticks (f : Nat → St V) : ∀ (x : St V) (n : Nat), f n = x →
    (∀ m, n ≤ m → Less P (f m) (f (m + 1)) ∨ ∃ i t, f (m + 1) = (f m).tick P M i t) → ∃ N, ∀ m, N ≤ m → ∃ i t, f (m + 1) = (f m).tick P M i t := by
  intro x
  induction x using (less_wf P).induction with
  | _ x ih =>
    intro n e hn
    by_cases c : ∃ m, n ≤ m ∧ Less P x (f m)
    · obtain ⟨m, h1, h2⟩ := c
      exact ih (f m) h2 m rfl fun k hk => hn k (by omega)
    · have hsame : ∀ d, Same P x (f (n + d)) := by
        intro d
        induction d with
        | zero => rw [Nat.add_zero, e]; exact ⟨rfl, rfl, rfl, rfl, rfl⟩
        | succ d ihd =>
          rcases hn (n + d) (by omega) with k | ⟨i, t, k⟩
          · exfalso
            refine c ⟨n + d + 1, by omega, ?_⟩
            unfold Less at k ⊢
            unfold Same at ihd
            omega
          · have := same_tick (P := P) (M := M) (f (n + d)) i t
            rw [← Nat.add_assoc, k]
            unfold Same at this ihd ⊢
            omega
      refine ⟨n, fun m hm => ?_⟩
      rcases hn m hm with k | k
      · exfalso
        refine c ⟨m + 1, by omega, ?_⟩
        have := hsame (m - n)
        rw [show n + (m - n) = m by omega] at this
        unfold Less at k ⊢
        unfold Same at this
        omega
      · exact k

theorem ended_tick {i : Nat} {t : Int} : Ended P (x.tick P M i t) ↔ Ended P x := by
  have e : ∀ j, ((x.tick P M i t).s.fed j).pc = (x.s.fed j).pc := by
    intro j
    show (put x.s.fed i _ j).pc = _
    by_cases c : j = i
    · subst c; rw [put_same]
    · rw [put_other _ _ _ c]
  constructor
  · intro h j hj
    have := h j hj
    rw [e] at this; exact this
  · intro h j hj
    rw [e]; exact h j hj

end

/-! ## The properties -/

section
variable {x : St V}

/-- A federation gets stuck only at its end: all federates have come to the stop tag and have resigned.  In every other state a
thread can do something that is more than to go on waiting, now or when time has passed. -/
theorem C72_not_stuck_partial (hP : P.Ok rank) (hM : M.Ok) (hK : P.T.Consistent) (hfit : Fit P.T P.stop) {s : Seq V} (hs : Done P rank s)
    (h : Reach P M x) : Ended P x ∨ GoesOn P M x := by
  by_cases c : Ended P x
  · exact .inl c
  · obtain ⟨R, hS⟩ := h.seen hP hM hK hfit
    exact .inr ((h.inv hP hM).goes_on hP hM hfit (h.not_full hP hM hs) (h.not_clash hP hM hs) hS c).goesOn

/-- It does not work for ever: in every execution there comes a point after which nothing happens but that physical time passes, if
the threads that wait for grants do not wake up for nothing again and again. -/
theorem C72_does_not_work_for_ever_partial (hP : P.Ok rank) (hM : M.Ok) (hK : P.T.Consistent) (hfit : Fit P.T P.stop) {f : Nat → St V} (hf : Run P M f)
    (hw : ∃ N, ∀ n, N ≤ n → ¬ Rewakes P M (f n) (f (n + 1))) : ∃ N, ∀ n, N ≤ n → ∃ i t, f (n + 1) = (f n).tick P M i t := by
  obtain ⟨N, hN⟩ := hw
  refine eventually_ticks f (f N) N rfl fun m hm => ?_
  obtain ⟨R, hS⟩ := (hf.reach m).seen hP hM hK hfit
  rcases ((hf.reach m).inv hP hM).less hP hM hfit hS (hf.2 m) with k | k | k
  · exact .inl k
  · exact .inr k
  · obtain ⟨i, k0, k1, k2⟩ := k
    by_cases c : ∃ o t, ((f m).s.fed i).pc = .waiting o t
    · obtain ⟨o, t, c⟩ := c
      exact absurd ⟨i, k0, o, t, c, k1, k2⟩ (hN m hm)
    · right
      have e : Fedn.wake ((f m).s.fed i) = ((f m).s.fed i, none) := by
        unfold Fedn.wake
        split
        · rename_i o t k; exact absurd ⟨o, t, k⟩ c
        · rfl
      have e2 : f (m + 1) = f m := by
        rw [k1]
        show ({ f m with s := { sys := Fedn.sendNet i (Fedn.wake ((f m).s.fed i)).2 (f m).s.sys, fed := put (f m).s.fed i (Fedn.wake ((f m).s.fed i)).1 } } : St V) = f m
        rw [e, noput]
        rfl
      rw [e2]
      exact ⟨0, ((f m).s.fed 0).now, (tick_now _ _).symm⟩

/-- Every execution in which threads that can go on do go on comes to the end, and then every federate has executed what the
sequential execution of the program says. -/
theorem C72_every_fair_execution_ends_partial (hP : P.Ok rank) (hM : M.Ok) (hK : P.T.Consistent) (hfit : Fit P.T P.stop) {s : Seq V} (hs : Done P rank s)
    {f : Nat → St V} (hf : Run P M f) (hfair : Fair P M f) (hw : ∃ N, ∀ n, N ≤ n → ¬ Rewakes P M (f n) (f (n + 1))) :
    ∃ N, ∀ n, N ≤ n → Ended P (f n) ∧ ∀ i < P.T.n, (f n).log i = s.log i := by
  obtain ⟨N, hN⟩ := C72_does_not_work_for_ever_partial hP hM hK hfit hf hw
  have hend : ∀ d, Ended P (f (N + d)) ↔ Ended P (f N) := by
    intro d
    induction d with
    | zero => exact Iff.rfl
    | succ d ih =>
      obtain ⟨i, t, e⟩ := hN (N + d) (by omega)
      rw [← Nat.add_assoc, e, ended_tick, ih]
  have hE : Ended P (f N) := by
    by_contra c
    obtain ⟨n, h1, h2⟩ := hfair N fun n hn => by
      rcases C72_not_stuck_partial hP hM hK hfit hs (hf.reach n) with k | k
      · rw [show n = N + (n - N) by omega] at k
        exact absurd ((hend _).1 k) c
      · exact k
    exact h2 (.inl (hN n h1))
  refine ⟨N, fun n hn => ?_⟩
  have hn' : Ended P (f n) := by
    rw [show n = N + (n - N) by omega]; exact (hend _).2 hE
  exact ⟨hn', fun i hi => C71_federation_computes_all_partial hP hM (hf.reach n) hs.1 hi (.inr (hn' i hi).1) hs.2⟩

/-- However an execution has begun, it can be carried on to the end. -/
theorem C72_the_end_can_be_reached_partial (hP : P.Ok rank) (hM : M.Ok) (hK : P.T.Consistent) (hfit : Fit P.T P.stop) {s : Seq V} (hs : Done P rank s)
    (h : Reach P M x) : ∃ y, Relation.ReflTransGen (Step P M) x y ∧ Ended P y ∧ ∀ i < P.T.n, y.log i = s.log i := by
  have key : ∃ y, Relation.ReflTransGen (Step P M) x y ∧ Ended P y := by
    induction x using (less_wf P).induction with
    | _ x ih =>
      by_cases c : Ended P x
      · exact ⟨x, .refl, c⟩
      · obtain ⟨R, hS⟩ := h.seen hP hM hK hfit
        rcases (h.inv hP hM).goes_on hP hM hfit (h.not_full hP hM hs) (h.not_clash hP hM hs) hS c with ⟨y, k1, k2⟩ | ⟨i, t, k0, y, k1, k2⟩
        · obtain ⟨z, m1, m2⟩ := ih y k2 (.step h k1)
          exact ⟨z, .head k1 m1, m2⟩
        · have st : Step P M x (x.tick P M i t) := .idle (.tick i t) trivial k0
          obtain ⟨z, m1, m2⟩ := ih y (by
            have := same_tick (P := P) (M := M) x i t
            unfold Less at k2 ⊢
            unfold Same at this
            omega) (.step (.step h st) k1)
          exact ⟨z, .head st (.head k1 m1), m2⟩
  obtain ⟨y, h1, h2⟩ := key
  have hy : Reach P M y := by
    clear h2
    induction h1 with
    | refl => exact h
    | tail _ st ih => exact .step ih st
  exact ⟨y, h1, h2, fun i hi => C71_federation_computes_all_partial hP hM hy hs.1 hi (.inr (h2 i hi).1) hs.2⟩

/-- When all federates have resigned, nothing is left to do. -/
theorem C72_nothing_is_left_at_the_end_partial (hP : P.Ok rank) (hM : M.Ok) (h : Reach P M x) (he : Ended P x) : ¬ GoesOn P M x := by
  have key : ∀ {x : St V}, Reach P M x → Ended P x → ¬ ∃ y, Works P M x y := by
    rintro x h he ⟨y, st, hn⟩
    have hI := h.inv hP hM
    have hup : ∀ i, x.s.sys.up i = [] := by
      intro i
      by_contra c
      have h1 := (hI.sys hP hM).numbered.1 i c
      have := hI.live.conn (i := i) (.inl c)
      rw [(he i h1).2] at this; cases this
    have same : ∀ {s : State}, s = x.s → Waits P M x { x with s := s } := by
      rintro s rfl; exact Waits.refl x
    have nohandle : ∀ {i}, ¬ Fedn.pre (conf P M) x.s (.handle i) := by
      intro i k
      replace k : (Fedn.handle (conf P M) i x.s.sys).isSome = true := k
      unfold Fedn.handle at k
      rw [hup] at k; cases k
    have mover : ∀ {i a}, Mover i a → Fedn.pre (conf P M) x.s a → Fedn.post (conf P M) x.s a = x.s := by
      intro i a ha hp
      obtain ⟨hi, _⟩ := hI.mover hP hM ha hp
      have hg := (he i hi).1
      cases a with
      | ask j =>
        have ha : j = i := ha
        subst ha
        have e : Fedn.ask (conf P M) j (x.s.fed j) = (x.s.fed j, none) := by unfold Fedn.ask; rw [hg]
        show ({ sys := Fedn.sendNet j (Fedn.ask (conf P M) j (x.s.fed j)).2 x.s.sys, fed := put x.s.fed j (Fedn.ask (conf P M) j (x.s.fed j)).1 } : State) = x.s
        rw [e, noput]; rfl
      | wake j =>
        have ha : j = i := ha
        subst ha
        have e : Fedn.wake (x.s.fed j) = (x.s.fed j, none) := by unfold Fedn.wake; rw [hg]
        show ({ sys := Fedn.sendNet j (Fedn.wake (x.s.fed j)).2 x.s.sys, fed := put x.s.fed j (Fedn.wake (x.s.fed j)).1 } : State) = x.s
        rw [e, noput]; rfl
      | advance j =>
        have ha : j = i := ha
        subst ha
        have := hp.2.1
        rw [hg] at this; cases this
      | _ => exact absurd ha id
    have notfree : ∀ {i d n}, ¬ Fedn.pre (conf P M) x.s (.take i d n) := by
      intro i d n k
      have h1 := (he i k.1).1
      have h2 := k.2.1
      unfold Fed.free at h2
      rw [h1] at h2; cases h2
    cases st with
    | idle a ha hp =>
      cases a with
      | tick i t => exact hn (.inl ⟨i, t, rfl⟩)
      | begin i =>
        have h1 := (he i hp.1).1
        rw [hp.2.1] at h1; cases h1
      | resume i =>
        refine hn (same ?_)
        have e : Fedn.resume (x.s.fed i) = x.s.fed i := by unfold Fedn.resume; rw [(he i hp).1]
        show ({ x.s with fed := put x.s.fed i (Fedn.resume (x.s.fed i)) } : State) = x.s
        rw [e, noput]
      | exit i =>
        have h1 := (he i hp.1).1
        rw [hp.2] at h1; cases h1
      | _ => exact absurd ha id
    | moves i a ha hp hne => exact hn (same (mover ha hp))
    | enters i a ha hp hpc hx =>
      rw [mover ha hp] at hx
      exact hpc hx
    | sends i o r ho hp =>
      have h1 := (he i hp.1).1
      rw [hp.2.2.2.1] at h1; cases h1
    | drops i o r ho hpc hd =>
      have hi : i < P.T.n := by
        by_contra c
        rw [(hI.outside i (Nat.le_of_not_lt c)).2] at ho; cases ho
      have h1 := (he i hi).1
      rw [hpc] at h1; cases h1
    | schedules i e r hs hp _ =>
      have h1 := (he i hp.1).1
      rw [hp.2.1] at h1; cases h1
    | completes i need _ _ hp _ =>
      have h1 := (he i hp.1).1
      rw [hp.2] at h1; cases h1
    | handles i _ hp => exact nohandle hp
    | forwards i d e r _ _ hp => exact nohandle hp
    | takes i direct need _ hp => exact notfree hp
    | receives i direct need m e r _ _ hp _ => exact notfree hp
    | resigns i hg hc _ hp =>
      rw [(he i hp).2] at hc; cases hc
  rintro (k | ⟨i, t, y, k1, k2⟩)
  · exact key h he k
  · exact key (.step h k1) (ended_tick.2 he) ⟨y, k2⟩

/-- No federate finds two events for one trigger at one tag: neither in what it schedules nor in the messages it gets, in whatever order they
come. -/
theorem C72_no_two_events_for_one_trigger_partial (hP : P.Ok rank) (hM : M.Ok) {s : Seq V} (hs : Done P rank s) (h : Reach P M x) {i : Nat} (hi : i < P.T.n)
    {e : Event V} (he : e ∈ x.scheds i ∨ e ∈ x.down i) : Fresh (x.pend i) e := by
  by_contra c
  exact h.not_clash hP hM hs ⟨i, hi, e, he, c⟩

end

/-! ## The hypotheses are met -/

/-- An execution that is given by a list of steps, after which only time passes. -/
theorem run_exists {l : List Move} : ∀ {x y : St V}, moves P M x l = some y →
    ∃ f : Nat → St V, f 0 = x ∧ (∀ n, Step P M (f n) (f (n + 1))) ∧ ∀ n, l.length ≤ n → f n = y := by
  induction l with
  | nil =>
    intro x y e
    cases e
    refine ⟨fun _ => x, rfl, fun n => ?_, fun _ _ => rfl⟩
    have : Step P M x (x.tick P M 0 (x.s.fed 0).now) := .idle (.tick 0 (x.s.fed 0).now) trivial (Int.le_refl _)
    rwa [tick_now] at this
  | cons m l ih =>
    intro x y e
    unfold moves at e
    cases hm : move P M x m with
    | none => rw [hm] at e; cases e
    | some z =>
      rw [hm] at e
      obtain ⟨f, h1, h2, h3⟩ := ih e
      refine ⟨fun n => match n with | 0 => x | n + 1 => f n, rfl, fun n => ?_, fun n hn => ?_⟩
      · cases n with
        | zero => show Step P M x (f 0); rw [h1]; exact move_step hm
        | succ n => exact h2 n
      · cases n with
        | zero => simp at hn
        | succ n => exact h3 n (by simpa using hn)

/-- A list of steps that leads to the end gives an execution that meets the hypotheses of the theorems. -/
theorem fair_exists (hP : P.Ok rank) (hM : M.Ok) (hs : ∀ i, Single (P.init i)) {l : List Move}
    (h : (moves P M (St.init P M) l).any (fun x => decide (∀ i < P.T.n, (x.s.fed i).pc = .gone ∧ (x.s.sys.rti.node i).connected = false)) = true) :
    ∃ f, f 0 = St.init P M ∧ Run P M f ∧ Fair P M f ∧ ∃ N, ∀ n, N ≤ n → ¬ Rewakes P M (f n) (f (n + 1)) := by
  cases e : moves P M (St.init P M) l with
  | none => rw [e] at h; cases h
  | some y =>
    rw [e] at h
    have hE : ∀ i < P.T.n, (y.s.fed i).pc = .gone ∧ (y.s.sys.rti.node i).connected = false := of_decide_eq_true h
    obtain ⟨f, h1, h2, h3⟩ := run_exists e
    have hr : Run P M f := ⟨h1 ▸ .init hs, h2⟩
    refine ⟨f, h1, hr, fun N hN => ?_, l.length, fun n hn => ?_⟩
    · have := hN (N + l.length) (by omega)
      have hre := hr.reach (N + l.length)
      rw [h3 _ (by omega)] at this hre
      exact absurd this (C72_nothing_is_left_at_the_end_partial hP hM hre hE)
    · rw [h3 n hn, h3 (n + 1) (by omega)]
      rintro ⟨i, hi, o, t, k, _⟩
      rw [(hE i hi).1] at k; cases k

theorem demo_consistent : demo.T.Consistent := by
  intro i u w h
  simp only [demo, demoT] at h ⊢
  split at h
  · rename_i k
    subst k
    simp at h
    rcases h with h | h
    · rw [h.1]; decide
    · rw [h.1]; decide
  · cases h

theorem demo_fit : Fit demo.T demo.stop := by
  refine ⟨?_, by decide⟩
  right
  decide

theorem demo_done : ∃ s, Done demo demoRank s ∧ seen (s.log 2) = demoSeen := by
  have h : (Seq.run demo demoRank ⟨fun _ => [], demo.init⟩ demoSeq).any (fun s => decide (s.dues demo = [] ∧ seen (s.log 2) = demoSeen)) = true := by
    decide +kernel
  cases e : Seq.run demo demoRank ⟨fun _ => [], demo.init⟩ demoSeq with
  | none => rw [e] at h; cases h
  | some s =>
    rw [e] at h
    obtain ⟨h1, h2⟩ := of_decide_eq_true h
    refine ⟨s, ⟨Seq.run_reach demo_ok (.init demo_single) demo_single e, fun j u k => ?_⟩, h2⟩
    rw [← mem_dues, h1] at k; cases k

/-- The execution of `demo` with clocks, to the end: all federates resign. -/
def demoEnd : List Move := demoSecond ++ [.resigns 1, .handles 1, .resigns 0, .resigns 2, .handles 2, .handles 0]

/-- The executions `demoThird` (as fast as possible; federates 0 and 1 resign before federate 2 begins) and `demoEnd` (with clocks) meet the
hypotheses, and what the program does is more than nothing. -/
example : demo.Ok demoRank ∧ demo.T.Consistent ∧ Fit demo.T demo.stop ∧ (∃ s, Done demo demoRank s ∧ seen (s.log 2) = demoSeen) ∧
    (∃ f, f 0 = St.init demo fastT ∧ Run demo fastT f ∧ Fair demo fastT f ∧ ∃ N, ∀ n, N ≤ n → ¬ Rewakes demo fastT (f n) (f (n + 1))) ∧
    ∃ f, f 0 = St.init demo lateT ∧ Run demo lateT f ∧ Fair demo lateT f ∧ ∃ N, ∀ n, N ≤ n → ¬ Rewakes demo lateT (f n) (f (n + 1)) :=
  ⟨demo_ok, demo_consistent, demo_fit, demo_done,
    fair_exists demo_ok (by unfold Timing.Ok; decide) demo_single (l := demoThird ++ List.replicate 9 (.handles 2)) (by decide +kernel),
    fair_exists demo_ok (by unfold Timing.Ok; decide) demo_single (l := demoEnd) (by decide +kernel)⟩

/-- In the middle of it, federate 2 waits for a grant and wakes up for nothing, and it is not stuck. -/
example : ∃ x, Reach demo lateT x ∧ decide ((x.s.fed 2).pc = .waiting none ⟨100, 0⟩ ∧ (x.s.fed 0).pc = .starting) = true :=
  moves_exists demo_single (l := demoSecond.take 20) (by decide +kernel)

end ReactorC.FedDet
