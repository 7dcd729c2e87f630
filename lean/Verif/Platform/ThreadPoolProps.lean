import Verif.Platform.ThreadPool
import Mathlib.Data.List.Nodup
import Mathlib.Data.List.Range
import Mathlib.Data.List.Perm.Subperm

/-!
# C105: creation of threads where their number is limited
-/

namespace ReactorC.Platform.ThreadPool

/-- The handles that have been given out, the latest first. -/
def handles (l : List (Nat × Nat × Option Nat)) : List Nat := l.filterMap fun e => e.2.2

/-- Some call has been refused. -/
def Refused (s : Zephyr) : Prop := ∃ p f, (p, f, none) ∈ s.log

/-- The caller is in the critical section. -/
def Pc.busy : Pc → Prop
  | .idle => False
  | .want _ => False
  | _ => True

theorem handles_cons (e : Nat × Nat × Option Nat) (l) : handles (e :: l) = (match e.2.2 with | some k => k :: handles l | none => handles l) := by
  unfold handles; rw [List.filterMap_cons]; cases e.2.2 <;> rfl

/-- What holds in all states. -/
structure Inv (N : Nat) (s : Zephyr) : Prop where
  owned : ∀ p, (s.pc p).busy → s.owner = some p ∧ 1 ≤ s.depth
  free : s.owner = none ↔ s.depth = 0
  le : s.tid ≤ N
  count : (∀ p f k, s.pc p ≠ .counted f k) → handles s.log = (List.range s.tid).reverse
  pos : ∀ p f k, s.pc p = .counted f k → s.tid = k + 1 ∧ s.slots k = some f ∧ handles s.log = (List.range k).reverse
  start : ∀ p f, s.pc p = .started f → s.tid < N ∧ s.slots s.tid = some f
  hand : ∀ p f k, s.pc p = .handed f k → k = s.tid ∧ s.tid < N ∧ s.slots k = some f
  runs : ∀ p f k, (p, f, some k) ∈ s.log → s.slots k = some f ∧ k < s.tid
  refused : ∀ p f, (p, f, none) ∈ s.log → s.tid = N
  counted : ∀ p f p' f' k, (p, f, none) ∈ s.log → s.pc p' ≠ .counted f' k
  depth1 : (∀ p f, (p, f, none) ∉ s.log) → s.depth ≤ 1 ∧ ∀ p, s.owner = some p → (s.pc p).busy
  kept : ∀ p f, (p, f, none) ∈ s.log → s.owner = some p ∧ 1 ≤ s.depth ∧ ((s.pc p).busy → 2 ≤ s.depth)

theorem inv_init (N : Nat) : Inv N .init := by
  constructor <;> simp [Zephyr.init, Pc.busy, handles]

theorem inv_step {N : Nat} {s t : Zephyr} (h : Inv N s) (st : Step N s t) : Inv N t := by
  obtain ⟨h1, h2, h3, h4, h5, h6, h7, h8, h9, h10, h11, h12⟩ := h
  cases st with
  | call p f hp =>
    constructor <;> simp only [put] <;> grind [Pc.busy]
  | @lock p f hp ho =>
    constructor <;> simp only [put] <;> grind [Pc.busy]
  | @refuse p f hp hN =>
    have hb := h1 p (by rw [hp]; trivial)
    constructor <;> simp only [put, handles_cons, List.mem_cons] <;> grind [Pc.busy]
  | @start p f hp hN =>
    have hb := h1 p (by rw [hp]; trivial)
    constructor <;> simp only [put] <;> grind [Pc.busy]
  | @hand p f hp =>
    have hb := h1 p (by rw [hp]; trivial)
    constructor <;> simp only [put] <;> grind [Pc.busy]
  | @count p f k hp =>
    have hb := h1 p (by rw [hp]; trivial)
    constructor <;> simp only [put] <;> grind [Pc.busy]
  | @unlock p f k hp =>
    have hb := h1 p (by rw [hp]; trivial)
    constructor <;> simp only [put, Zephyr.release, handles_cons, List.mem_cons] <;> grind [Pc.busy, List.range_succ]

theorem inv_steps {N : Nat} {s t : Zephyr} (h : Inv N s) (st : Steps N s t) : Inv N t := by
  induction st with
  | refl => exact h
  | tail _ st ih => exact inv_step ih st

theorem handles_eq {N : Nat} {s : Zephyr} (h : Inv N s) : ∃ n ≤ s.tid, handles s.log = (List.range n).reverse := by
  by_cases hc : ∀ p f k, s.pc p ≠ .counted f k
  · exact ⟨s.tid, le_refl _, h.count hc⟩
  · push Not at hc
    obtain ⟨p, f, k, hp⟩ := hc
    have := h.pos p f k hp
    exact ⟨k, by omega, this.2.2⟩

/-- Zephyr: however many callers there are and however they interleave, each call that succeeds has a stack of its own, in the array, and its function, and no other, is executed on it. -/
theorem C105_own_stack {N : Nat} {s : Zephyr} (r : Steps N .init s) :
    (handles s.log).Nodup ∧ ∀ p f k, (p, f, some k) ∈ s.log → k < N ∧ s.slots k = some f := by
  have h := inv_steps (inv_init N) r
  obtain ⟨n, _, e⟩ := handles_eq h
  refine ⟨by rw [e]; exact List.nodup_reverse.mpr List.nodup_range, fun p f k m => ?_⟩
  have := h.runs p f k m
  have := h.le
  exact ⟨by omega, (h.runs p f k m).1⟩

/-- No thread is refused while there is one left, and none is created when there is not. -/
theorem C105_refused_only_when_none_is_left {N : Nat} {s : Zephyr} (r : Steps N .init s) :
    (handles s.log).length ≤ N ∧ (Refused s → (handles s.log).length = N) := by
  have h := inv_steps (inv_init N) r
  obtain ⟨n, hn, e⟩ := handles_eq h
  have := h.le
  refine ⟨by rw [e]; simp only [List.length_reverse, List.length_range]; omega, fun ⟨p, f, m⟩ => ?_⟩
  rw [h.count (fun p' f' k => h.counted p f p' f' k m), h.refused p f m]
  simp

/-- As long as none has been refused, some caller in the function can go on: they do not block each other for good. -/
theorem C105_calls_return_partial {N : Nat} {s : Zephyr} (r : Steps N .init s) (hr : ¬ Refused s) (ha : ∃ p, s.pc p ≠ .idle) :
    ∃ p t, s.pc p ≠ .idle ∧ Step N s t ∧ t.pc p ≠ s.pc p ∧ ∀ q, q ≠ p → t.pc q = s.pc q := by
  have h := inv_steps (inv_init N) r
  have hd := h.depth1 (fun p f m => hr ⟨p, f, m⟩)
  obtain ⟨p, hp⟩ := ha
  have key : ∃ p, s.pc p ≠ .idle ∧ ∀ f, s.pc p = .want f → s.owner = none := by
    cases ho : s.owner with
    | none => exact ⟨p, hp, fun _ _ => rfl⟩
    | some q =>
      have hb := hd.2 q ho
      refine ⟨q, fun e => ?_, fun f e => ?_⟩ <;> rw [e] at hb <;> exact hb.elim
  obtain ⟨p, hp, hw⟩ := key
  cases e : s.pc p with
  | idle => exact absurd e hp
  | want f => exact ⟨p, _, hp, .lock p e (.inl (hw f e)), by simp [put, e], fun q hq => by simp [put, hq]⟩
  | locked f =>
    by_cases hN : (N : Int) - 1 < s.tid
    · exact ⟨p, _, hp, .refuse p e hN, by simp [put, e], fun q hq => by simp [put, hq]⟩
    · exact ⟨p, _, hp, .start p e hN, by simp [put, e], fun q hq => by simp [put, hq]⟩
  | started f => exact ⟨p, _, hp, .hand p e, by simp [put, e], fun q hq => by simp [put, hq]⟩
  | handed f k => exact ⟨p, _, hp, .count p e, by simp [put, e], fun q hq => by simp [put, hq]⟩
  | counted f k => exact ⟨p, _, hp, .unlock p e, by simp [put, e], fun q hq => by simp [put, hq]⟩

/-- After a refusal no call by any other thread ever returns, not even with an error: the mutex stays locked. -/
theorem C105_calls_after_a_refusal_not_returning {N : Nat} {s t : Zephyr} (r : Steps N .init s) {p f : Nat} (hr : (p, f, none) ∈ s.log)
    (st : Steps N s t) (q : Nat) (hq : q ≠ p) : (t.log.filter fun e => e.1 = q) = s.log.filter fun e => e.1 = q := by
  have hs := inv_steps (inv_init N) r
  have main : (p, f, none) ∈ t.log ∧ (t.log.filter fun e => e.1 = q) = s.log.filter fun e => e.1 = q := by
    induction st with
    | refl => exact ⟨hr, rfl⟩
    | @tail t u st' step ih =>
      have ht := inv_steps hs st'
      obtain ⟨m, e⟩ := ih
      have ho := ht.kept p f m
      cases step with
      | @refuse p' f' hp hN =>
        have hb := ht.owned p' (by rw [hp]; trivial)
        have : p' = p := by rw [ho.1] at hb; exact (Option.some.inj hb.1).symm
        subst this
        exact ⟨List.mem_cons_of_mem _ m, by rw [List.filter_cons_of_neg (by simp [Ne.symm hq])]; exact e⟩
      | @unlock p' f' k hp =>
        have hb := ht.owned p' (by rw [hp]; trivial)
        have : p' = p := by rw [ho.1] at hb; exact (Option.some.inj hb.1).symm
        subst this
        exact ⟨List.mem_cons_of_mem _ m, by rw [List.filter_cons_of_neg (by simp [Ne.symm hq])]; exact e⟩
      | _ => exact ⟨m, e⟩
  exact main.2

/-! ## RP2040 -/

/-- What holds in all states. -/
structure PicoInv (s : Pico) (d : Option Nat) : Prop where
  fresh : s.called = false → d = none
  len : s.launched.length = if s.called then 1 else 0
  waits : d = none → s.sem = 0
  value : ∀ v, d = some v → s.sem = 1 ∧ s.ret = some v

theorem pico_inv {s : Pico} {d : Option Nat} (r : PicoReach s d) : PicoInv s d := by
  induction r with
  | init => constructor <;> simp [Pico.init]
  | @create s d f _ ih =>
    obtain ⟨h1, h2, h3, h4⟩ := ih
    unfold Pico.create
    by_cases hc : s.called = true
    · rw [if_pos hc]; exact ⟨h1, h2, h3, h4⟩
    · rw [if_neg hc]
      have := h1 (by simpa using hc)
      rw [if_neg hc] at h2
      constructor <;> simp_all
  | @finish s v _ hc ih =>
    obtain ⟨h1, h2, h3, h4⟩ := ih
    constructor <;> simp_all [Pico.finish]
  | @join s d h s' r x _ e ih =>
    unfold Pico.join at e
    split at e
    · cases e; exact ih
    · split at e
      · cases e
      · split at e
        · rename_i a b
          cases d with
          | none => exact absurd (ih.waits rfl) a
          | some v => have := ih.value v rfl; omega
        · cases e
          rename_i a b
          have : s.sem - 1 + 1 = s.sem := by omega
          rw [this]; exact ih

/-- RP2040: there is one thread at most; it executes what the first call asked for, and further calls are refused without effect. -/
theorem C105_pico_one_thread {s : Pico} {d : Option Nat} (r : PicoReach s d) (f : Nat) :
    (s.called = true → s.create f = (s, 1, none)) ∧
      (s.called = false → (s.create f).2 = (0, some magic) ∧ (s.create f).1.launched = [f]) ∧ s.launched.length ≤ 1 := by
  have h := pico_inv r
  refine ⟨fun hc => by simp [Pico.create, hc], fun hc => ?_, ?_⟩
  · have h2 := h.len
    simp [hc] at h2
    simp [Pico.create, hc, h2]
  · rw [h.len]; split <;> omega

/-- Joining waits until the function has returned, and then gives what it has returned, every time. -/
theorem C105_pico_join {s : Pico} {d : Option Nat} (r : PicoReach s d) :
    s.join magic = match d with | none => none | some v => some (s, 0, some v) := by
  have h := pico_inv r
  cases d with
  | none => simp [Pico.join, h.waits rfl]
  | some v => obtain ⟨h1, h2⟩ := h.value v rfl; cases s; simp only at h1 h2; subst h1; subst h2; simp [Pico.join]

/-! ## The hypotheses are met -/

/-- Two callers, one stack: the first call succeeds, the second is refused. -/
def refusal : Zephyr := ⟨some 1, 1, 1, put (fun _ => none) 0 (some 7), fun _ => .idle, [(1, 8, none), (0, 7, some 0)]⟩

theorem refusal_reached : Steps 1 .init refusal := by
  have h := ((((((Steps.refl.tail (Step.call (N := 1) (s := .init) 0 7 rfl)).tail (.lock 0 (f := 7) rfl (.inl rfl))).tail
    (.start 0 (f := 7) rfl (by decide))).tail (.hand 0 (f := 7) rfl)).tail (.count 0 (f := 7) (k := 0) rfl)).tail (.unlock 0 (f := 7) (k := 0) rfl))
  have h := (((h.tail (.call 1 8 rfl)).tail (.lock 1 (f := 8) rfl (.inl rfl))).tail (.refuse 1 (f := 8) rfl (by decide)))
  convert h using 1
  simp only [refusal, Zephyr.release, Zephyr.init]
  congr 1
  funext q
  simp only [put]
  split
  · rfl
  · split <;> rfl

example : Refused refusal := ⟨1, 8, by simp [refusal]⟩
example : handles refusal.log = [0] := rfl

example : PicoReach (((Pico.init.create 5).1).finish 9) (some 9) := .finish 9 (.create 5 .init) rfl
example : ((((Pico.init.create 5).1).finish 9).join magic).map (·.2) = some (0, some 9) := by decide
example : (Pico.init.create 5).1.join magic = none := by decide
example : ((Pico.init.create 5).1.create 6).2 = (1, none) := by decide

end ReactorC.Platform.ThreadPool
