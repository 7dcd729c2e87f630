import Verif.Np.Spec

/-!
# A scheduler reduced to what it does to reactions

Each reaction is idle, waiting, running or has been executed to its end and is not idle yet.  A reaction starts only if no
reaction that is not idle has a lower level, the tag advances only if all reactions are idle.  This suffices for what is
expected of the record.
-/

namespace ReactorC.Adaptive

open Np (Ev starts finishes thisTag Order LevelOrder Complete put)

/-- The state of a reaction. -/
inductive Stage
  | idle
  | waiting
  | running
  | ended
deriving DecidableEq, Repr

structure Abs where
  st : Nat → Stage
  hist : List Ev
  stopped : Bool

def Abs.init : Abs := ⟨fun _ => .idle, [], false⟩

/-- The steps. -/
inductive Abs.Step (level : Nat → Nat) : Abs → Abs → Prop
  | open (A : Abs) (r : Nat) : A.stopped = false → (∀ r, starts r (thisTag A.hist) = 0) →
      Step level A ⟨if A.st r = .idle then put A.st r .waiting else A.st, .trigger r :: A.hist, false⟩
  | trigger (A : Abs) (r' r : Nat) : A.stopped = false → A.st r' = .running → level r' < level r →
      Step level A ⟨if A.st r = .idle then put A.st r .waiting else A.st, .trigger r :: A.hist, false⟩
  | start (A : Abs) (w r : Nat) : A.stopped = false → A.st r = .waiting → (∀ r', A.st r' ≠ .idle → level r ≤ level r') →
      Step level A ⟨put A.st r .running, .start w r :: A.hist, false⟩
  | finish (A : Abs) (w r : Nat) : A.stopped = false → A.st r = .running →
      Step level A ⟨put A.st r .ended, .finish w r :: A.hist, false⟩
  | done (A : Abs) (r : Nat) : A.stopped = false → A.st r = .ended → Step level A ⟨put A.st r .idle, A.hist, false⟩
  | advance (A : Abs) : A.stopped = false → (∀ r, A.st r = .idle) → Step level A ⟨A.st, .advance :: A.hist, false⟩
  | stop (A : Abs) : A.stopped = false → (∀ r, A.st r = .idle) → Step level A ⟨A.st, .stop :: A.hist, true⟩

inductive Abs.Reach (level : Nat → Nat) : Abs → Prop
  | init : Reach level Abs.init
  | step {A B : Abs} : Reach level A → Abs.Step level A B → Reach level B

/-- What the record of this tag says about a reaction. -/
def Agrees (q : List Ev) (r : Nat) : Stage → Prop
  | .idle => (Ev.trigger r ∈ q → starts r q = 1 ∧ finishes r q = 1) ∧ (Ev.trigger r ∉ q → starts r q = 0 ∧ finishes r q = 0)
  | .waiting => Ev.trigger r ∈ q ∧ starts r q = 0 ∧ finishes r q = 0
  | .running => Ev.trigger r ∈ q ∧ starts r q = 1 ∧ finishes r q = 0
  | .ended => Ev.trigger r ∈ q ∧ starts r q = 1 ∧ finishes r q = 1

/-- The record agrees with the state. -/
structure Abs.Ok (level : Nat → Nat) (A : Abs) : Prop where
  now : ∀ r, Agrees (thisTag A.hist) r (A.st r)
  below : ∀ r r', starts r (thisTag A.hist) ≠ 0 → A.st r' ≠ .idle → level r ≤ level r'
  order : LevelOrder level (thisTag A.hist)
  past : ∀ later e before, A.hist = later ++ e :: before → (e = .advance ∨ e = .stop) →
    Complete (thisTag before) ∧ LevelOrder level (thisTag before)
  last : ∀ later before, A.hist = later ++ .stop :: before → later = []
  halt : A.stopped = false → ∀ e ∈ A.hist, e ≠ .stop
  quiet : A.stopped = true → ∀ r, A.st r = .idle

theorem order_cons {level : Nat → Nat} {q : List Ev} {e : Ev} (h : LevelOrder level q)
    (he : ∀ w r', e = .start w r' → (∀ r, level r < level r' → starts r q ≠ 0 → finishes r q ≠ 0) ∧
      ∀ r, starts r q ≠ 0 → level r ≤ level r') : LevelOrder level (e :: q) := by
  intro later w r' before hq r hr hs
  cases later with
  | nil =>
    obtain ⟨rfl, rfl⟩ := List.cons.inj hq
    obtain ⟨h1, h2⟩ := he w r' rfl
    refine h1 r hr ?_
    have hne : r' ≠ r := by rintro rfl; omega
    simpa [starts, hne] using hs
  | cons e' later =>
    obtain ⟨rfl, hq'⟩ := List.cons.inj hq
    replace hq' : q = later ++ .start w r' :: before := hq'
    refine h later w r' before hq' r hr ?_
    cases e with
    | start w2 r2 =>
      by_cases k : r2 = r
      · subst k
        obtain ⟨_, h2⟩ := he w2 r2 rfl
        have := h2 r' (by rw [hq']; clear hs hq hq' h he h2
                          induction later with
                          | nil => simp [starts]
                          | cons a l ih => cases a <;> simp [starts, ih])
        omega
      · simpa [starts, k] using hs
    | _ => simpa [starts] using hs

theorem Abs.Ok.init (level : Nat → Nat) : Abs.Ok level Abs.init where
  now r := by simp [Abs.init, Agrees, thisTag, starts, finishes]
  below r r' h := by simp [Abs.init, thisTag, starts] at h
  order := by
    intro later w r' before h
    simp [Abs.init, thisTag] at h
  past later e before h := by simp [Abs.init] at h
  last later before h := by simp [Abs.init] at h
  halt _ e h := by simp [Abs.init] at h
  quiet h := by simp [Abs.init] at h

section
variable {level : Nat → Nat} {A : Abs}

/-- The part about the past, for an event that does not end the tag. -/
theorem Abs.Ok.cons (h : Abs.Ok level A) (hs : A.stopped = false) (e : Ev) (he : e ≠ .advance) (he' : e ≠ .stop) :
    (∀ later e' before, e :: A.hist = later ++ e' :: before → (e' = .advance ∨ e' = .stop) →
      Complete (thisTag before) ∧ LevelOrder level (thisTag before)) ∧
    (∀ later before, e :: A.hist = later ++ .stop :: before → later = []) ∧
    (∀ x ∈ e :: A.hist, x ≠ .stop) ∧ thisTag (e :: A.hist) = e :: thisTag A.hist := by
  refine ⟨fun later e' before k ke => ?_, fun later before k => ?_, fun x hx => ?_, ?_⟩
  · cases later with
    | nil => obtain ⟨rfl, _⟩ := List.cons.inj k; rcases ke with rfl | rfl <;> contradiction
    | cons a l => exact h.past l e' before (List.cons.inj k).2 ke
  · cases later with
    | nil => exact absurd (List.cons.inj k).1 he'
    | cons a l =>
      exact absurd rfl (h.halt hs .stop (by rw [(List.cons.inj k).2]; simp))
  · rcases List.mem_cons.1 hx with rfl | hx
    · exact he'
    · exact h.halt hs x hx
  · cases e <;> first | rfl | contradiction

theorem Abs.Ok.trigger (h : Abs.Ok level A) (hs : A.stopped = false) (r : Nat)
    (hb : ∀ x, starts x (thisTag A.hist) ≠ 0 → level x ≤ level r)
    (hn : A.st r = .idle → starts r (thisTag A.hist) = 0) :
    Abs.Ok level ⟨if A.st r = .idle then put A.st r .waiting else A.st, .trigger r :: A.hist, false⟩ := by
  obtain ⟨p1, p2, p3, p4⟩ := h.cons hs (.trigger r) (by simp) (by simp)
  refine ⟨fun x => ?_, fun x y hx hy => ?_, ?_, p1, p2, fun _ => p3, by simp⟩
  · dsimp only
    rw [p4]
    have hx := h.now x
    split
    · rename_i hi
      by_cases k : x = r
      · subst k
        rw [hi] at hx
        have h0 := hn hi
        have : Ev.trigger x ∉ thisTag A.hist := fun m => by have := (hx.1 m).1; omega
        simpa [put, Agrees, starts, finishes] using hx.2 this
      · have k' : r ≠ x := fun e => k e.symm
        simp only [put, k, if_false]
        cases hst : A.st x <;> rw [hst] at hx <;> simpa [Agrees, starts, finishes, k, k'] using hx
    · rename_i hi
      by_cases k : x = r
      · subst k
        cases hst : A.st x <;> rw [hst] at hx
        · exact absurd hst hi
        all_goals exact ⟨by simp, by simpa [starts, finishes] using hx.2⟩
      · cases hst : A.st x <;> rw [hst] at hx <;> simpa [Agrees, starts, finishes, k] using hx
  · dsimp only at hx hy
    rw [p4] at hx
    have hx' : starts x (thisTag A.hist) ≠ 0 := by simpa [starts] using hx
    split at hy
    · by_cases k : y = r
      · subst k; exact hb x hx'
      · simp only [put, k, if_false] at hy; exact h.below x y hx' hy
    · exact h.below x y hx' hy
  · dsimp only; rw [p4]
    exact order_cons h.order (by simp)

theorem Abs.Ok.step {B : Abs} (h : Abs.Ok level A) (hs : Abs.Step level A B) : Abs.Ok level B := by
  cases hs with
  | «open» r h1 h2 => exact h.trigger h1 r (fun x hx => absurd (h2 x) hx) (fun _ => h2 r)
  | trigger r' r h1 h2 h3 =>
    refine h.trigger h1 r (fun x hx => ?_) (fun _ => ?_)
    · have := h.below x r' hx (by rw [h2]; simp); omega
    · by_contra hc
      have := h.below r r' hc (by rw [h2]; simp); omega
  | start w r h1 h2 h3 =>
    obtain ⟨p1, p2, p3, p4⟩ := h.cons h1 (.start w r) (by simp) (by simp)
    have hr := h.now r
    rw [h2] at hr
    refine ⟨fun x => ?_, fun x y hx hy => ?_, ?_, p1, p2, fun _ => p3, by simp⟩
    · dsimp only
      rw [p4]
      have hx := h.now x
      by_cases k : x = r
      · subst k
        simpa [put, Agrees, starts, finishes] using hr
      · have k' : r ≠ x := fun e => k e.symm
        simp only [put, k, if_false]
        cases hst : A.st x <;> rw [hst] at hx <;> simpa [Agrees, starts, finishes, k'] using hx
    · dsimp only at hx hy
      rw [p4] at hx
      have hy' : A.st y ≠ .idle := by
        by_cases k : y = r
        · subst k; rw [h2]; simp
        · simpa [put, k] using hy
      by_cases k : r = x
      · subst k; exact h3 y hy'
      · exact h.below x y (by simpa [starts, k] using hx) hy'
    · dsimp only; rw [p4]
      refine order_cons h.order fun w' r' e => ?_
      obtain ⟨_, rfl⟩ := (Ev.start.injEq ..).mp e
      refine ⟨fun x hx hsx => ?_, fun x hsx => h.below x r hsx (by rw [h2]; simp)⟩
      have hxi : A.st x = .idle := by
        by_contra hc
        have := h3 x hc
        omega
      have := h.now x
      rw [hxi] at this
      by_cases k : Ev.trigger x ∈ thisTag A.hist
      · have := (this.1 k).2; omega
      · have := (this.2 k).1; omega
  | finish w r h1 h2 =>
    obtain ⟨p1, p2, p3, p4⟩ := h.cons h1 (.finish w r) (by simp) (by simp)
    have hr := h.now r
    rw [h2] at hr
    refine ⟨fun x => ?_, fun x y hx hy => ?_, ?_, p1, p2, fun _ => p3, by simp⟩
    · dsimp only
      rw [p4]
      have hx := h.now x
      by_cases k : x = r
      · subst k
        simpa [put, Agrees, starts, finishes] using hr
      · have k' : r ≠ x := fun e => k e.symm
        simp only [put, k, if_false]
        cases hst : A.st x <;> rw [hst] at hx <;> simpa [Agrees, starts, finishes, k'] using hx
    · dsimp only at hx hy
      rw [p4] at hx
      refine h.below x y (by simpa [starts] using hx) ?_
      by_cases k : y = r
      · subst k; rw [h2]; simp
      · simpa [put, k] using hy
    · dsimp only; rw [p4]
      exact order_cons h.order (by simp)
  | done r h1 h2 =>
    have hr := h.now r
    rw [h2] at hr
    refine ⟨fun x => ?_, fun x y hx hy => ?_, h.order, h.past, h.last, fun _ => h.halt h1, by simp⟩
    · by_cases k : x = r
      · subst k
        simp only [put, if_true]
        exact ⟨fun _ => hr.2, fun hc => absurd hr.1 hc⟩
      · simp only [put, k, if_false]; exact h.now x
    · refine h.below x y hx ?_
      by_cases k : y = r
      · subst k; rw [h2]; simp
      · simpa [put, k] using hy
  | advance h1 h2 =>
    refine ⟨fun x => ?_, fun x y hx => ?_, ?_, fun later e before k ke => ?_, fun later before k => ?_, fun _ x hx => ?_, by simp⟩
    · dsimp only; rw [h2 x]; simp [Agrees, thisTag, starts, finishes]
    · simp [thisTag, starts] at hx
    · intro later w r' before k
      simp [thisTag] at k
    · cases later with
      | nil =>
        obtain ⟨_, rfl⟩ := List.cons.inj k
        refine ⟨fun r => ?_, h.order⟩
        have := h.now r
        rw [h2 r] at this
        exact this
      | cons a l => exact h.past l e before (List.cons.inj k).2 ke
    · cases later with
      | nil => simp at k
      | cons a l => exact absurd rfl (h.halt h1 .stop (by rw [(List.cons.inj k).2]; simp))
    · rcases List.mem_cons.1 hx with rfl | hx
      · simp
      · exact h.halt h1 x hx
  | stop h1 h2 =>
    refine ⟨fun x => ?_, fun x y hx hy => absurd (h2 y) hy, ?_, fun later e before k ke => ?_, fun later before k => ?_, by simp,
      fun _ => h2⟩
    · have := h.now x
      dsimp only; rw [h2 x] at this ⊢
      simpa [Agrees, thisTag, starts, finishes] using this
    · dsimp only
      exact order_cons h.order (by simp)
    · cases later with
      | nil =>
        obtain ⟨_, rfl⟩ := List.cons.inj k
        refine ⟨fun r => ?_, h.order⟩
        have := h.now r
        rw [h2 r] at this
        exact this
      | cons a l => exact h.past l e before (List.cons.inj k).2 ke
    · cases later with
      | nil => rfl
      | cons a l => exact absurd rfl (h.halt h1 .stop (by rw [(List.cons.inj k).2]; simp))

theorem Abs.Reach.ok (h : Abs.Reach level A) : Abs.Ok level A := by
  induction h with
  | init => exact .init level
  | step _ hs ih => exact ih.step hs

end

end ReactorC.Adaptive
