import Verif.Gedf.Model

/-!
# The workers, the mutex and the condition variable
-/

set_option linter.unusedVariables false

namespace ReactorC.Gedf

open Np (Ev put put_same put_other put_cases total total_congr total_put total_le total_full total_pos total_const)

theorem Config.front_none {C : Config} {q : List Nat} (h : C.front q = none) : q = [] := by
  cases q with
  | nil => rfl
  | cons r q =>
    unfold Config.front at h
    cases hf : C.front q with
    | none => rw [hf] at h; cases h
    | some r' => rw [hf] at h; dsimp only at h; split at h <;> cases h

theorem Config.front_some {C : Config} : ∀ {q : List Nat} {r : Nat}, C.front q = some r →
    r ∈ q ∧ ∀ r' ∈ q, C.index r ≤ C.index r'
  | [], r, h => by cases h
  | a :: q, r, h => by
    unfold Config.front at h
    cases hf : C.front q with
    | none =>
      rw [hf] at h
      cases h
      rw [front_none hf]
      exact ⟨by simp, fun r' k => by rw [List.mem_singleton.1 k]; exact Nat.le_refl _⟩
    | some b =>
      rw [hf] at h
      dsimp only at h
      obtain ⟨h1, h2⟩ := front_some hf
      split at h
      · rename_i hab
        cases h
        refine ⟨by simp, fun r' k => ?_⟩
        rcases List.mem_cons.1 k with k | k
        · rw [k]; exact Nat.le_refl _
        · exact Nat.le_trans hab (h2 r' k)
      · rename_i hab
        cases h
        refine ⟨List.mem_cons_of_mem _ h1, fun r' k => ?_⟩
        rcases List.mem_cons.1 k with k | k
        · rw [k]; omega
        · exact h2 r' k

/-- The thread has the mutex. -/
def Pc.inside : Pc → Bool
  | .boot | .loop | .insert _ _ | .tag | .events | .lock .boot _ | .lock .events _ => true
  | _ => false

/-- The thread is counted as idle. -/
def Pc.sleeping : Pc → Bool
  | .wait | .woken => true
  | _ => false

/-- The thread advances the tag. -/
def Pc.charge : Pc → Bool
  | .tag | .pause | .events | .lock .events _ | .insert .events _ => true
  | _ => false

/-- The main thread before it lets the workers go on. -/
def Pc.booting : Pc → Bool
  | .boot | .lock .boot _ | .insert .boot _ => true
  | _ => false

/-- How often the thread has locked the mutex. -/
def Pc.locks : Pc → Nat
  | .insert .boot _ => 2
  | .boot | .loop | .insert _ _ | .tag | .events | .lock .boot _ | .lock .events _ => 1
  | _ => 0

def Pc.sleeper (p : Pc) : Int := if p.sleeping then 1 else 0

/-- A thread at this statement has the reaction in its hands. -/
def Pc.Holds : Pc → Nat → Prop
  | .lock who r', r | .insert who r', r => r = r' ∨ who = .running r
  | .run r', r | .done r', r => r = r'
  | _, _ => False

structure Crew (C : Config) (s : State) : Prop where
  mutex : ∀ w, s.owner = some w ↔ (s.pc w).inside = true
  depth : s.depth = match s.owner with
    | none => 0
    | some w => (s.pc w).locks
  idle : (s.idle : Int) = total (fun w => (s.pc w).sleeper) C.n
  main : (s.pc C.n).booting = true ∨ s.pc C.n = .exited
  beyond : ∀ w, C.n < w → s.pc w = .exited
  worker : ∀ w, w < C.n → (s.pc w).booting = false
  early : (s.pc C.n).booting = true → s.stop = false ∧ ∀ w, w < C.n → s.pc w = .enter
  live : s.stop = false → ∀ w, w < C.n → s.pc w ≠ .exited
  awake : s.stop = false → ∃ w, w < C.n ∧ (s.pc w).sleeping = false
  alone : ∀ w x, (s.pc w).charge = true → x < C.n → x ≠ w → (s.pc x).sleeping = true ∨ s.pc x = .loop
  solo : s.solo = true ↔ ∃ w, (s.pc w).charge = true
  stopped : s.stop = true → ∀ w, w < C.n → s.pc w = .woken ∨ s.pc w = .loop ∨ s.pc w = .exited
  level : s.level ≤ C.maxLevel

/-- Where the queued reactions are. -/
structure Places (C : Config) (s : State) : Prop where
  nodup : s.queue.Nodup
  q : ∀ r, s.queued r = true ↔ r ∈ s.queue ∨ ∃ w, (s.pc w).Holds r
  excl : ∀ r w, r ∈ s.queue → ¬ (s.pc w).Holds r
  uniq : ∀ r w w', (s.pc w).Holds r → (s.pc w').Holds r → w = w'
  mem : ∀ r, s.queued r = true → r ∈ C.reactions
  dep : ∀ w r r', s.pc w = .lock (.running r) r' ∨ s.pc w = .insert (.running r) r' → C.dep r r'
  lev : ∀ w r, s.pc w = .run r ∨ (∃ r', s.pc w = .lock (.running r) r' ∨ s.pc w = .insert (.running r) r') →
    C.level r = s.level
  quiet : ∀ w, s.pc w = .tag ∨ s.pc w = .pause → s.queue = []
  stopped : s.stop = true → s.queue = []

/-- The thread `w` makes a step. -/
inductive Step (C : Config) (s : State) (w : Nat) : State → Prop
  | bootEnd : s.pc w = .boot → Step C s w { s with owner := none, depth := 0, pc := put s.pc w .exited }
  | enter : s.pc w = .enter → s.owner = none →
      Step C s w { s with owner := some w, depth := 1, pc := put s.pc w .loop }
  | leave : s.pc w = .loop → s.stop = true → Step C s w { s with owner := none, depth := 0, pc := put s.pc w .exited }
  | tag : s.pc w = .loop → s.stop = false → s.queue = [] → s.idle = C.n - 1 →
      Step C s w { s with solo := true, pc := put s.pc w .tag }
  | sleep : s.pc w = .loop → s.stop = false → s.idle ≠ C.n - 1 →
      (∀ r, C.front s.queue = some r → C.level r ≠ s.level) →
      Step C s w { s with idle := s.idle + 1, owner := none, depth := 0, pc := put s.pc w .wait }
  | level (r : Nat) : s.pc w = .loop → s.stop = false → C.front s.queue = some r → C.level r ≠ s.level →
      s.idle = C.n - 1 → Step C s w { s with level := C.nextLevel s.level }
  | woken : s.pc w = .woken → s.owner = none →
      Step C s w { s with owner := some w, depth := 1, idle := s.idle - 1, pc := put s.pc w .loop }
  | done (r : Nat) : s.pc w = .done r → s.queued r = true →
      Step C s w { s with queued := put s.queued r false, pc := put s.pc w .enter }
  | lockSolo (r : Nat) : s.pc w = .lock .events r → Step C s w { s with pc := put s.pc w (.insert .events r) }
  | lockRun (r0 r : Nat) : s.pc w = .lock (.running r0) r → s.owner = none →
      Step C s w { s with owner := some w, depth := 1, pc := put s.pc w (.insert (.running r0) r) }
  | lockBoot (r : Nat) : s.pc w = .lock .boot r →
      Step C s w { s with depth := 2, pc := put s.pc w (.insert .boot r) }
  | insertSolo (r : Nat) : s.pc w = .insert .events r →
      Step C s w { s with queue := r :: s.queue, pc := put s.pc w .events }
  | insertRun (r0 r : Nat) : s.pc w = .insert (.running r0) r →
      Step C s w { s with queue := r :: s.queue, owner := none, depth := 0, pc := put s.pc w (.run r0) }
  | insertBoot (r : Nat) : s.pc w = .insert .boot r →
      Step C s w { s with queue := r :: s.queue, depth := 1, pc := put s.pc w .boot }
  | resume : s.pc w = .pause → s.owner = none →
      Step C s w { s with owner := some w, depth := 1, pc := put s.pc w .tag }
  | events : s.pc w = .events → Step C s w { s with solo := false, level := 0, pc := put s.pc w .loop }
  | take (r : Nat) : s.pc w = .loop → s.stop = false → r ∈ s.queue → (∀ r' ∈ s.queue, C.index r ≤ C.index r') →
      C.level r = s.level → C.signals s (s.queue.erase r) = false ∨ C.waiting s = false →
      Step C s w { s with
        queue := s.queue.erase r, owner := none, depth := 0, pc := put s.pc w (.run r), hist := .start w r :: s.hist }
  | takeSignal (r x : Nat) : s.pc w = .loop → s.stop = false → r ∈ s.queue → (∀ r' ∈ s.queue, C.index r ≤ C.index r') →
      C.level r = s.level → x < C.n → s.pc x = .wait →
      Step C s w { s with
        queue := s.queue.erase r, owner := none, depth := 0, pc := put (put s.pc x .woken) w (.run r)
        hist := .start w r :: s.hist }
  | triggerAgain (who : Who) (r : Nat) : s.pc w = who.pc → r ∈ C.reactions →
      (∀ r', who = .running r' → C.dep r' r) → s.queued r = true → Step C s w { s with hist := .trigger r :: s.hist }
  | triggerNew (who : Who) (r : Nat) : s.pc w = who.pc → r ∈ C.reactions →
      (∀ r', who = .running r' → C.dep r' r) → s.queued r = false →
      Step C s w { s with
        hist := .trigger r :: s.hist, queued := put s.queued r true, pc := put s.pc w (.lock who r) }
  | finish (r : Nat) : s.pc w = .run r → Step C s w { s with pc := put s.pc w (.done r), hist := .finish w r :: s.hist }
  | advance : s.pc w = .tag → Step C s w { s with pc := put s.pc w .events, hist := .advance :: s.hist }
  | retry : s.pc w = .tag → Step C s w { s with solo := false, level := 0, pc := put s.pc w .loop }
  | stop : s.pc w = .tag → Step C s w { s with
        stop := true, solo := false, owner := none, depth := 0, pc := put (wakeAll s.pc) w .exited, hist := .stop :: s.hist }
  | pause : s.pc w = .tag → Step C s w { s with owner := none, depth := 0, pc := put s.pc w .pause }
  | spurious : s.pc w = .wait → Step C s w { s with pc := put s.pc w .woken }

/-- The thread that acts. -/
def Act.thread : Act → Nat
  | .go w | .take w _ _ | .trigger w _ | .finish w | .advance w | .retry w | .stop w | .pause w | .spurious w => w

section
variable {C : Config} {s s' : State}

theorem trigger_step {w r : Nat} {who : Who} (h : s.pc w = who.pc) (hr : r ∈ C.reactions)
    (hl : ∀ r', who = .running r' → C.dep r' r) : Step C s w (trigger s w who r) := by
  unfold trigger
  dsimp only
  split
  · rename_i hq; exact .triggerAgain who r h hr hl hq
  · rename_i hq; exact .triggerNew who r h hr hl (by simpa using hq)

/-- Someone in the loop, or inserting a reaction, is a worker or the main thread. -/
theorem Crew.bound (h : Crew C s) {w : Nat} (hw : s.pc w ≠ .exited) : w ≤ C.n := by
  rcases Nat.lt_or_ge C.n w with k | k
  · exact absurd (h.beyond w k) hw
  · exact k

theorem unlock_one {s : State} {w : Nat} (h1 : s.owner = some w) (h2 : s.depth = 1) (t : State) (e1 : t.owner = s.owner)
    (e2 : t.depth = s.depth) : t.unlock w = { t with owner := none, depth := 0 } := by
  unfold State.unlock
  rw [if_pos (e1.trans h1), if_pos (by omega)]

theorem unlock_two {s : State} {w : Nat} (h1 : s.owner = some w) (h2 : s.depth = 2) (t : State) (e1 : t.owner = s.owner)
    (e2 : t.depth = s.depth) : t.unlock w = { t with depth := 1 } := by
  unfold State.unlock
  rw [if_pos (e1.trans h1), if_neg (by omega), e2, h2]

theorem exec_step (h : Crew C s) (P : Places C s) {a : Act} (ha : a.allowed C s) (he : exec C s a = some s') :
    Step C s a.thread s' := by
  have own : ∀ {w : Nat} {p : Pc}, s.pc w = p → p.inside = true → s.owner = some w ∧ s.depth = p.locks := by
    intro w p e k
    have h1 := (h.mutex w).2 (by rw [e]; exact k)
    have h2 := h.depth
    rw [h1] at h2
    dsimp only at h2
    rw [e] at h2
    exact ⟨h1, h2⟩
  cases a with
  | go w =>
    unfold exec at he
    dsimp only [Act.thread] at he ⊢
    split at he
    · rename_i e
      obtain ⟨o1, o2⟩ := own e rfl
      rw [unlock_one o1 o2] at he <;> try rfl
      cases he; exact .bootEnd e
    · rename_i e
      split at he
      · rename_i k; cases he; exact .enter e k
      · cases he
    · rename_i e
      obtain ⟨o1, o2⟩ := own e rfl
      split at he
      · rename_i k
        rw [unlock_one o1 o2] at he <;> try rfl
        cases he; exact .leave e k
      · rename_i k
        have k : s.stop = false := by simpa using k
        split at he
        · rename_i hf
          split at he
          · rename_i hi; cases he; exact .tag e k (C.front_none hf) hi
          · rename_i hi; cases he; exact .sleep e k hi (fun r k => by rw [hf] at k; cases k)
        · rename_i r hf
          split at he
          · cases he
          · rename_i hl
            split at he
            · rename_i hi; cases he; exact .level r e k hf hl hi
            · rename_i hi; cases he; exact .sleep e k hi (fun r' k => by rw [hf] at k; cases k; exact hl)
    · rename_i e
      split at he
      · rename_i k; cases he; exact .woken e k
      · cases he
    · rename_i r e
      split at he
      · rename_i k; cases he; exact .done r e k
      · rename_i k
        exact absurd ((P.q r).2 (.inr ⟨w, by rw [e]; exact rfl⟩)) k
    · rename_i who r e
      cases who with
      | events =>
        rw [if_pos (h.solo.2 ⟨w, by rw [e]; rfl⟩)] at he
        cases he; exact .lockSolo r e
      | boot =>
        obtain ⟨o1, o2⟩ := own e rfl
        have hns : ¬ s.solo = true := by
          intro k
          obtain ⟨x, hx⟩ := h.solo.1 k
          have hxe : s.pc x ≠ .exited := fun k => by rw [k] at hx; cases hx
          have := h.bound hxe
          have hwn : w = C.n := by
            have h1 := h.bound (w := w) (by rw [e]; simp)
            rcases Nat.lt_or_ge w C.n with k | k
            · have := h.worker w k; rw [e] at this; cases this
            · omega
          have hb := (h.early (by rw [← hwn, e]; rfl)).2
          rcases Nat.lt_or_ge x C.n with k | k
          · rw [hb x k] at hx; cases hx
          · rw [show x = w by omega, e] at hx; cases hx
        rw [if_neg hns, if_neg (by rw [o1]; simp), if_pos o1, o2] at he
        cases he
        exact .lockBoot r e
      | running r0 =>
        have hno : s.owner ≠ some w := fun k => by
          have := (h.mutex w).1 k; rw [e] at this; cases this
        have hns : ¬ s.solo = true := by
          intro k
          obtain ⟨x, hx⟩ := h.solo.1 k
          by_cases hxw : w = x
          · subst hxw; rw [e] at hx; cases hx
          · have hwn : w < C.n := by
              have h1 := h.bound (w := w) (by rw [e]; simp)
              rcases Nat.lt_or_ge w C.n with k | k
              · exact k
              · have : w = C.n := by omega
                have hm := h.main
                rw [← this, e] at hm
                rcases hm with hm | hm <;> cases hm
            have := h.alone x w hx hwn hxw
            rw [e] at this
            rcases this with k | k <;> cases k
        rw [if_neg hns] at he
        split at he
        · rename_i k; cases he; exact .lockRun r0 r e k
        · first | cases he | (rw [if_neg hno] at he; cases he)
    · rename_i who r e
      obtain ⟨o1, o2⟩ := own e (by rfl)
      rw [decide_eq_false (by simpa using o1), Bool.or_false] at he
      cases who with
      | events =>
        rw [if_pos (h.solo.2 ⟨w, by rw [e]; rfl⟩)] at he
        cases he; exact .insertSolo r e
      | boot =>
        have hns : ¬ s.solo = true := by
          intro k
          obtain ⟨x, hx⟩ := h.solo.1 k
          have hxe : s.pc x ≠ .exited := fun k => by rw [k] at hx; cases hx
          have := h.bound hxe
          have hwn : w = C.n := by
            have h1 := h.bound (w := w) (by rw [e]; simp)
            rcases Nat.lt_or_ge w C.n with k | k
            · have := h.worker w k; rw [e] at this; cases this
            · omega
          have hb := (h.early (by rw [← hwn, e]; rfl)).2
          rcases Nat.lt_or_ge x C.n with k | k
          · rw [hb x k] at hx; cases hx
          · rw [show x = w by omega, e] at hx; cases hx
        rw [if_neg hns, unlock_two o1 o2] at he <;> try rfl
        cases he; exact .insertBoot r e
      | running r0 =>
        have hns : ¬ s.solo = true := by
          intro k
          obtain ⟨x, hx⟩ := h.solo.1 k
          by_cases hxw : w = x
          · subst hxw; rw [e] at hx; cases hx
          · have hwn : w < C.n := by
              have h1 := h.bound (w := w) (by rw [e]; simp)
              rcases Nat.lt_or_ge w C.n with k | k
              · exact k
              · have : w = C.n := by omega
                have hm := h.main
                rw [← this, e] at hm
                rcases hm with hm | hm <;> cases hm
            have := h.alone x w hx hwn hxw
            rw [e] at this
            rcases this with k | k <;> cases k
        rw [if_neg hns, unlock_one o1 o2] at he <;> try rfl
        cases he; exact .insertRun r0 r e
    · rename_i e
      split at he
      · rename_i k; cases he; exact .resume e k
      · cases he
    · rename_i e; cases he; exact .events e
    · cases he
  | take w r x =>
    unfold exec at he
    dsimp only [Act.thread] at he ⊢
    split at he
    · rename_i e
      obtain ⟨o1, o2⟩ := own e rfl
      split at he
      · rename_i k
        obtain ⟨k1, k2, k3, k4, k5⟩ := k
        rw [unlock_one o1 o2] at he <;> try rfl
        cases he
        cases x with
        | none =>
          refine .take r e k1 k2 k3 k4 ?_
          unfold Config.picks at k5
          split at k5
          · cases k5
          · rename_i k; simp only [Bool.and_eq_true, not_and_or, Bool.not_eq_true] at k; exact k
        | some y =>
          have : y < C.n ∧ s.pc y = .wait := by
            unfold Config.picks at k5
            split at k5
            · simpa using k5
            · cases k5
          exact .takeSignal r y e k1 k2 k3 k4 this.1 this.2
      · cases he
    · cases he
  | trigger w r =>
    unfold exec at he
    dsimp only [Act.thread] at he ⊢
    split at he
    · rename_i e; cases he; exact trigger_step e ha.1 (fun r' k => by cases k)
    · rename_i r' e; cases he; exact trigger_step (who := .running r') e ha.1 (fun r'' k => by cases k; exact ha.2 _ e)
    · rename_i e; cases he; exact trigger_step e ha.1 (fun r' k => by cases k)
    · cases he
  | finish w =>
    unfold exec at he
    dsimp only [Act.thread] at he ⊢
    split at he
    · rename_i r e; cases he; exact .finish r e
    · cases he
  | advance w =>
    unfold exec at he
    dsimp only [Act.thread] at he ⊢
    split at he
    · rename_i e; cases he; exact .advance e
    · cases he
  | retry w =>
    unfold exec at he
    dsimp only [Act.thread] at he ⊢
    split at he
    · rename_i e; cases he; exact .retry e
    · cases he
  | stop w =>
    unfold exec at he
    dsimp only [Act.thread] at he ⊢
    split at he
    · rename_i e
      obtain ⟨o1, o2⟩ := own e rfl
      rw [unlock_one o1 o2] at he <;> try rfl
      cases he; exact .stop e
    · cases he
  | pause w =>
    unfold exec at he
    dsimp only [Act.thread] at he ⊢
    split at he
    · rename_i e; cases he; exact .pause e
    · cases he
  | spurious w =>
    unfold exec at he
    dsimp only [Act.thread] at he ⊢
    split at he
    · rename_i e; cases he; exact .spurious e
    · cases he

end

end ReactorC.Gedf
