import Verif.Gedf.Live

/-!
# Workers do not idle while there is something to do
-/

set_option linter.unusedVariables false

namespace ReactorC.Gedf

open Np (Ev put put_same put_other put_cases total_pos)

/-- The thread will look at the queue. -/
def Pc.looks (p : Pc) : Bool := match p with
  | .woken | .loop => true
  | p => p.charge

/-- If the next reaction in the queue can be executed now and a worker waits, someone is about to look at the queue. -/
def Eager (C : Config) (s : State) : Prop :=
  ∀ r, C.front s.queue = some r → C.level r = s.level → (∃ x, x < C.n ∧ s.pc x = .wait) → ∃ y, (s.pc y).looks = true

section
variable {C : Config} {s s' : State} {w : Nat}

theorem Eager.looking {y : Nat} (h : (s.pc y).looks = true) : Eager C s := fun _ _ _ _ => ⟨y, h⟩

/-- Steps after which the same threads wait and look at the queue, or fewer wait and more look. -/
theorem Eager.still (h : Eager C s) {p q : Pc} (e : s.pc w = q) (e1 : s'.pc = put s.pc w p) (e2 : s'.queue = s.queue)
    (e3 : s'.level = s.level) (h1 : p ≠ .wait) (h2 : q.looks = true → p.looks = true) : Eager C s' := by
  intro r hf hl hx
  rw [e2] at hf
  rw [e3] at hl
  obtain ⟨x, hx, k⟩ := hx
  rw [e1] at k ⊢
  rcases put_cases k with ⟨_, k⟩ | ⟨hxw, k⟩
  · exact absurd k h1
  · obtain ⟨y, hy⟩ := h r hf hl ⟨x, hx, k⟩
    by_cases hyw : y = w
    · subst hyw
      exact ⟨y, by rw [put_same]; rw [e] at hy; exact h2 hy⟩
    · exact ⟨y, by rw [put_other _ _ hyw]; exact hy⟩

theorem Eager.step (hC : C.Ok) (h : Crew C s) (P : Places C s) (E : Eager C s) (hstep : Step C s w s') : Eager C s' := by
  have empty : ∀ {s' : State}, s'.queue = [] → Eager C s' := fun e r hf => by rw [e] at hf; cases hf
  have look : ∀ {s' : State} {p : Pc}, s'.pc = put s.pc w p → p.looks = true → Eager C s' := fun e k =>
    .looking (y := w) (by rw [e, put_same]; exact k)
  cases hstep with
  | bootEnd e => exact E.still e rfl rfl rfl (by simp) (fun k => by cases k)
  | enter e ho => exact look rfl rfl
  | leave e hs => exact empty (P.stopped hs)
  | tag e hs hq hi => exact look rfl rfl
  | sleep e hs hi hn => exact fun r hf hl => absurd hl (hn r hf)
  | level r e hs hf hl hi => exact .looking (y := w) (by show (s.pc w).looks = true; rw [e]; rfl)
  | woken e ho => exact look rfl rfl
  | done r e hq => exact E.still e rfl rfl rfl (by simp) (fun k => by cases k)
  | lockSolo r e => exact look rfl rfl
  | lockRun r0 r e ho => exact E.still e rfl rfl rfl (by simp) (fun k => by cases k)
  | lockBoot r e => exact E.still e rfl rfl rfl (by simp) (fun k => by cases k)
  | insertSolo r e => exact look rfl rfl
  | insertRun r0 r e =>
    intro r' hf hl hx
    have hd := P.dep w r0 r (.inr e)
    have h0 := P.lev w r0 (.inr ⟨r, .inr e⟩)
    have hne : C.level r ≠ s.level := by have := hC.level r0 r hd; omega
    have hf' : C.front s.queue = some r' := by
      have hf : C.front (r :: s.queue) = some r' := hf
      unfold Config.front at hf
      cases hq : C.front s.queue with
      | none => rw [hq] at hf; cases hf; exact absurd hl hne
      | some r1 =>
        rw [hq] at hf
        dsimp only at hf
        split at hf
        · cases hf; exact absurd hl hne
        · exact hf
    obtain ⟨x, hx, k⟩ := hx
    replace k : put s.pc w (.run r0) x = .wait := k
    rcases put_cases k with ⟨_, k⟩ | ⟨hxw, k⟩
    · cases k
    · obtain ⟨y, hy⟩ := E r' hf' hl ⟨x, hx, k⟩
      have hyw : y ≠ w := fun k => by subst k; rw [e] at hy; cases hy
      exact ⟨y, by show (put s.pc w (.run r0) y).looks = true; rw [put_other _ _ hyw]; exact hy⟩
  | insertBoot r e =>
    intro r' hf hl hx
    exfalso
    have hb : (s.pc w).booting = true := by rw [e]; rfl
    have hw := h.is_main hb
    subst hw
    obtain ⟨x, hx, k⟩ := hx
    replace k : put s.pc C.n .boot x = .wait := k
    rw [put_other _ _ (by omega), (h.early hb).2 x hx] at k
    cases k
  | resume e ho => exact look rfl rfl
  | events e => exact look rfl rfl
  | take r e hs hr hmin hl hn =>
    intro r' hf hl' hx
    exfalso
    replace hf : C.front (s.queue.erase r) = some r' := hf
    replace hl' : C.level r' = s.level := hl'
    obtain ⟨x, hx, k⟩ := hx
    replace k : put s.pc w (.run r) x = .wait := k
    rcases put_cases k with ⟨_, k⟩ | ⟨hxw, k⟩
    · cases k
    · rcases hn with hn | hn
      · unfold Config.signals at hn
        rw [hf] at hn
        dsimp only at hn
        rw [decide_eq_true hl', Bool.true_and] at hn
        have h0 : ¬ 0 < s.idle := of_decide_eq_false hn
        have := (total_pos (n := C.n) (f := fun w => (s.pc w).sleeper) (fun x _ => by
          unfold Pc.sleeper; split <;> omega)).2 x hx
        have hi := h.idle
        have h1 : (s.pc x).sleeper = 1 := by rw [k]; rfl
        omega
      · have : C.waiting s = true := by
          unfold Config.waiting
          exact List.any_eq_true.2 ⟨x, List.mem_range.2 hx, by rw [k]; rfl⟩
        rw [hn] at this; cases this
  | takeSignal r x e hs hr hmin hl hx hxw =>
    have hne : x ≠ w := fun k => by subst k; rw [e] at hxw; cases hxw
    exact .looking (y := x) (by
      show (put (put s.pc x .woken) w (.run r) x).looks = true
      rw [put_other _ _ hne, put_same]; rfl)
  | triggerAgain who r e => exact E
  | triggerNew who r e => exact E.still e rfl rfl rfl (by simp) (fun k => by cases who <;> first | rfl | cases k)
  | finish r e => exact E.still e rfl rfl rfl (by simp) (fun k => by cases k)
  | advance e => exact look rfl rfl
  | retry e => exact look rfl rfl
  | stop e => exact empty (P.quiet w (.inl e))
  | pause e => exact look rfl rfl
  | spurious e => exact look rfl rfl

theorem Reach.eager (hC : C.Ok) (h : Reach C s) : Eager C s := by
  induction h with
  | init => intro r hf; cases hf
  | step a hr ha he ih => exact ih.step hC (hr.inv hC).1 (hr.inv hC).2 (exec_step (hr.inv hC).1 (hr.inv hC).2 ha he)

/-- When the scheduler cannot go on by itself and a worker waits although reactions execute, the next reaction in the queue
has another level. -/
theorem settled_wait (hC : C.Ok) (h : Reach C s) (hset : Settled C s) {x y r : Nat} (hx : x < C.n) (hxw : s.pc x = .wait)
    (hy : y < C.n) (hr : (s.pc y).Exec r) {r' : Nat} (hf : C.front s.queue = some r') : C.level r' ≠ s.level := by
  intro hl
  obtain ⟨hc, P⟩ := h.inv hC
  have no : ∀ {w : Nat}, ¬ ∃ a : Act, a.own = true ∧ a.allowed C s ∧ a.thread = w ∧ ∃ s', exec C s a = some s' := by
    rintro w ⟨a, h1, h2, _, s', h3⟩
    rw [hset a h1 h2] at h3; cases h3
  have nocharge : ∀ z, (s.pc z).charge = true → False := by
    intro z hz
    obtain ⟨a1, a2, a3, a4, a5, a6⟩ := hr.awake
    have hyz : y ≠ z := fun k => by subst k; rw [hz] at a6; cases a6
    rcases hc.alone z y hz hy hyz with k | k
    · rw [k] at a5; cases a5
    · exact a3 k
  obtain ⟨z, hz⟩ := h.eager hC r' hf hl ⟨x, hx, hxw⟩
  cases e : s.pc z with
  | loop => exact no (can_go hc P (w := z) (by rw [e]; rfl) (by rw [e]; simp))
  | woken =>
    cases ho : s.owner with
    | none => exact no (can_go' hc P ho (.inr (.inl e)))
    | some v =>
      have hi := (hc.mutex v).1 ho
      by_cases k : s.pc v = .tag
      · exact nocharge v (by rw [k]; rfl)
      · exact no (can_go hc P hi k)
  | _ => exact nocharge z (by rw [e] at hz ⊢; exact hz)

end

end ReactorC.Gedf
