import Verif.Adaptive.Groups

/-!
# Who is awake, and who holds the mutex

The number of loose threads is the number of threads that work on the level or have been woken up to do so; when it becomes
zero, one thread is left, which goes on to the next level.
-/

set_option linter.unusedVariables false

namespace ReactorC.Adaptive

open Np (Ev Who put)

theorem put_same {α : Type} (f : Nat → α) (k : Nat) (a : α) : put f k a k = a := by simp [put]
theorem put_ne {α : Type} (f : Nat → α) {k j : Nat} (a : α) (h : j ≠ k) : put f k a j = f j := by simp [put, h]

/-- The thread works on the current level. -/
def Pc.active : Pc → Bool
  | .snap | .get _ _ | .took _ _ | .zero _ _ | .scan _ _ | .look _ | .lock _ | .test _ | .unlock _ | .check _ | .dec _
  | .run _ | .done _ | .fetch (.running _) _ | .store (.running _) _ _ _ | .unlockB | .leave => true
  | _ => false

/-- The thread goes on to the next level. -/
def Pc.top : Pc → Bool
  | .adv | .total | .close | .tag | .events | .fetch .events _ | .store .events _ _ _ | .signal | .awaken _ | .lockB _
  | .wake _ => true
  | _ => false

/-- The main thread before it has started the workers. -/
def Pc.booting : Pc → Bool
  | .boot | .fetch .boot _ | .store .boot _ _ _ => true
  | _ => false

/-- The thread wakes up all workers to make them leave. -/
def Pc.Halting (n : Nat) (p : Pc) : Prop := p = .awaken n ∨ p = .lockB n ∨ p = .wake n

/-- The thread works on the current level or has been woken up to do so. -/
def awake (s : State) (x : Nat) : Bool := (s.pc x).active || s.sig x

/-- What holds of a thread. -/
def ThreadOk (C : Config) (s : State) (x : Nat) : Prop :=
  (s.sig x = true → ∃ sn, s.pc x = .asleep sn) ∧
  match s.pc x with
  | .snap | .took _ _ | .run _ | .done _ | .fetch (.running _) _ | .store (.running _) _ _ _ | .leave => s.held x = false
  | .get sn _ | .zero sn _ | .scan sn _ | .look sn | .lock sn => sn = s.lc ∧ s.held x = false
  | .test sn | .unlock sn | .check sn | .dec sn => sn = s.lc ∧ (s.held x = true ∨ (C.fast = true ∧ s.loose = 1))
  | .unlockB => True
  | .sleep sn | .doze sn => sn = s.lc ∧ s.held x = true
  | .asleep sn => s.held x = false ∧ sn ≤ s.lc ∧ (s.sig x = true → sn ≠ s.lc ∧ x < s.awak) ∧
      (s.sig x = false → sn = s.lc ∨ s.awak ≤ x ∨ (x + 1 = s.awak ∧ 3 ≤ C.n))
  | .adv | .total | .close | .tag | .events | .fetch .events _ | .store .events _ _ _ | .signal =>
      C.fast = true ∨ s.held x = true
  | .awaken k => (C.fast = true ∨ s.held x = true) ∧ 1 ≤ k ∧ k ≤ C.n ∧ (s.stop = true → k = C.n)
  | .lockB k => s.held x = false ∧ 1 ≤ k ∧ k ≤ C.n ∧ (s.stop = true → k = C.n)
  | .wake k => s.held x = true ∧ 1 ≤ k ∧ k ≤ C.n ∧ (s.stop = true → k = C.n)
  | .boot | .fetch .boot _ | .store .boot _ _ _ | .exited => False

/-- The program has a worker, levels are in range, and threads are not woken up without a cause at the critical moment. -/
structure Config.Ok (C : Config) : Prop where
  pos : 0 < C.n
  levels : ∀ r ∈ C.reactions, C.level r ≤ C.maxLevel
  calm : C.spurious = false ∨ C.n ≤ 2

structure Ctl (C : Config) (s : State) : Prop where
  loose : s.loose = ((List.range C.n).countP (awake s) : Nat)
  alone : ∀ x, x < C.n → (s.pc x).top = true → ∀ y, y < C.n → awake s y = false ∧ ((s.pc y).top = true → y = x)
  any : ∃ x, x < C.n ∧ ((s.pc x).top = true ∨ awake s x = true)
  mutex : ∀ x, x < C.n → (s.held x = true ↔ s.mutex = .some x)
  thr : ∀ x, x < C.n → ThreadOk C s x
  halt : s.stop = true → ∃ x, x < C.n ∧ (s.pc x).Halting C.n

/-- All workers leave. -/
structure Bye (C : Config) (s : State) : Prop where
  stop : s.stop = true
  mutex : ∀ x, x < C.n → (s.held x = true ↔ s.mutex = .some x)
  thr : ∀ x, x < C.n → s.pc x = .unlockB ∨ ((s.pc x = .leave ∨ s.pc x = .exited) ∧ s.held x = false) ∨
    ∃ sn, s.pc x = .asleep sn ∧ s.sig x = true ∧ sn ≠ s.lc ∧ x < s.awak ∧ s.held x = false

structure Crew (C : Config) (s : State) : Prop where
  phase : Ctl C s ∨ Bye C s
  main : if s.started then s.pc C.n = .exited else (s.pc C.n).booting = true
  beyond : ∀ x, C.n < x → s.pc x = .exited
  nums : s.num ≤ C.n ∧ ∀ l, s.nw l ≤ C.n

section
variable {C : Config} {s s' : State} {w : Nat}

theorem ThreadOk.congr {x : Nat} (h : ThreadOk C s x) (hpc : s'.pc x = s.pc x) (hl : s'.loose = s.loose) (hlc : s'.lc = s.lc)
    (haw : s'.awak = s.awak) (hstop : s'.stop = s.stop) (hsig : s'.sig x = s.sig x) (hheld : s'.held x = s.held x) :
    ThreadOk C s' x := by
  unfold ThreadOk at h ⊢
  rw [hpc, hl, hlc, haw, hstop, hsig, hheld]; exact h

theorem awake_congr {x : Nat} (hpc : s'.pc x = s.pc x) (hsig : s'.sig x = s.sig x) : awake s' x = awake s x := by
  unfold awake; rw [hpc, hsig]

/-- A step after which the thread is as much awake as before. -/
theorem Ctl.quiet (h : Ctl C s) {p : Pc} (hw : w < C.n) (hpc : s'.pc = put s.pc w p) (hl : s'.loose = s.loose)
    (hlc : s'.lc = s.lc) (haw : s'.awak = s.awak) (hstop : s'.stop = s.stop) (hsig : ∀ x, x ≠ w → s'.sig x = s.sig x)
    (hheld : ∀ x, x ≠ w → s'.held x = s.held x) (hm : ∀ x, x ≠ w → (s'.mutex = .some x ↔ s.mutex = .some x))
    (hmw : s'.held w = true ↔ s'.mutex = .some w) (ha : awake s' w = awake s w) (ht : p.top = (s.pc w).top)
    (hk : s.stop = true → (s.pc w).Halting C.n → p.Halting C.n) (hthr : ThreadOk C s' w) : Ctl C s' := by
  have hp : ∀ x, x ≠ w → s'.pc x = s.pc x := fun x hx => by rw [hpc, put_ne _ _ hx]
  have hpw : s'.pc w = p := by rw [hpc, put_same]
  have haw' : ∀ x, awake s' x = awake s x := by
    intro x
    by_cases k : x = w
    · subst k; exact ha
    · exact awake_congr (hp x k) (hsig x k)
  have ht' : ∀ x, (s'.pc x).top = (s.pc x).top := by
    intro x
    by_cases k : x = w
    · subst k; rw [hpw, ht]
    · rw [hp x k]
  refine ⟨?_, ?_, ?_, ?_, ?_, ?_⟩
  · rw [hl, h.loose]; congr 2; funext x; exact (haw' x).symm
  · intro x hx hxt y hy
    rw [ht'] at hxt
    rw [haw', ht']
    exact h.alone x hx hxt y hy
  · obtain ⟨x, hx, k⟩ := h.any
    exact ⟨x, hx, by rw [ht', haw']; exact k⟩
  · intro x hx
    by_cases k : x = w
    · subst k; exact hmw
    · rw [hheld x k, hm x k]; exact h.mutex x hx
  · intro x hx
    by_cases k : x = w
    · subst k; exact hthr
    · exact (h.thr x hx).congr (hp x k) hl hlc haw hstop (hsig x k) (hheld x k)
  · intro hs
    rw [hstop] at hs
    obtain ⟨x, hx, k⟩ := h.halt hs
    refine ⟨x, hx, ?_⟩
    by_cases e : x = w
    · subst e; rw [hpw]; exact hk hs k
    · rw [hp x e]; exact k

/-- A step that concerns only the counter of the thread. -/
theorem Ctl.move (h : Ctl C s) {p : Pc} (hw : w < C.n) (hpc : s'.pc = put s.pc w p) (hl : s'.loose = s.loose)
    (hlc : s'.lc = s.lc) (haw : s'.awak = s.awak) (hstop : s'.stop = s.stop) (hsig : s'.sig = s.sig)
    (hheld : s'.held = s.held) (hm : s'.mutex = s.mutex) (ha : p.active = (s.pc w).active)
    (ht : p.top = (s.pc w).top) (hk : s.stop = true → (s.pc w).Halting C.n → p.Halting C.n)
    (hthr : ThreadOk C s' w) : Ctl C s' := by
  refine h.quiet hw hpc hl hlc haw hstop (fun x _ => by rw [hsig]) (fun x _ => by rw [hheld]) (fun x _ => by rw [hm]) ?_ ?_ ht hk hthr
  · rw [hheld, hm]; exact h.mutex w hw
  · unfold awake; rw [hpc, put_same, ha, hsig]

end

end ReactorC.Adaptive
