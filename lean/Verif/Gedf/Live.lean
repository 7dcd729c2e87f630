import Mathlib.Data.List.Perm.Subperm
import Verif.Gedf.Ledger

/-!
# No deadlock, no busy waiting
-/

set_option linter.unusedVariables false

namespace ReactorC.Gedf

open Np (Ev put put_same put_other put_cases total total_congr total_put total_pos)

section
variable {C : Config} {s s' : State} {w : Nat}

theorem Step.fault (h : Step C s w s') : s'.fault = s.fault := by cases h <;> rfl

theorem Reach.fault (hC : C.Ok) (h : Reach C s) : s.fault = false := by
  induction h with
  | init => rfl
  | step a hr ha he ih => rw [(exec_step (hr.inv hC).1 (hr.inv hC).2 ha he).fault]; exact ih

/-! ## Who can make a step -/

/-- A step that the scheduler makes on its own. -/
def Act.own : Act → Bool
  | .go _ | .take _ _ _ => true
  | _ => false

/-- The thread that has the mutex can go on, unless it waits for the next tag. -/
theorem can_go (h : Crew C s) (P : Places C s) (hi : (s.pc w).inside = true) (ht : s.pc w ≠ .tag) :
    ∃ a : Act, a.own = true ∧ a.allowed C s ∧ a.thread = w ∧ ∃ s', exec C s a = some s' := by
  have go : (∃ s', exec C s (.go w) = some s') →
      ∃ a : Act, a.own = true ∧ a.allowed C s ∧ a.thread = w ∧ ∃ s', exec C s a = some s' :=
    fun k => ⟨.go w, rfl, trivial, rfl, k⟩
  have ho := (h.mutex w).2 hi
  cases e : s.pc w with
  | boot => exact go ⟨_, by unfold exec; dsimp only; rw [e]⟩
  | loop =>
    cases hs : s.stop with
    | true => exact go ⟨_, by unfold exec; dsimp only; rw [e]; dsimp only; rw [hs, if_pos rfl]⟩
    | false =>
      cases hf : C.front s.queue with
      | none =>
        by_cases hi : s.idle = C.n - 1
        · exact go ⟨_, by unfold exec; dsimp only; rw [e]; dsimp only; rw [hs, if_neg (by simp), hf]; dsimp only; rw [if_pos hi]⟩
        · exact go ⟨_, by unfold exec; dsimp only; rw [e]; dsimp only; rw [hs, if_neg (by simp), hf]; dsimp only; rw [if_neg hi]⟩
      | some r =>
        by_cases hl : C.level r = s.level
        · obtain ⟨f1, f2⟩ := C.front_some hf
          have hx : ∃ x, C.picks s (s.queue.erase r) x = true := by
            cases hb : (C.signals s (s.queue.erase r) && C.waiting s) with
            | false => exact ⟨none, by unfold Config.picks; rw [if_neg (by rw [hb]; simp)]; rfl⟩
            | true =>
              have hwt := (Bool.and_eq_true_iff.1 hb).2
              unfold Config.waiting at hwt
              obtain ⟨y, hy, hy'⟩ := List.any_eq_true.1 hwt
              refine ⟨some y, ?_⟩
              unfold Config.picks
              rw [if_pos hb]
              simp only [Bool.and_eq_true]
              exact ⟨decide_eq_true (List.mem_range.1 hy), hy'⟩
          obtain ⟨x, hx⟩ := hx
          exact ⟨.take w r x, rfl, trivial, rfl, _, by
            unfold exec; dsimp only; rw [e]; dsimp only; rw [if_pos ⟨hs, f1, f2, hl, hx⟩]⟩
        · by_cases hi : s.idle = C.n - 1
          · exact go ⟨_, by
              unfold exec; dsimp only; rw [e]; dsimp only; rw [hs, if_neg (by simp), hf]; dsimp only
              rw [if_neg hl, if_pos hi]⟩
          · exact go ⟨_, by
              unfold exec; dsimp only; rw [e]; dsimp only; rw [hs, if_neg (by simp), hf]; dsimp only
              rw [if_neg hl, if_neg hi]⟩
  | insert who r => exact go ⟨_, by unfold exec; dsimp only; rw [e]⟩
  | events => exact go ⟨_, by unfold exec; dsimp only; rw [e]⟩
  | tag => exact absurd e ht
  | lock who r =>
    cases hso : s.solo with
    | true => exact go ⟨_, by unfold exec; dsimp only; rw [e]; dsimp only; rw [hso, if_pos rfl]⟩
    | false =>
      exact go ⟨_, by
        unfold exec; dsimp only; rw [e]; dsimp only
        rw [hso, if_neg (by simp), if_neg (by rw [ho]; simp), if_pos ho]⟩
  | enter => rw [e] at hi; cases hi
  | run r => rw [e] at hi; cases hi
  | done r => rw [e] at hi; cases hi
  | wait => rw [e] at hi; cases hi
  | woken => rw [e] at hi; cases hi
  | pause => rw [e] at hi; cases hi
  | exited => rw [e] at hi; cases hi

/-- The other statements at which a thread can go on by itself. -/
theorem can_go' (h : Crew C s) (P : Places C s) (ho : s.owner = none)
    (hp : s.pc w = .enter ∨ s.pc w = .woken ∨ s.pc w = .pause ∨ (∃ who r, s.pc w = .lock who r) ∨ ∃ r, s.pc w = .done r) :
    ∃ a : Act, a.own = true ∧ a.allowed C s ∧ a.thread = w ∧ ∃ s', exec C s a = some s' := by
  have go : (∃ s', exec C s (.go w) = some s') →
      ∃ a : Act, a.own = true ∧ a.allowed C s ∧ a.thread = w ∧ ∃ s', exec C s a = some s' :=
    fun k => ⟨.go w, rfl, trivial, rfl, k⟩
  rcases hp with e | e | e | ⟨who, r, e⟩ | ⟨r, e⟩
  · exact go ⟨_, by unfold exec; dsimp only; rw [e]; dsimp only; rw [if_pos ho]⟩
  · exact go ⟨_, by unfold exec; dsimp only; rw [e]; dsimp only; rw [if_pos ho]⟩
  · exact go ⟨_, by unfold exec; dsimp only; rw [e]; dsimp only; rw [if_pos ho]⟩
  · cases hso : s.solo with
    | true => exact go ⟨_, by unfold exec; dsimp only; rw [e]; dsimp only; rw [hso, if_pos rfl]⟩
    | false => exact go ⟨_, by unfold exec; dsimp only; rw [e]; dsimp only; rw [hso, if_neg (by simp), if_pos ho]⟩
  · have hq := (P.q r).2 (.inr ⟨w, by rw [e]; exact rfl⟩)
    exact go ⟨_, by unfold exec; dsimp only; rw [e]; dsimp only; rw [if_pos hq]⟩

/-- No thread can go on by itself. -/
def Settled (C : Config) (s : State) : Prop := ∀ a : Act, a.own = true → a.allowed C s → exec C s a = none

theorem settled_cases (h : Crew C s) (P : Places C s) (hset : Settled C s) :
    (∃ w r, w < C.n ∧ s.pc w = .run r) ∨
    ((∃ w, w < C.n ∧ s.pc w = .tag) ∧ ∀ r, s.queued r = false) ∨
    (s.stop = true ∧ ∀ w, w < C.n → s.pc w = .exited) := by
  have no : ∀ {w : Nat}, ¬ ∃ a : Act, a.own = true ∧ a.allowed C s ∧ a.thread = w ∧ ∃ s', exec C s a = some s' := by
    rintro w ⟨a, h1, h2, _, s', h3⟩
    rw [hset a h1 h2] at h3; cases h3
  cases ho : s.owner with
  | some w =>
    have hi := (h.mutex w).1 ho
    have e : s.pc w = .tag := by
      by_contra k; exact no (can_go h P hi k)
    refine .inr (.inl ⟨⟨w, ?_, e⟩, fun r => (P.nothing h (.inl e) r).1⟩)
    rcases h.is_worker (w := w) (by rw [e]; simp) (by rw [e]; rfl) with k | k <;> exact k.1
  | none =>
    have hm : s.pc C.n = .exited := by
      rcases h.main with m | m
      · have := (h.mutex C.n).2 (Pc.boot_inside m).1
        rw [ho] at this; cases this
      · exact m
    have key : ∀ w, w < C.n → s.pc w = .wait ∨ s.pc w = .exited ∨ ∃ r, s.pc w = .run r := by
      intro w hw
      have hin : (s.pc w).inside = false := by
        cases k : (s.pc w).inside with
        | false => rfl
        | true => rw [(h.mutex w).2 k] at ho; cases ho
      have hng := fun hp => no (w := w) (can_go' h P ho hp)
      cases e : s.pc w with
      | wait => exact .inl rfl
      | exited => exact .inr (.inl rfl)
      | run r => exact .inr (.inr ⟨r, rfl⟩)
      | enter => exact absurd (.inl e) hng
      | woken => exact absurd (.inr (.inl e)) hng
      | pause => exact absurd (.inr (.inr (.inl e))) hng
      | lock who r => exact absurd (.inr (.inr (.inr (.inl ⟨who, r, e⟩)))) hng
      | done r => exact absurd (.inr (.inr (.inr (.inr ⟨r, e⟩)))) hng
      | _ => rw [e] at hin; cases hin
    cases hs : s.stop with
    | true =>
      refine .inr (.inr ⟨rfl, fun w hw => ?_⟩)
      rcases h.stopped hs w hw with k | k | k
      · exact absurd (can_go' h P ho (.inr (.inl k))) no
      · have := (h.mutex w).2 (by rw [k]; rfl)
        rw [ho] at this; cases this
      · exact k
    | false =>
      obtain ⟨w, hw, ha⟩ := h.awake hs
      rcases key w hw with k | k | ⟨r, k⟩
      · rw [k] at ha; cases ha
      · exact absurd k (h.live hs w hw)
      · exact .inl ⟨w, r, hw, k⟩

/-! ## The steps that the scheduler makes on its own -/

/-- How many levels the next reaction in the queue is away. -/
def Config.dist (C : Config) (l : Nat) (q : List Nat) : Nat :=
  match C.front q with
  | none => 0
  | some r => (C.level r + (C.maxLevel + 1) - l) % (C.maxLevel + 1)

theorem Config.dist_le (C : Config) (l : Nat) (q : List Nat) : C.dist l q ≤ C.maxLevel := by
  unfold Config.dist
  split
  · omega
  · rename_i r _
    have := Nat.mod_lt (C.level r + (C.maxLevel + 1) - l) (y := C.maxLevel + 1) (by omega)
    omega

theorem Config.dist_next {q : List Nat} {r l : Nat} (hf : C.front q = some r) (hr : C.level r ≤ C.maxLevel)
    (hl : l ≤ C.maxLevel) (hne : C.level r ≠ l) : C.dist (C.nextLevel l) q + 1 = C.dist l q := by
  unfold Config.dist
  rw [hf]
  dsimp only
  unfold Config.nextLevel
  generalize C.level r = a at hr hne ⊢
  generalize C.maxLevel = m at hr hl ⊢
  have small : ∀ x, x < m + 1 → (x + (m + 1)) % (m + 1) = x := fun x hx => by
    rw [Nat.add_mod_right, Nat.mod_eq_of_lt hx]
  split
  · have : l = m := by omega
    subst this
    rw [Nat.sub_zero, small a (by omega), show a + (l + 1) - l = a + 1 by omega, Nat.mod_eq_of_lt (by omega)]
  · rcases Nat.lt_or_ge a l with k | k
    · rw [show a + (m + 1) - (l + 1) = a + m - l by omega, Nat.mod_eq_of_lt (show a + m - l < m + 1 by omega),
        show a + (m + 1) - l = a + m - l + 1 by omega, Nat.mod_eq_of_lt (show a + m - l + 1 < m + 1 by omega)]
    · have e1 : a + (m + 1) - l = (a - l) + (m + 1) := by omega
      have e2 : a + (m + 1) - (l + 1) = (a - l - 1) + (m + 1) := by omega
      rw [e1, e2, small _ (by omega), small _ (by omega)]
      omega

/-- A bound for the steps that a thread makes until it waits, apart from those for the reactions in the queue. -/
def Pc.rank (m : Nat) : Pc → Int
  | .boot => 1
  | .enter => 3
  | .loop => 2
  | .done _ => 4
  | .woken => 4
  | .pause => 1
  | .events => m + 3
  | .insert (.running _) _ => 2 * m + 11
  | .insert .boot _ => 2 * m + 12
  | .insert .events _ => 3 * m + 14
  | .lock (.running _) _ => 2 * m + 12
  | .lock .boot _ => 2 * m + 13
  | .lock .events _ => 3 * m + 15
  | _ => 0

theorem Pc.rank_range (m : Nat) (p : Pc) : 0 ≤ p.rank m ∧ p.rank m ≤ 3 * m + 15 := by
  cases p with
  | lock who r => cases who <;> unfold Pc.rank <;> dsimp only <;> omega
  | insert who r => cases who <;> unfold Pc.rank <;> dsimp only <;> omega
  | _ => unfold Pc.rank; dsimp only; omega

def measure (C : Config) (s : State) : Int :=
  (C.maxLevel + 10 : Int) * s.queue.length + C.dist s.level s.queue + total (fun w => (s.pc w).rank C.maxLevel) (C.n + 1)

theorem measure_go (hC : C.Ok) (h : Crew C s) (P : Places C s) {a : Act} (ho : a.own = true) (ha : a.allowed C s)
    (he : exec C s a = some s') : measure C s' + 1 ≤ measure C s := by
  have hstep := exec_step h P ha he
  have hb : s.pc a.thread ≠ .exited → a.thread < C.n + 1 := fun k => Nat.lt_succ_of_le (h.bound k)
  have move : ∀ {s' : State} {p q : Pc}, s.pc a.thread = q → q ≠ .exited → s'.pc = put s.pc a.thread p →
      s'.queue = s.queue → s'.level = s.level → p.rank C.maxLevel + 1 ≤ q.rank C.maxLevel →
      measure C s' + 1 ≤ measure C s := by
    intro s' p q e hq e1 e2 e3 hr
    unfold measure
    rw [e1, e2, e3, total_put (Pc.rank C.maxLevel) s.pc p (hb (by rw [e]; exact hq)), e]
    omega
  have ins : ∀ {s' : State} {p q : Pc} {r : Nat}, s.pc a.thread = q → q ≠ .exited → s'.pc = put s.pc a.thread p →
      s'.queue = r :: s.queue → p.rank C.maxLevel + (2 * C.maxLevel + 11) ≤ q.rank C.maxLevel →
      measure C s' + 1 ≤ measure C s := by
    intro s' p q r e hq e1 e2 hr
    unfold measure
    rw [e1, e2, total_put (Pc.rank C.maxLevel) s.pc p (hb (by rw [e]; exact hq)), e]
    have h1 := C.dist_le s'.level (r :: s.queue)
    have h2 : (C.maxLevel + 10 : Int) * ((r :: s.queue).length : Nat) = (C.maxLevel + 10 : Int) * s.queue.length + (C.maxLevel + 10) := by
      rw [List.length_cons, Int.natCast_add, Int.mul_add]; omega
    omega
  have tak : ∀ {s' : State} {f : Nat → Pc} {r : Nat}, s.pc a.thread = .loop → r ∈ s.queue →
      s'.queue = s.queue.erase r → s'.pc = put f a.thread (.run r) → f a.thread = .loop →
      total (fun w => (f w).rank C.maxLevel) (C.n + 1) ≤ total (fun w => (s.pc w).rank C.maxLevel) (C.n + 1) + 4 →
      measure C s' + 1 ≤ measure C s := by
    intro s' f r e hr e2 e1 hf ht
    unfold measure
    rw [e1, e2, total_put (Pc.rank C.maxLevel) f (.run r) (hb (by rw [e]; simp)), hf]
    have h1 := C.dist_le s'.level (s.queue.erase r)
    have h3 : (s.queue.erase r).length + 1 = s.queue.length := by
      have := List.length_erase_of_mem hr
      have := List.length_pos_of_mem hr
      omega
    have h2 : (C.maxLevel + 10 : Int) * s.queue.length = (C.maxLevel + 10 : Int) * (s.queue.erase r).length + (C.maxLevel + 10) := by
      rw [← h3, Int.natCast_add, Int.mul_add]; omega
    have h4 : Pc.rank C.maxLevel .loop = 2 := rfl
    have h5 : Pc.rank C.maxLevel (.run r) = 0 := rfl
    omega
  cases a with
  | go w =>
    dsimp only [Act.thread] at *
    cases hstep with
    | bootEnd e => exact move e (by simp) rfl rfl rfl (show (0 : Int) + 1 ≤ 1 by omega)
    | enter e => exact move e (by simp) rfl rfl rfl (show (2 : Int) + 1 ≤ 3 by omega)
    | leave e => exact move e (by simp) rfl rfl rfl (show (0 : Int) + 1 ≤ 2 by omega)
    | tag e => exact move e (by simp) rfl rfl rfl (show (0 : Int) + 1 ≤ 2 by omega)
    | sleep e => exact move e (by simp) rfl rfl rfl (show (0 : Int) + 1 ≤ 2 by omega)
    | level r e hs hf hl hi =>
      have hr := hC.levels r (P.mem r ((P.q r).2 (.inl (C.front_some hf).1)))
      have := Config.dist_next hf hr h.level hl
      unfold measure
      dsimp only
      omega
    | woken e => exact move e (by simp) rfl rfl rfl (show (2 : Int) + 1 ≤ 4 by omega)
    | done r e => exact move e (by simp) rfl rfl rfl (show (3 : Int) + 1 ≤ 4 by omega)
    | lockSolo r e => exact move e (by simp) rfl rfl rfl (show (3 * C.maxLevel + 14 : Int) + 1 ≤ 3 * C.maxLevel + 15 by omega)
    | lockRun r0 r e => exact move e (by simp) rfl rfl rfl (show (2 * C.maxLevel + 11 : Int) + 1 ≤ 2 * C.maxLevel + 12 by omega)
    | lockBoot r e => exact move e (by simp) rfl rfl rfl (show (2 * C.maxLevel + 12 : Int) + 1 ≤ 2 * C.maxLevel + 13 by omega)
    | insertSolo r e =>
      exact ins e (by simp) rfl rfl (show (C.maxLevel + 3 : Int) + (2 * C.maxLevel + 11) ≤ 3 * C.maxLevel + 14 by omega)
    | insertRun r0 r e => exact ins e (by simp) rfl rfl (show (0 : Int) + (2 * C.maxLevel + 11) ≤ 2 * C.maxLevel + 11 by omega)
    | insertBoot r e => exact ins e (by simp) rfl rfl (show (1 : Int) + (2 * C.maxLevel + 11) ≤ 2 * C.maxLevel + 12 by omega)
    | resume e => exact move e (by simp) rfl rfl rfl (show (0 : Int) + 1 ≤ 1 by omega)
    | events e =>
      unfold measure
      dsimp only
      rw [total_put (Pc.rank C.maxLevel) s.pc .loop (hb (by rw [e]; simp)), e]
      have h1 := C.dist_le 0 s.queue
      have h4 : Pc.rank C.maxLevel .loop = 2 := rfl
      have h5 : Pc.rank C.maxLevel .events = C.maxLevel + 3 := rfl
      omega
    | take r e hs hr => exact tak e hr rfl rfl e (by omega)
    | takeSignal r x e hs hr hmin hl hx hxw =>
      have hne : w ≠ x := fun k => by subst k; rw [e] at hxw; cases hxw
      refine tak (f := put s.pc x .woken) e hr rfl rfl (by rw [put_other _ _ hne]; exact e) ?_
      rw [total_put (Pc.rank C.maxLevel) s.pc .woken (show x < C.n + 1 by omega), hxw]
      have h4 : Pc.rank C.maxLevel .woken = 4 := rfl
      have h5 : Pc.rank C.maxLevel .wait = 0 := rfl
      omega
    | triggerAgain who r e =>
      exfalso
      unfold exec at he
      dsimp only at he
      rw [e] at he
      cases who with
      | running r' => cases he
      | boot =>
        have := congrArg State.hist (Option.some.inj he)
        unfold State.unlock at this
        dsimp only at this
        split at this
        · split at this <;> exact absurd (congrArg List.length this) (by simp)
        · exact absurd (congrArg List.length this) (by simp)
      | events =>
        have := congrArg State.hist (Option.some.inj he)
        exact absurd (congrArg List.length this) (by simp)
    | triggerNew who r e =>
      exfalso
      unfold exec at he
      dsimp only at he
      rw [e] at he
      cases who with
      | running r' => cases he
      | boot =>
        have := congrArg State.hist (Option.some.inj he)
        unfold State.unlock at this
        dsimp only at this
        split at this
        · split at this <;> exact absurd (congrArg List.length this) (by simp)
        · exact absurd (congrArg List.length this) (by simp)
      | events =>
        have := congrArg State.hist (Option.some.inj he)
        exact absurd (congrArg List.length this) (by simp)
    | finish r e => unfold exec at he; dsimp only at he; rw [e] at he; cases he
    | advance e => unfold exec at he; dsimp only at he; rw [e] at he; cases he
    | retry e => unfold exec at he; dsimp only at he; rw [e] at he; cases he
    | stop e => unfold exec at he; dsimp only at he; rw [e] at he; cases he
    | pause e => unfold exec at he; dsimp only at he; rw [e] at he; cases he
    | spurious e => unfold exec at he; dsimp only at he; rw [e] at he; cases he
  | take w r x =>
    dsimp only [Act.thread] at *
    have e : s.pc w = .loop := by
      unfold exec at he
      dsimp only at he
      split at he
      · assumption
      · cases he
    unfold exec at he
    dsimp only at he
    rw [e] at he
    dsimp only at he
    split at he
    · rename_i k
      obtain ⟨k1, k2, k3, k4, k5⟩ := k
      have o1 := (h.mutex w).2 (by rw [e]; rfl)
      have o2 := h.depth
      rw [o1] at o2
      dsimp only at o2
      rw [e] at o2
      rw [unlock_one o1 o2] at he <;> try rfl
      cases he
      cases x with
      | none => exact tak (f := s.pc) e k2 rfl rfl e (by omega)
      | some y =>
        have : y < C.n ∧ s.pc y = .wait := by
          unfold Config.picks at k5
          split at k5
          · simpa using k5
          · cases k5
        have hne : w ≠ y := fun k => by subst k; rw [e] at this; cases this.2
        refine tak (f := put s.pc y .woken) e k2 rfl rfl (by rw [put_other _ _ hne]; exact e) ?_
        rw [total_put (Pc.rank C.maxLevel) s.pc .woken (show y < C.n + 1 by omega), this.2]
        have h4 : Pc.rank C.maxLevel .woken = 4 := rfl
        have h5 : Pc.rank C.maxLevel .wait = 0 := rfl
        omega
    · cases he
  | _ => cases ho

theorem measure_pos : 0 ≤ measure C s := by
  unfold measure
  have := (total_pos (n := C.n + 1) (f := fun w => (s.pc w).rank C.maxLevel) (fun w _ => (Pc.rank_range _ _).1)).1
  have : (0 : Int) ≤ (C.maxLevel + 10 : Int) * s.queue.length := Int.mul_nonneg (by omega) (by omega)
  omega

/-- A bound for the number of steps that the workers make on their own. -/
def bound (C : Config) : Nat :=
  (C.maxLevel + 10) * C.reactions.length + C.maxLevel + (3 * C.maxLevel + 15) * (C.n + 1)

theorem total_le_const {f : Nat → Int} {c : Int} : ∀ {n : Nat}, (∀ w, w < n → f w ≤ c) → total f n ≤ c * n
  | 0, _ => by unfold total; omega
  | n + 1, h => by
    have := total_le_const (n := n) (f := f) (c := c) fun w hw => h w (by omega)
    have := h n (by omega)
    have e : c * ((n + 1 : Nat) : Int) = c * (n : Int) + c := by rw [Int.natCast_add, Int.mul_add]; omega
    unfold total
    omega

theorem measure_le (P : Places C s) : measure C s ≤ bound C := by
  have hl : s.queue.length ≤ C.reactions.length :=
    (P.nodup.subperm fun r hr => P.mem r ((P.q r).2 (.inl hr))).length_le
  have h1 := total_le_const (n := C.n + 1) (f := fun w => (s.pc w).rank C.maxLevel) (fun w _ => (Pc.rank_range C.maxLevel _).2)
  have h2 := C.dist_le s.level s.queue
  have h3 : (C.maxLevel + 10 : Int) * s.queue.length ≤ (C.maxLevel + 10 : Int) * C.reactions.length :=
    Int.mul_le_mul_of_nonneg_left (by omega) (by omega)
  unfold measure bound
  rw [Int.natCast_add, Int.natCast_add, Int.natCast_mul, Int.natCast_mul]
  have e1 : ((C.maxLevel + 10 : Nat) : Int) = C.maxLevel + 10 := rfl
  have e2 : ((3 * C.maxLevel + 15 : Nat) : Int) = 3 * C.maxLevel + 15 := by omega
  rw [e1, e2]
  omega

/-- `k` steps that the workers make on their own. -/
inductive OwnSteps (C : Config) : State → Nat → State → Prop
  | nil (s : State) : OwnSteps C s 0 s
  | cons {s s1 s2 : State} {k : Nat} (a : Act) : a.own = true → a.allowed C s → exec C s a = some s1 →
      OwnSteps C s1 k s2 → OwnSteps C s (k + 1) s2

theorem OwnSteps.reach {k : Nat} (hk : OwnSteps C s k s') (h : Reach C s) : Reach C s' := by
  induction hk with
  | nil => exact h
  | cons a ho ha he _ ih => exact ih (.step a h ha he)

theorem OwnSteps.measure (hC : C.Ok) {k : Nat} (hk : OwnSteps C s k s') (h : Reach C s) :
    Gedf.measure C s' + k ≤ Gedf.measure C s := by
  induction hk with
  | nil => omega
  | cons a ho ha he _ ih =>
    have h1 := measure_go hC (h.inv hC).1 (h.inv hC).2 ho ha he
    have h2 := ih (.step a h ha he)
    omega

theorem settles (hC : C.Ok) : ∀ (m : Nat) {s : State}, Reach C s → measure C s ≤ m → ∃ k s', OwnSteps C s k s' ∧ Settled C s'
  | m, s, h, hm => by
    by_cases hset : Settled C s
    · exact ⟨0, s, .nil s, hset⟩
    · unfold Settled at hset
      have : ∃ a : Act, a.own = true ∧ a.allowed C s ∧ exec C s a ≠ none := by
        by_contra hc
        refine hset fun a h1 h2 => ?_
        by_contra h3
        exact hc ⟨a, h1, h2, h3⟩
      obtain ⟨a, h1, h2, h3⟩ := this
      cases he : exec C s a with
      | none => exact absurd he h3
      | some s1 =>
        have hd := measure_go hC (h.inv hC).1 (h.inv hC).2 h1 h2 he
        have hp := measure_pos (C := C) (s := s1)
        cases m with
        | zero => omega
        | succ m =>
          obtain ⟨k, s', k1, k2⟩ := settles hC m (.step a h h2 he) (by omega)
          exact ⟨k + 1, s', .cons a h1 h2 he k1, k2⟩

end

end ReactorC.Gedf
