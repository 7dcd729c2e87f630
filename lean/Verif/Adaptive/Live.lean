import Verif.Adaptive.Always

/-!
# The workers of the adaptive scheduler can always go on

A number that some step of the threads lowers, as long as no reaction is executing and the next tag is not awaited.
-/

namespace ReactorC.Adaptive

open Np (Ev Who put)

/-- Steps that the threads make by themselves: everything except that reactions end or are triggered, that the tag advances
or the program stops, that threads are woken up without a cause, and that a thread that is not a worker takes the mutex. -/
def Act.own : Act → Bool
  | .go _ | .close _ _ | .outsideUnlock => true
  | _ => false

inductive Own (C : Config) : State → State → Prop
  | refl (s : State) : Own C s s
  | step {s s1 s' : State} (a : Act) : a.own = true → a.allowed C s → exec C s a = some s1 → Own C s1 s' → Own C s s'

theorem Own.trans {C : Config} {s s1 s2 : State} (h : Own C s s1) (h' : Own C s1 s2) : Own C s s2 := by
  induction h with
  | refl => exact h'
  | step a h1 h2 h3 _ ih => exact .step a h1 h2 h3 (ih h')

theorem Own.reach {C : Config} {s s1 : State} (h : Own C s s1) (hr : Reach C s) : Reach C s1 := by
  induction h with
  | refl => exact hr
  | step a _ h2 h3 _ ih => exact ih (.step a hr h2 h3)

/-- A reaction is executing, or the next tag is awaited, or all workers have left. -/
def Settled (C : Config) (s : State) : Prop :=
  (∃ w r, w < C.n ∧ s.pc w = .run r) ∨ (∃ w, w < C.n ∧ s.pc w = .tag) ∨ (s.stop = true ∧ ∀ w, w < C.n → s.pc w = .exited)

/-- How many workers are still to be asked for reactions after `v`. -/
def rem (num x v : Nat) : Nat :=
  if x < num then (if v = x then num - 1 else if v < num then (x + num - 1 - v) % num else num) else 0

/-- How far a thread is from being done. -/
def dist (n num : Nat) (sig : Bool) (x : Nat) : Pc → Nat
  | .doze _ => 1
  | .sleep _ => 2
  | .dec _ => 3
  | .check _ => 4
  | .test _ => 5
  | .lock _ => 6
  | .look _ => 7
  | .scan _ v => 8 + 3 * rem num x v
  | .zero _ v => 9 + 3 * rem num x v
  | .get _ v => 10 + 3 * rem num x v
  | .snap => 11 + 3 * n
  | .leave => 12 + 3 * n
  | .done _ => 12 + 3 * n
  | .unlock _ => 12 + 3 * n
  | .unlockB => 13 + 3 * n
  | .asleep _ => if sig then 13 + 3 * n else 0
  | .adv => 2
  | .close => 1
  | .wake _ => (n + 2) * (13 + 3 * n) + 2
  | .lockB _ => (n + 2) * (13 + 3 * n) + 3
  | .awaken _ => (n + 2) * (13 + 3 * n) + 4
  | .total => (n + 2) * (13 + 3 * n) + 5
  | .signal => (n + 2) * (13 + 3 * n) + 5
  | .events => (n + 2) * (13 + 3 * n) + 6
  | .store .events _ _ _ => (n + 2) * (13 + 3 * n) + 7
  | .fetch .events _ => (n + 2) * (13 + 3 * n) + 8
  | .boot => 1
  | .store .boot _ _ _ => 2
  | .fetch .boot _ => 3
  | _ => 0

def distOf (C : Config) (s : State) (x : Nat) : Nat := dist C.n s.num (s.sig x) x (s.pc x)

/-- The number. -/
def measure (C : Config) (s : State) : Nat :=
  (C.maxLevel - s.cur) * ((C.n + 2) * (13 + 3 * C.n) + 9) + ((List.range (C.n + 1)).map (distOf C s)).sum +
    (if s.mutex = some (C.n + 1) then 1 else 0)

theorem sum_congr {f g : Nat → Nat} : ∀ {n : Nat}, (∀ x, x < n → f x = g x) →
    ((List.range n).map f).sum = ((List.range n).map g).sum
  | 0, _ => rfl
  | n + 1, h => by
    rw [List.range_succ, List.map_append, List.map_append, List.sum_append, List.sum_append,
      sum_congr (n := n) fun x hx => h x (by omega)]
    simp [h n (by omega)]

theorem sum_change {f g : Nat → Nat} {w : Nat} (h : ∀ x, x ≠ w → f x = g x) :
    ∀ {n : Nat}, w < n → ((List.range n).map f).sum + g w = ((List.range n).map g).sum + f w
  | 0, hw => by omega
  | n + 1, hw => by
    rw [List.range_succ, List.map_append, List.map_append, List.sum_append, List.sum_append]
    rcases Nat.lt_or_ge w n with k | k
    · have := sum_change h k
      have h2 := h n (by omega)
      simp only [List.map_cons, List.map_nil, List.sum_cons, List.sum_nil]
      omega
    · have hwn : w = n := by omega
      subst hwn
      have := sum_congr (f := f) (g := g) (n := w) fun x hx => h x (by omega)
      simp only [List.map_cons, List.map_nil, List.sum_cons, List.sum_nil]
      omega

theorem sum_bound {f g : Nat → Nat} {b : Nat} (h : ∀ x, f x ≤ g x + b) :
    ∀ {n : Nat}, ((List.range n).map f).sum ≤ ((List.range n).map g).sum + n * b
  | 0 => by simp
  | n + 1 => by
    rw [List.range_succ, List.map_append, List.map_append, List.sum_append, List.sum_append]
    have := sum_bound h (n := n)
    have h2 := h n
    simp only [List.map_cons, List.map_nil, List.sum_cons, List.sum_nil]
    rw [Nat.succ_mul]; omega

theorem rem_le {num x v : Nat} : rem num x v ≤ num := by
  unfold rem
  split
  · split
    · omega
    · split
      · exact Nat.le_of_lt (Nat.mod_lt _ (by omega))
      · omega
  · omega

theorem rem_next {num x v : Nat} (hx : x < num) (hne : (v + 1) % num ≠ x) : rem num x ((v + 1) % num) + 1 ≤ rem num x v := by
  have hlt : (v + 1) % num < num := Nat.mod_lt _ (by omega)
  have hle : rem num x ((v + 1) % num) ≤ num - 1 := by
    unfold rem
    rw [if_pos hx, if_neg hne, if_pos hlt]
    have := Nat.mod_lt (x + num - 1 - (v + 1) % num) (show num > 0 by omega)
    omega
  by_cases hv : v < num
  · unfold rem
    rw [if_pos hx, if_pos hx, if_neg hne, if_pos hlt, if_pos hv]
    rcases Nat.lt_or_ge (v + 1) num with k | k
    · rw [Nat.mod_eq_of_lt k] at hne ⊢
      by_cases e : v = x
      · subst e
        rw [if_pos rfl, show v + num - 1 - (v + 1) = num - 2 by omega, Nat.mod_eq_of_lt (by omega)]
        omega
      · rw [if_neg e]
        rcases Nat.lt_or_ge v x with k' | k'
        · rw [show x + num - 1 - v = (x - 1 - v) + num by omega, show x + num - 1 - (v + 1) = (x - 1 - (v + 1)) + num by omega,
            Nat.add_mod_right, Nat.add_mod_right, Nat.mod_eq_of_lt (show x - 1 - v < num by omega),
            Nat.mod_eq_of_lt (show x - 1 - (v + 1) < num by omega)]
          omega
        · rw [Nat.mod_eq_of_lt (show x + num - 1 - v < num by omega),
            Nat.mod_eq_of_lt (show x + num - 1 - (v + 1) < num by omega)]
          omega
    · have hvn : v + 1 = num := by omega
      rw [hvn, Nat.mod_self] at hne ⊢
      by_cases e : v = x
      · rw [if_pos e, show x + num - 1 - 0 = (num - 2) + num by omega, Nat.add_mod_right, Nat.mod_eq_of_lt (by omega)]
        omega
      · rw [if_neg e, show x + num - 1 - 0 = (x - 1) + num by omega, Nat.add_mod_right, Nat.mod_eq_of_lt (by omega),
          show x + num - 1 - v = x by omega, Nat.mod_eq_of_lt hx]
        omega
  · have : rem num x v = num := by
      unfold rem
      rw [if_pos hx, if_neg (by omega), if_neg hv]
    omega

section
variable {C : Config} {s s' : State} {w : Nat}

theorem lower (hw : w ≤ C.n) {p : Pc} (hpc : s'.pc = put s.pc w p) (hsig : ∀ x, x ≠ w → s'.sig x = s.sig x)
    (hnum : s'.num = s.num) (hcur : s'.cur = s.cur) (hm : s'.mutex = some (C.n + 1) → s.mutex = some (C.n + 1))
    (hd : dist C.n s.num (s'.sig w) w p < dist C.n s.num (s.sig w) w (s.pc w)) : measure C s' < measure C s := by
  unfold measure
  rw [hcur]
  have h1 := sum_change (f := distOf C s') (g := distOf C s) (w := w) (fun x hx => by
    unfold distOf; rw [hpc, put_ne _ _ hx, hsig x hx, hnum]) (show w < C.n + 1 by omega)
  have h2 : distOf C s' w = dist C.n s.num (s'.sig w) w p := by unfold distOf; rw [hpc, put_same, hnum]
  have h3 : distOf C s w = dist C.n s.num (s.sig w) w (s.pc w) := rfl
  have h4 : (if s'.mutex = some (C.n + 1) then 1 else 0) ≤ (if s.mutex = some (C.n + 1) then 1 else 0) := by
    by_cases k : s'.mutex = some (C.n + 1)
    · rw [if_pos k, if_pos (hm k)]; exact Nat.le_refl _
    · rw [if_neg k]; omega
  omega

/-- Only the workers and the threads outside take the mutex. -/
theorem Reach.owner (hC : C.Ok) (h : Reach C s) {x : Nat} (hx : s.mutex = some x) : x < C.n ∨ x = C.n + 1 := by
  induction h generalizing x with
  | init => cases hx
  | @step s s' a h ha he ih =>
    have hcr := h.crew hC
    have hmain : ∀ w, (if s.started then w < C.n else w = C.n) → w < C.n ∨ (s.pc w).booting = true := by
      intro w hw
      cases hs : s.started with
      | true => rw [hs] at hw; exact .inl hw
      | false =>
        rw [hs] at hw
        have hw : w = C.n := hw
        have := hcr.main
        rw [hs] at this
        rw [hw]; exact .inr this
    cases a with
    | go w =>
      have hw := hmain w ha
      cases hp : s.pc w <;> rw [hp] at hw <;> simp only [exec, hp] at he <;> repeat' split at he
      all_goals first
        | (cases he; done)
        | (cases he; exact ih hx)
        | (cases he; cases hx; done)
        | (cases he; cases hx; exact .inl (hw.resolve_right (fun k => by cases k)))
    | outsideLock =>
      simp only [exec] at he
      split at he
      · cases he; cases hx; exact .inr rfl
      · cases he
    | _ =>
      simp only [exec, trigger] at he
      repeat' split at he
      all_goals first
        | (cases he; done)
        | (cases he; exact ih hx)
        | (cases he; cases hx; done)

theorem one {a : Act} (h1 : a.own = true) (h2 : a.allowed C s) (h3 : exec C s a = some s')
    (h4 : Settled C s' ∨ measure C s' < measure C s) : ∃ s', Own C s s' ∧ (Settled C s' ∨ measure C s' < measure C s) :=
  ⟨s', .step a h1 h2 h3 (.refl _), h4⟩

/-- The thread has no reaction and has not emptied a count. -/
def Pc.still : Pc → Bool
  | .zero _ _ | .took _ _ | .fetch (.running _) _ | .store (.running _) _ _ _ => false
  | _ => true

/-- From `took` the worker gets to execute the reaction. -/
theorem took_runs {loc : Nat → Loc} (hi : Inv C s loc) (hst : s.started = true) (hw : w < C.n) {v i : Nat} (hp : s.pc w = .took v i) :
    ∃ s', Own C s s' ∧ Settled C s' := by
  have hne := hi.data.p.took w v i hp
  cases ha : s.arr s.cur v i with
  | none => exact (hne ha).elim
  | some r =>
    have he : ∃ s1, exec C s (.go w) = some s1 ∧ s1.pc w = .run r :=
      ⟨_, by simp only [exec, hp, ha]; rfl, put_same _ _ _⟩
    obtain ⟨s1, he, h1⟩ := he
    exact ⟨s1, .step (.go w) rfl (by show if s.started then w < C.n else w = C.n; rw [if_pos hst]; exact hw) he (.refl _),
      .inl ⟨w, r, hw, h1⟩⟩

/-- From `get` with a positive count the worker gets to execute a reaction. -/
theorem get_runs (hC : C.Ok) (h : Reach C s) (hst : s.started = true) (hw : w < C.n) {sn v : Nat} (hp : s.pc w = .get sn v)
    (hv : 0 < s.cnt s.cur v) : ∃ s', Own C s s' ∧ Settled C s' := by
  have hall : (Act.go w).allowed C s := by show if s.started then w < C.n else w = C.n; rw [if_pos hst]; exact hw
  have he : ∃ s1, exec C s (.go w) = some s1 ∧ s1.started = true ∧ ∃ v i, s1.pc w = .took v i := by
    refine ⟨_, by simp only [exec, hp]; rfl, by exact hst, v, (s.cnt s.cur v - 1).toNat, ?_⟩
    dsimp only
    rw [put_same, if_pos (by omega)]
  obtain ⟨s1, he, hst1, v', i, hp1⟩ := he
  have h1 : Reach C s1 := .step _ h hall he
  obtain ⟨loc, hi⟩ := h1.inv hC
  obtain ⟨s2, h2, h3⟩ := took_runs hi hst1 hw hp1
  exact ⟨s2, .step _ rfl hall he h2, h3⟩

theorem thread_step (hC : C.Ok) (h : Reach C s) (hk : Ctl C s) (hst : s.started = true) (hns : ¬ Settled C s)
    (hstill : ∀ t, (s.pc t).still = true) (hw : w < C.n) (hmove : (s.pc w).top = true ∨ awake s w = true ∨ s.held w = true)
    (hfree : s.mutex = none ∨ s.mutex = some w) :
    ∃ s', Own C s s' ∧ (Settled C s' ∨ measure C s' < measure C s) := by
  obtain ⟨loc, hi⟩ := h.inv hC
  have hcr := h.crew hC
  have hall : (Act.go w).allowed C s := by show if s.started then w < C.n else w = C.n; rw [if_pos hst]; exact hw
  have hcnt : ∀ v, 0 ≤ s.cnt s.cur v := by
    intro v
    rcases Int.lt_or_le (s.cnt s.cur v) 0 with k | k
    · obtain ⟨t, sn, k'⟩ := hi.data.n.neg v k
      have := hstill t
      rw [k'] at this; cases this
    · exact k
  have ht := (hk.thr w hw).2
  have hnn := hcr.nums.1
  have hnm : ∀ {b : Nat}, s.mutex = none → s.mutex ≠ some b := fun e => by rw [e]; exact fun k => by cases k
  have hlow : ∀ {s1 : State} {p : Pc}, exec C s (.go w) = some s1 → s1.pc = put s.pc w p → (∀ x, x ≠ w → s1.sig x = s.sig x) →
      s1.num = s.num → s1.cur = s.cur → (s1.mutex = some (C.n + 1) → s.mutex = some (C.n + 1)) →
      dist C.n s.num (s1.sig w) w p < dist C.n s.num (s.sig w) w (s.pc w) →
      ∃ s', Own C s s' ∧ (Settled C s' ∨ measure C s' < measure C s) :=
    fun he h1 h2 h3 h4 h5 h6 => one rfl hall he (.inr (lower (by omega) h1 h2 h3 h4 h5 h6))
  cases hp : s.pc w with
  | boot => rw [hp] at ht; exact ht.elim
  | snap =>
    refine hlow (by simp only [exec, hp]; rfl) (by rfl) (by intros; rfl) (by rfl) (by rfl) (by exact id) ?_
    rw [hp]; have := rem_le (num := s.num) (x := w) (v := w); simp only [dist]; omega
  | get sn v =>
    rcases Int.lt_or_le 0 (s.cnt s.cur v) with k | k
    · obtain ⟨s', h1, h2⟩ := get_runs hC h hst hw hp k
      exact ⟨s', h1, .inl h2⟩
    · refine hlow (by simp only [exec, hp]; rfl) (by rfl) (by intros; rfl) (by rfl) (by rfl) (by exact id) ?_
      rw [hp, if_neg (by omega)]; simp only [dist]; omega
  | took v i => have := hstill w; rw [hp] at this; cases this
  | zero sn v => have := hstill w; rw [hp] at this; cases this
  | scan sn v =>
    refine hlow (by simp only [exec, hp]; rfl) (by rfl) (by intros; rfl) (by rfl) (by rfl) (by exact id) ?_
    rw [hp]
    unfold scanNext
    by_cases h1 : w < s.num
    · rw [if_pos h1]
      by_cases h2 : (v + 1) % s.num = w
      · rw [if_pos h2]; simp only [dist]; omega
      · rw [if_neg h2]
        have := rem_next h1 h2
        simp only [dist]; omega
    · rw [if_neg h1]; simp only [dist]; omega
  | look sn =>
    refine hlow (by simp only [exec, hp]; rfl) (by rfl) (by intros; rfl) (by rfl) (by rfl) (by exact id) ?_
    rw [hp]; by_cases k : 1 < s.loose ∨ C.fast = false
    · rw [if_pos k]; simp only [dist]; omega
    · rw [if_neg k]; simp only [dist]; omega
  | lock sn =>
    rw [hp] at ht
    have hm : s.mutex = none := by
      refine hfree.resolve_right fun k => ?_
      have := (hk.mutex w hw).2 k
      rw [ht.2] at this; cases this
    refine hlow (by simp only [exec, hp]; rw [if_pos hm]; try rfl) (by rfl) (by intros; rfl) (by rfl) (by rfl) ?_ ?_
    · intro k; dsimp only at k; cases k; omega
    · rw [hp]; simp only [dist]; omega
  | test sn =>
    by_cases hz : s.cnt s.cur w = 0
    · refine hlow (by simp only [exec, hp]; rfl) (by rfl) (by intros; rfl) (by rfl) (by rfl) (by exact id) ?_
      rw [hp, if_pos hz]; simp only [dist]; omega
    · have hpos : 0 < s.cnt s.cur w := by have := hcnt w; omega
      have e1 : exec C s (.go w) = some (s.goto w (.unlock sn)) := by simp only [exec, hp]; rw [if_neg hz]
      have r1 : Reach C (s.goto w (.unlock sn)) := .step _ h hall e1
      have p1 : (s.goto w (.unlock sn)).pc w = .unlock sn := put_same _ _ _
      have hall1 : (Act.go w).allowed C (s.goto w (.unlock sn)) := by
        show if s.started then w < C.n else w = C.n; rw [if_pos hst]; exact hw
      have : ∃ s2, exec C (s.goto w (.unlock sn)) (.go w) = some s2 ∧ s2.pc w = .get sn w ∧ s2.started = true ∧
          0 < s2.cnt s2.cur w := by
        by_cases hh : s.held w = true
        · refine ⟨_, by simp only [exec, p1]; rw [if_pos (show (s.goto w (.unlock sn)).held w = true from hh)], by exact put_same _ _ _, by exact hst, by exact hpos⟩
        · refine ⟨_, by simp only [exec, p1]; rw [if_neg (show ¬ (s.goto w (.unlock sn)).held w = true from hh)], by exact put_same _ _ _, by exact hst, by exact hpos⟩
      obtain ⟨s2, e2, p2, st2, c2⟩ := this
      have r2 : Reach C s2 := .step _ r1 hall1 e2
      obtain ⟨s', h1, h2⟩ := get_runs hC r2 st2 hw p2 c2
      exact ⟨s', .step _ rfl hall e1 (.step _ rfl hall1 e2 h1), .inl h2⟩
  | unlock sn =>
    by_cases hh : s.held w = true
    · refine hlow (by simp only [exec, hp]; rw [if_pos hh]; try rfl) (by rfl) (by intros; rfl) (by rfl) (by rfl) (by intro k; cases k) ?_
      rw [hp]; have := rem_le (num := s.num) (x := w) (v := w); simp only [dist]; omega
    · refine hlow (by simp only [exec, hp]; rw [if_neg hh]; try rfl) (by rfl) (by intros; rfl) (by rfl) (by rfl) (by exact id) ?_
      rw [hp]; have := rem_le (num := s.num) (x := w) (v := w); simp only [dist]; omega
  | check sn =>
    refine hlow (by simp only [exec, hp]; rfl) (by rfl) (by intros; rfl) (by rfl) (by rfl) (by exact id) ?_
    rw [hp]; simp only [dist]; omega
  | dec sn =>
    refine hlow (by simp only [exec, hp]; rfl) (by rfl) (by intros; rfl) (by rfl) (by rfl) (by exact id) ?_
    rw [hp]; by_cases k : s.loose - 1 = 0
    · rw [if_pos k]; simp only [dist]; omega
    · rw [if_neg k]; simp only [dist]; omega
  | run r => exact (hns (.inl ⟨w, r, hw, hp⟩)).elim
  | done r =>
    refine hlow (by simp only [exec, hp]; rfl) (by rfl) (by intros; rfl) (by rfl) (by rfl) (by exact id) ?_
    rw [hp]; simp only [dist]; omega
  | fetch who r =>
    cases who with
    | boot => rw [hp] at ht; exact ht.elim
    | running r' => have := hstill w; rw [hp] at this; cases this
    | events =>
      refine hlow (by simp only [exec, hp]; rfl) (by rfl) (by intros; rfl) (by rfl) (by rfl) (by exact id) ?_
      rw [hp]; simp only [dist]; omega
  | store who r v i =>
    cases who with
    | boot => rw [hp] at ht; exact ht.elim
    | running r' => have := hstill w; rw [hp] at this; cases this
    | events =>
      refine hlow (by simp only [exec, hp]; rfl) (by rfl) (by intros; rfl) (by rfl) (by rfl) (by exact id) ?_
      rw [hp]; simp only [dist, back]; omega
  | adv =>
    by_cases h1 : s.cur = C.maxLevel
    · refine hlow (by simp only [exec, hp]; rw [if_pos h1]; try rfl) (by rfl) (by intros; rfl) (by rfl) (by rfl) (by exact id) ?_
      rw [hp]; simp only [dist]; omega
    · have htot : s.total = 0 := by
        have hz : ∀ v, s.cnt s.cur v = 0 := fun v => by
          have := hi.prog.rest w hp v
          have := hcnt v
          omega
        unfold State.total
        have : s.cnt s.cur = fun _ => 0 := funext hz
        rw [this]
        induction (List.range s.num) with
        | nil => rfl
        | cons a l ih => simp
      refine one (a := .go w) rfl hall (by simp only [exec, hp]; rw [if_neg h1, if_pos htot]) (.inr ?_)
      have hcur := hi.prog.cur
      have hoth : ∀ x, x < C.n → x ≠ w → awake s x = false ∧ (s.pc x).top = false := by
        intro x hx hne
        obtain ⟨k1, k2⟩ := hk.alone w hw (by rw [hp]; rfl) x hx
        refine ⟨k1, ?_⟩
        cases k : (s.pc x).top with
        | false => rfl
        | true => exact (hne (k2 k)).elim
      have hmain : s.pc C.n = .exited := by have := hcr.main; rw [hst] at this; exact this
      let s1 : State := { s with
        cur := s.cur + 1
        num := s.nw (s.cur + 1)
        fault := s.fault || decide (C.maxLevel < s.cur + 1)
        pc := put s.pc w .total }
      show measure C s1 < measure C s
      have h2 : ((List.range (C.n + 1)).map (distOf C s1)).sum + distOf C s w = ((List.range (C.n + 1)).map (distOf C s)).sum + distOf C s1 w := by
        have hcong : ((List.range (C.n + 1)).map (distOf C s)).sum =
            ((List.range (C.n + 1)).map (fun x => if x = w then distOf C s w else distOf C s1 x)).sum := by
          refine sum_congr fun x hx => ?_
          by_cases e : x = w
          · rw [if_pos e, e]
          · rw [if_neg e]
            have e1 : s1.pc x = s.pc x := put_ne _ _ e
            show dist _ _ _ _ _ = dist _ _ _ _ _
            rw [e1]
            show dist C.n s.num (s.sig x) x (s.pc x) = dist C.n s1.num (s.sig x) x (s.pc x)
            rcases Nat.lt_or_ge x C.n with hx' | hx'
            · obtain ⟨k1, k2⟩ := hoth x hx' e
              unfold awake at k1
              obtain ⟨k1, _⟩ := Bool.or_eq_false_iff.1 k1
              cases hq : s.pc x with
              | fetch who r => cases who <;> rfl
              | store who r v i => cases who <;> rfl
              | _ => first | rfl | (rw [hq] at k1; cases k1; done)
            · rw [show x = C.n by omega, hmain]; rfl
        have := sum_change (f := distOf C s1) (g := fun x => if x = w then distOf C s w else distOf C s1 x) (w := w)
          (fun x hx => (if_neg hx).symm) (show w < C.n + 1 by omega)
        simp only [if_true] at this
        omega
      have h3 : distOf C s1 w = (C.n + 2) * (13 + 3 * C.n) + 5 := by
        unfold distOf
        rw [show s1.pc w = .total from put_same _ _ _]; rfl
      have h4 : distOf C s w = 2 := by unfold distOf; rw [hp]; rfl
      have h5 : (C.maxLevel - s.cur) = (C.maxLevel - (s.cur + 1)) + 1 := by omega
      have h6 : measure C s1 = (C.maxLevel - (s.cur + 1)) * ((C.n + 2) * (13 + 3 * C.n) + 9) +
        ((List.range (C.n + 1)).map (distOf C s1)).sum + (if s.mutex = some (C.n + 1) then 1 else 0) := rfl
      have h7 : measure C s = (C.maxLevel - (s.cur + 1)) * ((C.n + 2) * (13 + 3 * C.n) + 9) +
          ((C.n + 2) * (13 + 3 * C.n) + 9) +
        ((List.range (C.n + 1)).map (distOf C s)).sum + (if s.mutex = some (C.n + 1) then 1 else 0) := by
        unfold measure; rw [h5, Nat.succ_mul]
      rw [h6, h7]
      rw [h3, h4] at h2
      generalize (C.maxLevel - (s.cur + 1)) * ((C.n + 2) * (13 + 3 * C.n) + 9) = X
      omega
  | total =>
    refine hlow (by simp only [exec, hp]; rfl) (by rfl) (by intros; rfl) (by rfl) (by rfl) (by exact id) ?_
    rw [hp]; by_cases k : s.total ≠ 0
    · rw [if_pos k]; simp only [dist]; omega
    · rw [if_neg k]; simp only [dist]; omega
  | close =>
    refine one (a := .close w (fun _ => 1)) rfl (by show if s.started then w < C.n else w = C.n; rw [if_pos hst]; exact hw)
      (by simp only [exec, hp]; rfl) (.inl (.inr (.inl ⟨w, hw, by exact put_same _ _ _⟩)))
  | tag => exact (hns (.inr (.inl ⟨w, hw, hp⟩))).elim
  | events =>
    refine hlow (by simp only [exec, hp]; rfl) (by rfl) (by intros; rfl) (by rfl) (by rfl) (by exact id) ?_
    rw [hp]; simp only [dist]; omega
  | signal =>
    refine hlow (by simp only [exec, hp]; rfl) (by rfl) (by intros; rfl) (by rfl) (by rfl) (by exact id) ?_
    rw [hp]; simp only [dist]; omega
  | awaken k =>
    by_cases h1 : w = 0 ∧ k ≤ 1
    · refine hlow (by simp only [exec, hp]; rw [if_pos h1]; try rfl) (by rfl) (by intros; rfl) (by rfl) (by rfl) (by exact id) ?_
      rw [hp]; simp only [dist]
      have : 13 + 3 * C.n ≤ (C.n + 2) * (13 + 3 * C.n) := Nat.le_mul_of_pos_left _ (by omega)
      omega
    · refine hlow (by simp only [exec, hp]; rw [if_neg h1]; try rfl) (by rfl) (by intros; rfl) (by rfl) (by rfl) (by exact id) ?_
      rw [hp]; by_cases hh : s.held w = true
      · rw [if_pos hh]; simp only [dist]; omega
      · rw [if_neg hh]; simp only [dist]; omega
  | lockB k =>
    rw [hp] at ht
    have hm : s.mutex = none := by
      refine hfree.resolve_right fun k => ?_
      have := (hk.mutex w hw).2 k
      rw [ht.1] at this; cases this
    refine hlow (by simp only [exec, hp]; rw [if_pos hm]; try rfl) (by rfl) (by intros; rfl) (by rfl) (by rfl) ?_ ?_
    · intro k; dsimp only at k; cases k; omega
    · rw [hp]; simp only [dist]; omega
  | wake k =>
    have he : ∃ s1, exec C s (.go w) = some s1 ∧ s1.pc = put s.pc w .unlockB ∧ s1.num = s.num ∧ s1.cur = s.cur ∧
        s1.mutex = s.mutex :=
      ⟨_, by simp only [exec, hp]; rfl, by rfl, by rfl, by rfl, by rfl⟩
    obtain ⟨s1, he, hpc1, hnum1, hcur1, hm1⟩ := he
    refine one (a := .go w) rfl hall he (.inr ?_)
    have hb : ∀ x, (if x = w then 0 else distOf C s1 x) ≤ (if x = w then 0 else distOf C s x) + (13 + 3 * C.n) := by
      intro x
      by_cases e : x = w
      · rw [if_pos e, if_pos e]; omega
      · rw [if_neg e, if_neg e]
        unfold distOf
        rw [hpc1, put_ne _ _ e, hnum1]
        cases hq : s.pc x with
        | asleep sn =>
          simp only [dist]
          split <;> split <;> omega
        | fetch who r => cases who <;> simp only [dist] <;> omega
        | store who r v i => cases who <;> simp only [dist] <;> omega
        | _ => simp only [dist]; omega
    have h1 := sum_bound hb (n := C.n + 1)
    have h2 := sum_change (f := distOf C s1) (g := fun x => if x = w then 0 else distOf C s1 x) (w := w)
      (fun x hx => (if_neg hx).symm) (show w < C.n + 1 by omega)
    have h3 := sum_change (f := distOf C s) (g := fun x => if x = w then 0 else distOf C s x) (w := w)
      (fun x hx => (if_neg hx).symm) (show w < C.n + 1 by omega)
    simp only [if_true] at h2 h3
    have h4 : distOf C s1 w = 13 + 3 * C.n := by unfold distOf; rw [hpc1, put_same]; rfl
    have h5 : distOf C s w = (C.n + 2) * (13 + 3 * C.n) + 2 := by unfold distOf; rw [hp]; rfl
    unfold measure
    rw [hcur1, hm1]
    rw [Nat.succ_mul] at h5
    omega
  | unlockB =>
    by_cases hh : s.held w = true
    · refine hlow (by simp only [exec, hp]; rw [if_pos hh]; try rfl) (by rfl) (by intros; rfl) (by rfl) (by rfl) (by intro k; cases k) ?_
      rw [hp]; simp only [dist]; omega
    · refine hlow (by simp only [exec, hp]; rw [if_neg hh]; try rfl) (by rfl) (by intros; rfl) (by rfl) (by rfl) (by exact id) ?_
      rw [hp]; simp only [dist]; omega
  | sleep sn =>
    rw [hp] at ht
    refine hlow (by simp only [exec, hp]; rw [if_pos ht.2]; try rfl) (by rfl) (by intros; rfl) (by rfl) (by rfl) (by exact id) ?_
    rw [hp]; simp only [dist]; omega
  | doze sn =>
    rw [hp] at ht
    have hwt : s.waits w sn = true := by unfold State.waits; simp [ht.1]
    have hsg : s.sig w = false := by
      cases k : s.sig w with
      | false => rfl
      | true => obtain ⟨sn', k'⟩ := (hk.thr w hw).1 k; rw [hp] at k'; cases k'
    refine hlow (by simp only [exec, hp]; rfl) (by rfl) (by intros; rfl) (by rfl) (by rfl) (by intro k; cases k) ?_
    rw [hp, hwt]
    simp only [dist, hsg]
    simp
  | asleep sn =>
    rw [hp] at ht
    have hsig : s.sig w = true := by
      rcases hmove with k | k | k
      · rw [hp] at k; cases k
      · unfold awake at k; rw [hp] at k; exact k
      · rw [ht.1] at k; cases k
    have hm : s.mutex = none := by
      refine hfree.resolve_right fun k => ?_
      have := (hk.mutex w hw).2 k
      rw [ht.1] at this; cases this
    have hwt : s.waits w sn = false := by
      unfold State.waits
      obtain ⟨k1, k2⟩ := ht.2.2.1 hsig
      simp only [decide_eq_false_iff_not, not_or]
      exact ⟨k1, by omega⟩
    refine hlow (by simp only [exec, hp]; rw [if_pos ⟨hm, hsig⟩]; try rfl) (by rfl) (by intro x hx; exact put_ne _ _ hx) (by rfl) (by rfl) (by exact id) ?_
    rw [hp, hwt]; simp only [dist, hsig]; simp
  | leave =>
    refine hlow (by simp only [exec, hp]; rfl) (by rfl) (by intros; rfl) (by rfl) (by rfl) (by exact id) ?_
    rw [hp]; by_cases k : s.stop = true
    · rw [if_pos k]; simp only [dist]; omega
    · rw [if_neg k]; simp only [dist]; omega
  | exited => rw [hp] at ht; exact ht.elim

theorem leaving_step (h : Reach C s) (hC : C.Ok) (hb : Bye C s) (hst : s.started = true) (hns : ¬ Settled C s)
    (hown : s.mutex ≠ some (C.n + 1)) : ∃ s', Own C s s' ∧ (Settled C s' ∨ measure C s' < measure C s) := by
  have hgo : ∀ {w}, w < C.n → s.mutex = none ∨ s.mutex = some w → s.pc w ≠ .exited →
      ∃ s', Own C s s' ∧ (Settled C s' ∨ measure C s' < measure C s) := by
    intro w hw hfree hne
    have hall : (Act.go w).allowed C s := by show if s.started then w < C.n else w = C.n; rw [if_pos hst]; exact hw
    have hlow : ∀ {s1 : State} {p : Pc}, exec C s (.go w) = some s1 → s1.pc = put s.pc w p → (∀ x, x ≠ w → s1.sig x = s.sig x) →
        s1.num = s.num → s1.cur = s.cur → (s1.mutex = some (C.n + 1) → s.mutex = some (C.n + 1)) →
        dist C.n s.num (s1.sig w) w p < dist C.n s.num (s.sig w) w (s.pc w) →
        ∃ s', Own C s s' ∧ (Settled C s' ∨ measure C s' < measure C s) :=
      fun he h1 h2 h3 h4 h5 h6 => one rfl hall he (.inr (lower (by omega) h1 h2 h3 h4 h5 h6))
    rcases hb.thr w hw with hp | ⟨hp | hp, hh⟩ | ⟨sn, hp, h1, h2, h3, hh⟩
    · by_cases hh : s.held w = true
      · refine hlow (by simp only [exec, hp]; rw [if_pos hh]; try rfl) (by rfl) (by intros; rfl) (by rfl) (by rfl) (by intro k; cases k) ?_
        rw [hp]; simp only [dist]; omega
      · refine hlow (by simp only [exec, hp]; rw [if_neg hh]; try rfl) (by rfl) (by intros; rfl) (by rfl) (by rfl) (by exact id) ?_
        rw [hp]; simp only [dist]; omega
    · refine hlow (by simp only [exec, hp]; rfl) (by rfl) (by intros; rfl) (by rfl) (by rfl) (by exact id) ?_
      rw [hp, if_pos hb.stop]; simp only [dist]; omega
    · exact (hne hp).elim
    · have hm : s.mutex = none := by
        refine hfree.resolve_right fun k => ?_
        have := (hb.mutex w hw).2 k
        rw [hh] at this; cases this
      have hwt : s.waits w sn = false := by
        unfold State.waits
        simp only [decide_eq_false_iff_not, not_or]
        exact ⟨h2, by omega⟩
      refine hlow (by simp only [exec, hp]; rw [if_pos ⟨hm, h1⟩]; try rfl) (by rfl) (by intro x hx; exact put_ne _ _ hx) (by rfl) (by rfl) (by exact id) ?_
      rw [hp, hwt]; simp only [dist, h1]; simp
  cases hm : s.mutex with
  | none =>
    by_cases hall : ∀ w, w < C.n → s.pc w = .exited
    · exact (hns (.inr (.inr ⟨hb.stop, hall⟩))).elim
    · simp only [Classical.not_forall] at hall
      obtain ⟨w, hw, hne⟩ := hall
      exact hgo hw (.inl hm) hne
  | some x =>
    rcases h.owner hC hm with hx | hx
    · refine hgo hx (.inr hm) fun k => ?_
      have := (hb.mutex x hx).2 hm
      rcases hb.thr x hx with hp | ⟨_, hh⟩ | ⟨sn, _, _, _, _, hh⟩
      · rw [hp] at k; cases k
      · rw [hh] at this; cases this
      · rw [hh] at this; cases this
    · exact (hown (by rw [hm, hx])).elim

theorem some_step (hC : C.Ok) (h : Reach C s) (hns : ¬ Settled C s) :
    ∃ s', Own C s s' ∧ (Settled C s' ∨ measure C s' < measure C s) := by
  obtain ⟨loc, hi⟩ := h.inv hC
  have hcr := h.crew hC
  cases hst : s.started with
  | false =>
    have hall : (Act.go C.n).allowed C s := by
      show if s.started then C.n < C.n else C.n = C.n
      rw [if_neg (by rw [hst]; exact fun k => by cases k)]
    have hm := hcr.main
    rw [hst] at hm
    have hlow : ∀ {s1 : State} {p : Pc}, exec C s (.go C.n) = some s1 → s1.pc = put s.pc C.n p → (∀ x, s1.sig x = s.sig x) →
        s1.num = s.num → s1.cur = s.cur → s1.mutex = s.mutex →
        dist C.n s.num (s1.sig C.n) C.n p < dist C.n s.num (s.sig C.n) C.n (s.pc C.n) →
        ∃ s', Own C s s' ∧ (Settled C s' ∨ measure C s' < measure C s) :=
      fun he h1 h2 h3 h4 h5 h6 => one rfl hall he (.inr (lower (by omega) h1 (fun x _ => h2 x) h3 h4 (by rw [h5]; exact id) h6))
    cases hp : s.pc C.n with
    | boot =>
      refine hlow (by simp only [exec, hp]; rfl) (by rfl) (by intros; rfl) (by rfl) (by rfl) (by rfl) ?_
      rw [hp]; simp only [dist]; omega
    | fetch who r =>
      rw [hp] at hm
      cases who with
      | boot =>
        refine hlow (by simp only [exec, hp]; rfl) (by rfl) (by intros; rfl) (by rfl) (by rfl) (by rfl) ?_
        rw [hp]; simp only [dist]; omega
      | _ => cases hm
    | store who r v i =>
      rw [hp] at hm
      cases who with
      | boot =>
        refine hlow (by simp only [exec, hp]; rfl) (by rfl) (by intros; rfl) (by rfl) (by rfl) (by rfl) ?_
        rw [hp]; simp only [dist, back]; omega
      | _ => cases hm
    | _ => rw [hp] at hm; cases hm
  | true =>
  by_cases hout : s.mutex = some (C.n + 1)
  · refine one (a := .outsideUnlock) rfl trivial (by simp only [exec]; rw [if_pos hout]; try rfl) (.inr ?_)
    unfold measure
    rw [if_pos hout, if_neg (by exact fun k => by cases k)]
    exact Nat.lt_succ_self _
  · rcases hcr.phase with hk | hb
    · by_cases hstill : ∀ t, (s.pc t).still = true
      · cases hm : s.mutex with
        | none =>
          obtain ⟨x, hx, k⟩ := hk.any
          exact thread_step hC h hk hst hns hstill hx (k.elim .inl fun k => .inr (.inl k)) (.inl hm)
        | some x =>
          rcases h.owner hC hm with hx | hx
          · exact thread_step hC h hk hst hns hstill hx (.inr (.inr ((hk.mutex x hx).2 hm))) (.inr hm)
          · exact (hout (by rw [hm, hx])).elim
      · simp only [Classical.not_forall] at hstill
        obtain ⟨w, hw⟩ := hstill
        have hwn : w < C.n := by
          rcases Nat.lt_trichotomy w C.n with k | k | k
          · exact k
          · have := hcr.main
            rw [hst, ← k] at this
            rw [show s.pc w = .exited from this] at hw; exact (hw rfl).elim
          · rw [hcr.beyond w k] at hw; exact (hw rfl).elim
        have hall : ∀ {s1 : State}, s1.started = true → (Act.go w).allowed C s1 := by
          intro s1 h1; show if s1.started then w < C.n else w = C.n; rw [if_pos h1]; exact hwn
        cases hp : s.pc w with
        | took v i =>
          obtain ⟨s', h1, h2⟩ := took_runs hi hst hwn hp
          exact ⟨s', h1, .inl h2⟩
        | zero sn v =>
          refine one (a := .go w) rfl (hall hst) (by simp only [exec, hp]; rfl) (.inr (lower (w := w) (by omega) (by rfl) (by intros; rfl)
            (by rfl) (by rfl) (by exact id) ?_))
          rw [hp]; simp only [dist]; omega
        | fetch who r =>
          cases who with
          | running r' =>
            have he : ∃ s1, exec C s (.go w) = some s1 ∧ s1.started = true ∧ ∃ v i, s1.pc w = .store (.running r') r v i :=
              ⟨_, by simp only [exec, hp]; rfl, by exact hst, _, _, by exact put_same _ _ _⟩
            obtain ⟨s1, he, st1, v, i, p1⟩ := he
            have he2 : ∃ s2, exec C s1 (.go w) = some s2 ∧ s2.pc w = .run r' :=
              ⟨_, by simp only [exec, p1]; rfl, by exact put_same _ _ _⟩
            obtain ⟨s2, he2, p2⟩ := he2
            exact ⟨s2, .step _ rfl (hall hst) he (.step _ rfl (hall st1) he2 (.refl _)), .inl (.inl ⟨w, r', hwn, p2⟩)⟩
          | _ => rw [hp] at hw; exact (hw rfl).elim
        | store who r v i =>
          cases who with
          | running r' =>
            have he2 : ∃ s2, exec C s (.go w) = some s2 ∧ s2.pc w = .run r' :=
              ⟨_, by simp only [exec, hp]; rfl, by exact put_same _ _ _⟩
            obtain ⟨s2, he2, p2⟩ := he2
            exact ⟨s2, .step _ rfl (hall hst) he2 (.refl _), .inl (.inl ⟨w, r', hwn, p2⟩)⟩
          | _ => rw [hp] at hw; exact (hw rfl).elim
        | _ => rw [hp] at hw; exact (hw rfl).elim
    · exact leaving_step h hC hb hst hns hout

/-- The threads can always get by themselves to a state in which a reaction is executing, the next tag is awaited, or all
workers have left. -/
theorem settles (hC : C.Ok) (h : Reach C s) : ∃ s', Own C s s' ∧ Settled C s' := by
  generalize hm : measure C s = m
  induction m using Nat.strongRecOn generalizing s with
  | ind m ih =>
    by_cases hns : Settled C s
    · exact ⟨s, .refl _, hns⟩
    · obtain ⟨s1, h1, h2 | h2⟩ := some_step hC h hns
      · exact ⟨s1, h1, h2⟩
      · obtain ⟨s2, h3, h4⟩ := ih _ (by omega) (h1.reach h) rfl
        exact ⟨s2, h1.trans h3, h4⟩

end

end ReactorC.Adaptive
