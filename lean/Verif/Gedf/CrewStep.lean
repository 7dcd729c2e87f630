import Verif.Gedf.Crew

/-!
# The invariant of the workers is kept
-/

set_option linter.unusedVariables false

namespace ReactorC.Gedf

open Np (Ev put put_same put_other put_cases total total_congr total_put total_le total_full total_pos total_const)

theorem Pc.sleeper_le (p : Pc) : p.sleeper ≤ 1 := by unfold Pc.sleeper; split <;> omega
theorem Pc.sleeper_ge (p : Pc) : 0 ≤ p.sleeper := by unfold Pc.sleeper; split <;> omega
theorem Pc.sleeper_one {p : Pc} : p.sleeper = 1 ↔ p.sleeping = true := by
  unfold Pc.sleeper
  constructor
  · intro h; split at h
    · assumption
    · omega
  · intro h; rw [if_pos h]
theorem Pc.sleeper_zero {p : Pc} (h : p.sleeping = false) : p.sleeper = 0 := by
  unfold Pc.sleeper; rw [if_neg (by rw [h]; simp)]

theorem Pc.charge_boot {p : Pc} (h : p.charge = true) : p.booting = false := by
  cases p with
  | lock who r => cases who <;> simp_all [Pc.charge, Pc.booting]
  | insert who r => cases who <;> simp_all [Pc.charge, Pc.booting]
  | _ => simp_all [Pc.charge, Pc.booting]

theorem Pc.charge_awake {p : Pc} (h : p.charge = true) : p.sleeping = false ∧ p ≠ .loop := by
  cases p <;> simp_all [Pc.charge, Pc.sleeping]

theorem Pc.boot_inside {p : Pc} (h : p.booting = true) : p.inside = true ∧ p.charge = false := by
  cases p with
  | lock who r => cases who <;> simp_all [Pc.charge, Pc.booting, Pc.inside]
  | insert who r => cases who <;> simp_all [Pc.charge, Pc.booting, Pc.inside]
  | _ => simp_all [Pc.charge, Pc.booting, Pc.inside]

section
variable {C : Config} {s s' : State} {w : Nat}

/-- All other workers are idle exactly if the counter says so. -/
theorem Crew.all_idle (h : Crew C s) (hw : w < C.n) (hp : (s.pc w).sleeping = false) :
    s.idle = C.n - 1 ↔ ∀ x, x < C.n → x ≠ w → (s.pc x).sleeping = true := by
  have h1 := total_put Pc.sleeper s.pc .wait hw
  rw [Pc.sleeper_zero hp, show Pc.sleeper .wait = 1 from rfl, ← h.idle] at h1
  constructor
  · intro k x hx hxw
    have := total_full (n := C.n) (f := fun x => (put s.pc w .wait x).sleeper) (fun x _ => Pc.sleeper_le _)
      (by rw [h1]; omega) x hx
    rw [put_other _ _ hxw] at this
    exact Pc.sleeper_one.1 this
  · intro k
    rw [total_const (c := 1) (fun x hx => by
      by_cases hxw : x = w
      · subst hxw; rw [put_same]; rfl
      · rw [put_other _ _ hxw]; exact Pc.sleeper_one.2 (k x hx hxw))] at h1
    omega

/-- Only one thread advances the tag. -/
theorem Crew.one_charge (h : Crew C s) {x y : Nat} (hx : (s.pc x).charge = true) (hy : (s.pc y).charge = true) : x = y := by
  have bd : ∀ {z}, (s.pc z).charge = true → z < C.n := by
    intro z hz
    have h1 := h.bound (w := z) (fun k => by rw [k] at hz; cases hz)
    rcases Nat.lt_or_ge z C.n with k | k
    · exact k
    · rw [show z = C.n by omega] at hz
      rcases h.main with m | m
      · rw [Pc.charge_boot hz] at m; cases m
      · rw [m] at hz; cases hz
  by_contra hne
  have := h.alone x y hx (bd hy) (fun k => hne k.symm)
  obtain ⟨k1, k2⟩ := Pc.charge_awake hy
  rcases this with k | k
  · rw [k1] at k; cases k
  · exact k2 k

theorem Crew.is_worker (h : Crew C s) (h1 : s.pc w ≠ .exited) (h2 : (s.pc w).booting = false) :
    w < C.n ∧ (s.pc C.n) = .exited ∨ w < C.n ∧ s.pc w = .enter := by
  have hb := h.bound h1
  have hw : w < C.n := by
    rcases Nat.lt_or_ge w C.n with k | k
    · exact k
    · have : w = C.n := by omega
      subst this
      rcases h.main with m | m
      · rw [m] at h2; cases h2
      · exact absurd m h1
  rcases h.main with m | m
  · exact .inr ⟨hw, (h.early m).2 w hw⟩
  · exact .inl ⟨hw, m⟩

/-- A worker goes on to another statement. -/
theorem Crew.move (h : Crew C s) (hw : w < C.n) (hm : s.pc C.n = .exited) {p : Pc} (e : s'.pc = put s.pc w p)
    (hown : s'.owner = if p.inside then some w else if (s.pc w).inside then none else s.owner)
    (hfree : p.inside = true → (s.pc w).inside = true ∨ s.owner = none)
    (hdep : s'.depth = if p.inside then p.locks else if (s.pc w).inside then 0 else s.depth)
    (hidle : (s'.idle : Int) = s.idle - (s.pc w).sleeper + p.sleeper)
    (hboot : p.booting = false)
    (hstop : s'.stop = s.stop)
    (hlive : s.stop = false → p ≠ .exited)
    (hawake : s.stop = false → p.sleeping = true → (s.pc w).sleeping = true ∨ ∃ x, x < C.n ∧ x ≠ w ∧ (s.pc x).sleeping = false)
    (hch : p.charge = true → (s.pc w).charge = true ∨ ∀ x, x < C.n → x ≠ w → (s.pc x).sleeping = true)
    (hoth : p.sleeping = true ∨ p = .loop ∨ (s.pc w).charge = true ∨ ∀ x, x ≠ w → (s.pc x).charge = false)
    (hsolo : s'.solo = if p.charge then true else if (s.pc w).charge then false else s.solo)
    (hst : s.stop = true → p = .woken ∨ p = .loop ∨ p = .exited)
    (hlev : s'.level ≤ C.maxLevel) : Crew C s' := by
  have same : s'.pc w = p := by rw [e, put_same]
  have other : ∀ {x}, x ≠ w → s'.pc x = s.pc x := fun hx => by rw [e, put_other _ _ hx]
  have hmn : s'.pc C.n = .exited := by rw [other (by omega)]; exact hm
  have key : s'.owner = none ∧ (s.owner = none ∨ s.owner = some w) ∧ p.inside = false ∨
      (s'.owner = some w ∧ p.inside = true ∧ ∀ x, x ≠ w → s.owner ≠ some x) ∨
      (s'.owner = s.owner ∧ p.inside = false ∧ (s.pc w).inside = false) := by
    rw [hown]
    cases hp : p.inside with
    | true =>
      right; left
      refine ⟨by simp, rfl, fun x hx k => ?_⟩
      rcases hfree hp with k' | k'
      · rw [(h.mutex w).2 k'] at k; cases k; exact hx rfl
      · rw [k'] at k; cases k
    | false =>
      cases hq : (s.pc w).inside with
      | true => left; exact ⟨by simp, .inr ((h.mutex w).2 hq), rfl⟩
      | false => right; right; simp
  refine ⟨fun x => ?_, ?_, ?_, .inr hmn, fun x hx => ?_, fun x hx => ?_, fun k => ?_, fun k x hx => ?_, fun k => ?_,
    fun x y hx hy hxy => ?_, ?_, fun k x hx => ?_, hlev⟩
  · by_cases hx : x = w
    · subst hx
      rw [same]
      rcases key with ⟨k1, k2, k3⟩ | ⟨k1, k2, k3⟩ | ⟨k1, k2, k3⟩
      · rw [k1, k3]; simp
      · rw [k1, k2]; simp
      · rw [k1, k2, h.mutex, k3]
    · rw [other hx]
      rcases key with ⟨k1, k2, k3⟩ | ⟨k1, k2, k3⟩ | ⟨k1, k2, k3⟩
      · rw [k1, ← h.mutex]
        constructor
        · intro k; cases k
        · intro k
          rcases k2 with k2 | k2 <;> rw [k2] at k
          · cases k
          · cases k; exact absurd rfl hx
      · rw [k1, ← h.mutex]
        constructor
        · intro k; cases k; exact absurd rfl hx
        · intro k; exact absurd k (k3 x hx)
      · rw [k1, h.mutex]
  · rw [hdep, hown]
    cases hp : p.inside with
    | true => simp [same]
    | false =>
      cases hq : (s.pc w).inside with
      | true => simp
      | false =>
        simp only [Bool.false_eq_true, if_false]
        rw [h.depth]
        cases ho : s.owner with
        | none => rfl
        | some x =>
          have hx : x ≠ w := fun k => by
            subst k; have := (h.mutex x).1 ho; rw [hq] at this; cases this
          dsimp only
          rw [other hx]
  · rw [hidle, e, total_put Pc.sleeper s.pc p hw, h.idle]
  · rw [other (by omega)]; exact h.beyond x hx
  · by_cases hxw : x = w
    · subst hxw; rw [same]; exact hboot
    · rw [other hxw]; exact h.worker x hx
  · rw [hmn] at k; cases k
  · rw [hstop] at k
    by_cases hxw : x = w
    · subst hxw; rw [same]; exact hlive k
    · rw [other hxw]; exact h.live k x hx
  · rw [hstop] at k
    cases hp : p.sleeping with
    | false => exact ⟨w, hw, by rw [same]; exact hp⟩
    | true =>
      rcases hawake k hp with k' | ⟨x, hx, hxw, k'⟩
      · obtain ⟨x, hx, hx'⟩ := h.awake k
        have hxw : x ≠ w := fun k => by subst k; rw [k'] at hx'; cases hx'
        exact ⟨x, hx, by rw [other hxw]; exact hx'⟩
      · exact ⟨x, hx, by rw [other hxw]; exact k'⟩
  · by_cases hxw : x = w
    · subst hxw
      rw [same] at hx
      rw [other hxy]
      rcases hch hx with k | k
      · exact h.alone _ y k hy hxy
      · exact .inl (k y hy hxy)
    · rw [other hxw] at hx
      by_cases hyw : y = w
      · subst hyw
        rw [same]
        rcases hoth with k | k | k | k
        · exact .inl k
        · exact .inr k
        · exact absurd (h.one_charge hx k) hxw
        · rw [k x hxw] at hx; cases hx
      · rw [other hyw]; exact h.alone x y hx hy hxy
  · rw [hsolo]
    cases hp : p.charge with
    | true => simp only [if_true, true_iff]; exact ⟨w, by rw [same]; exact hp⟩
    | false =>
      cases hq : (s.pc w).charge with
      | true =>
        simp only [Bool.false_eq_true, if_false, if_true, false_iff]
        rintro ⟨x, hx⟩
        by_cases hxw : x = w
        · subst hxw; rw [same, hp] at hx; cases hx
        · rw [other hxw] at hx; exact hxw (h.one_charge hx hq)
      | false =>
        simp only [Bool.false_eq_true, if_false]
        rw [h.solo]
        constructor
        · rintro ⟨x, hx⟩
          have hxw : x ≠ w := fun k => by subst k; rw [hq] at hx; cases hx
          exact ⟨x, by rw [other hxw]; exact hx⟩
        · rintro ⟨x, hx⟩
          have hxw : x ≠ w := fun k => by subst k; rw [same, hp] at hx; cases hx
          exact ⟨x, by rw [other hxw] at hx; exact hx⟩
  · rw [hstop] at k
    by_cases hxw : x = w
    · subst hxw; rw [same]; exact hst k
    · rw [other hxw]; exact h.stopped k x hx

/-- The main thread goes on. -/
theorem Crew.boot_move (h : Crew C s) (hm : (s.pc C.n).booting = true) {p : Pc} (e : s'.pc = put s.pc C.n p)
    (hp : p.booting = true ∨ p = .exited)
    (hown : s'.owner = if p.inside then some C.n else none) (hdep : s'.depth = p.locks)
    (hidle : s'.idle = s.idle) (hstop : s'.stop = s.stop) (hsolo : s'.solo = s.solo) (hlev : s'.level = s.level) :
    Crew C s' := by
  have same : s'.pc C.n = p := by rw [e, put_same]
  have other : ∀ {x}, x ≠ C.n → s'.pc x = s.pc x := fun hx => by rw [e, put_other _ _ hx]
  obtain ⟨hs, he⟩ := h.early hm
  have hin : ∀ x, x ≠ C.n → (s.pc x).inside = false := by
    intro x hx
    rcases Nat.lt_trichotomy x C.n with k | k | k
    · rw [he x k]; rfl
    · exact absurd k hx
    · rw [h.beyond x k]; rfl
  have hcg : ∀ x, (s.pc x).charge = false := by
    intro x
    rcases Nat.lt_trichotomy x C.n with k | k | k
    · rw [he x k]; rfl
    · subst k
      exact (Pc.boot_inside hm).2
    · rw [h.beyond x k]; rfl
  have hpc : p.charge = false := by
    rcases hp with hp | hp
    · exact (Pc.boot_inside hp).2
    · subst hp; rfl
  have hcg' : ∀ x, (s'.pc x).charge = false := by
    intro x
    by_cases hx : x = C.n
    · subst hx; rw [same]; exact hpc
    · rw [other hx]; exact hcg x
  have hns : s.solo = false := by
    cases k : s.solo with
    | false => rfl
    | true => obtain ⟨x, hx⟩ := h.solo.1 k; rw [hcg x] at hx; cases hx
  refine ⟨fun x => ?_, ?_, ?_, ?_, fun x hx => ?_, fun x hx => ?_, fun k => ⟨by rw [hstop]; exact hs, fun x hx => ?_⟩,
    fun k x hx => ?_, fun k => ?_, fun x y hx => ?_, ?_, fun k => ?_, by rw [hlev]; exact h.level⟩
  · rw [hown]
    by_cases hx : x = C.n
    · subst hx; rw [same]
      cases p.inside <;> simp
    · rw [other hx, hin x hx]
      split
      · simp only [Option.some.injEq, Bool.false_eq_true, iff_false]; exact fun k => hx k.symm
      · simp
  · rw [hdep, hown]
    cases hpi : p.inside with
    | true => simp [same]
    | false =>
      rcases hp with hp | hp
      · rw [(Pc.boot_inside hp).1] at hpi; cases hpi
      · subst hp; rfl
  · rw [hidle, h.idle]
    exact total_congr fun x hx => by rw [other (by omega)]
  · rw [same]; exact hp
  · rw [other (by omega)]; exact h.beyond x hx
  · rw [other (by omega)]; exact h.worker x hx
  · rw [other (by omega)]; exact he x hx
  · rw [other (by omega)]; exact h.live hs x hx
  · obtain ⟨x, hx, hx'⟩ := h.awake hs
    exact ⟨x, hx, by rw [other (by omega)]; exact hx'⟩
  · rw [hcg' x] at hx; cases hx
  · rw [hsolo, hns]
    constructor
    · intro k; cases k
    · rintro ⟨x, hx⟩; rw [hcg' x] at hx; cases hx
  · rw [hstop, hs] at k; cases k

theorem Crew.is_main (h : Crew C s) (hb : (s.pc w).booting = true) : w = C.n := by
  have h1 := h.bound (w := w) (fun k => by rw [k] at hb; cases hb)
  rcases Nat.lt_or_ge w C.n with k | k
  · rw [h.worker w k] at hb; cases hb
  · omega

/-- While a thread executes a reaction, nobody advances the tag. -/
theorem Crew.no_charge (h : Crew C s) (hw : w < C.n) (h1 : (s.pc w).sleeping = false) (h2 : s.pc w ≠ .loop)
    (h3 : (s.pc w).charge = false) (x : Nat) : (s.pc x).charge = false := by
  cases k : (s.pc x).charge with
  | false => rfl
  | true =>
    have hxw : w ≠ x := fun e => by subst e; rw [h3] at k; cases k
    rcases h.alone x w k hw hxw with k' | k'
    · rw [h1] at k'; cases k'
    · exact absurd k' h2

/-- While a thread is in the loop and all others are idle, nobody else advances the tag. -/
theorem Crew.no_charge' (h : Crew C s) (hw : w < C.n) (h1 : (s.pc w).sleeping = false)
    (h3 : (s.pc w).charge = false) (hi : s.idle = C.n - 1) (x : Nat) : (s.pc x).charge = false := by
  cases k : (s.pc x).charge with
  | false => rfl
  | true =>
    have hxw : x ≠ w := fun e => by subst e; rw [h3] at k; cases k
    have hx : x < C.n := by
      have hb := h.bound (w := x) (fun e => by rw [e] at k; cases k)
      rcases Nat.lt_or_ge x C.n with k' | k'
      · exact k'
      · have : x = C.n := by omega
        subst this
        rcases h.main with m | m
        · rw [(Pc.boot_inside m).2] at k; cases k
        · rw [m] at k; cases k
    have := (h.all_idle hw h1).1 hi x hx hxw
    rw [(Pc.charge_awake k).1] at this; cases this

theorem Config.nextLevel_le (C : Config) (l : Nat) : C.nextLevel l ≤ C.maxLevel := by
  unfold Config.nextLevel; split <;> omega

theorem Crew.same (h : Crew C s) (e1 : s'.pc = s.pc) (e2 : s'.owner = s.owner) (e3 : s'.depth = s.depth)
    (e4 : s'.idle = s.idle) (e5 : s'.stop = s.stop) (e6 : s'.solo = s.solo) (e7 : s'.level ≤ C.maxLevel) : Crew C s' := by
  refine ⟨?_, ?_, ?_, ?_, ?_, ?_, ?_, ?_, ?_, ?_, ?_, ?_, e7⟩
  · rw [e1, e2]; exact h.mutex
  · rw [e1, e2, e3]; exact h.depth
  · rw [e1, e4]; exact h.idle
  · rw [e1]; exact h.main
  · rw [e1]; exact h.beyond
  · rw [e1]; exact h.worker
  · rw [e1, e5]; exact h.early
  · rw [e1, e5]; exact h.live
  · rw [e1, e5]; exact h.awake
  · rw [e1]; exact h.alone
  · rw [e1, e6]; exact h.solo
  · rw [e1, e5]; exact h.stopped

/-- After the decision to stop only three statements are possible. -/
theorem Crew.running (h : Crew C s) (h1 : s.pc w ≠ .woken) (h2 : s.pc w ≠ .loop) (h3 : s.pc w ≠ .exited) :
    s.stop = false := by
  cases hs : s.stop with
  | false => rfl
  | true =>
    exfalso
    have hb := h.bound h3
    rcases Nat.lt_or_ge w C.n with k | k
    · rcases h.stopped hs w k with k | k | k
      · exact h1 k
      · exact h2 k
      · exact h3 k
    · have : w = C.n := by omega
      subst this
      rcases h.main with m | m
      · rw [(h.early m).1] at hs; cases hs
      · exact h3 m

/-- A worker whose wait ended is in the same place as before. -/
theorem Crew.wakeUp (h : Crew C s) {x : Nat} (e : s.pc x = .wait) : Crew C { s with pc := put s.pc x .woken } := by
  have hw : x < C.n ∧ s.pc C.n = .exited := by
    rcases h.is_worker (w := x) (by rw [e]; simp) (by rw [e]; rfl) with k | k
    · exact k
    · rw [e] at k; cases k.2
  refine h.move (w := x) (p := .woken) hw.1 hw.2 rfl ?_ ?_ ?_ ?_ rfl rfl (by simp) ?_ ?_ (.inl rfl) ?_ (fun _ => .inl rfl) h.level
  · simp [e, Pc.inside]
  · intro k; cases k
  · simp [e, Pc.inside]
  · simp [e, Pc.sleeper, Pc.sleeping]
  · intro _ _; left; rw [e]; rfl
  · intro k; cases k
  · simp [e, Pc.charge]

theorem Crew.step (h : Crew C s) (P : Places C s) (hstep : Step C s w s') : Crew C s' := by
  have worker : ∀ {p : Pc}, s.pc w = p → p ≠ .enter → p ≠ .exited → p.booting = false → w < C.n ∧ s.pc C.n = .exited := by
    intro p e h1 h2 h3
    rcases h.is_worker (w := w) (by rw [e]; exact h2) (by rw [e]; exact h3) with k | k
    · exact k
    · rw [e] at k; exact absurd k.2 h1
  have free : s.owner = none → s.pc C.n = .exited := by
    intro k
    rcases h.main with m | m
    · have := (h.mutex C.n).2 (Pc.boot_inside m).1
      rw [k] at this; cases this
    · exact m
  have run : ∀ {p : Pc}, s.pc w = p → p ≠ .woken → p ≠ .loop → p ≠ .exited → s.stop = false :=
    fun e h1 h2 h3 => h.running (w := w) (by rw [e]; exact h1) (by rw [e]; exact h2) (by rw [e]; exact h3)
  have take : ∀ {t : State} (ht : Crew C t) {r : Nat} {h' : List Ev} {q : List Nat}, t.pc w = .loop → t.stop = false →
      w < C.n → t.pc C.n = .exited → (∀ x, x ≠ w → (t.pc x).charge = false) →
      Crew C { t with queue := q, owner := none, depth := 0, pc := put t.pc w (.run r), hist := h' } := by
    intro t ht r h' q e hs hw hm hc
    refine ht.move (w := w) (p := .run r) hw hm rfl ?_ ?_ ?_ ?_ rfl rfl (by simp) ?_ ?_ ?_ ?_ ?_ ht.level
    · simp [e, Pc.inside]
    · intro k; cases k
    · simp [e, Pc.inside]
    · simp [e, Pc.sleeper, Pc.sleeping]
    · intro _ k; cases k
    · intro k; cases k
    · exact .inr (.inr (.inr hc))
    · simp [e, Pc.charge]
    · intro k; rw [hs] at k; cases k
  have notag : ∀ {r : Nat}, s.pc w = .loop → r ∈ s.queue → ∀ x, x ≠ w → (s.pc x).charge = false := by
    intro r e hr x hx
    cases k : (s.pc x).charge with
    | false => rfl
    | true =>
      exfalso
      have ho := (h.mutex w).2 (by rw [e]; rfl)
      have hni : (s.pc x).inside = false := by
        cases k' : (s.pc x).inside with
        | false => rfl
        | true => rw [(h.mutex x).2 k'] at ho; cases ho; exact absurd rfl hx
      have hq : s.pc x = .pause := by
        revert k hni; generalize s.pc x = p
        intro k hni
        cases p with
        | pause => rfl
        | lock who r => cases who <;> simp_all [Pc.charge, Pc.inside]
        | insert who r => cases who <;> simp_all [Pc.charge, Pc.inside]
        | _ => simp_all [Pc.charge, Pc.inside]
      rw [P.quiet x (.inr hq)] at hr; cases hr
  cases hstep with
  | bootEnd e =>
    have hw := h.is_main (w := w) (by rw [e]; rfl)
    subst hw
    exact h.boot_move (p := .exited) (by rw [e]; rfl) rfl (.inr rfl) rfl rfl rfl rfl rfl rfl
  | enter e ho =>
    have hw : w < C.n ∧ s.pc C.n = .exited := by
      rcases h.is_worker (w := w) (by rw [e]; simp) (by rw [e]; rfl) with k | k
      · exact k
      · exact ⟨k.1, free ho⟩
    refine h.move (w := w) (p := .loop) hw.1 hw.2 rfl rfl (fun _ => .inr ho) rfl ?_ rfl rfl (by simp) ?_ ?_ (.inr (.inl rfl)) ?_
      (fun _ => .inr (.inl rfl)) h.level
    · simp [e, Pc.sleeper, Pc.sleeping]
    · intro _ k; cases k
    · intro k; cases k
    · simp [e, Pc.charge]
  | leave e hs =>
    obtain ⟨hw, hm⟩ := worker e (by simp) (by simp) rfl
    refine h.move (w := w) (p := .exited) hw hm rfl ?_ ?_ ?_ ?_ rfl rfl ?_ ?_ ?_ ?_ ?_ (fun _ => .inr (.inr rfl)) h.level
    · simp [e, Pc.inside]
    · intro k; cases k
    · simp [e, Pc.inside]
    · simp [e, Pc.sleeper, Pc.sleeping]
    · intro k; rw [hs] at k; cases k
    · intro _ k; cases k
    · intro k; cases k
    · right; right; right
      intro x hx
      cases k : (s.pc x).charge with
      | false => rfl
      | true =>
        have hxn : x < C.n := by
          have hb := h.bound (w := x) (fun e => by rw [e] at k; cases k)
          rcases Nat.lt_or_ge x C.n with k' | k'
          · exact k'
          · rw [show x = C.n by omega, hm] at k; cases k
        rcases h.stopped hs x hxn with k' | k' | k' <;> rw [k'] at k <;> cases k
    · simp [e, Pc.charge]
  | tag e hs hq hi =>
    obtain ⟨hw, hm⟩ := worker e (by simp) (by simp) rfl
    have ho := (h.mutex w).2 (by rw [e]; rfl)
    have hd := h.depth
    rw [ho] at hd
    dsimp only at hd
    rw [e] at hd
    refine h.move (w := w) (p := .tag) hw hm rfl ?_ ?_ ?_ ?_ rfl rfl (by simp) ?_ ?_ ?_ rfl ?_ h.level
    · simp [Pc.inside, ho]
    · intro _; left; rw [e]; rfl
    · simpa [Pc.inside, Pc.locks] using hd
    · simp [e, Pc.sleeper, Pc.sleeping]
    · intro _ k; cases k
    · intro _; right; exact (h.all_idle hw (by rw [e]; rfl)).1 hi
    · right; right; right; intro x _; exact h.no_charge' hw (by rw [e]; rfl) (by rw [e]; rfl) hi x
    · intro k; rw [hs] at k; cases k
  | sleep e hs hi =>
    obtain ⟨hw, hm⟩ := worker e (by simp) (by simp) rfl
    refine h.move (w := w) (p := .wait) hw hm rfl ?_ ?_ ?_ ?_ rfl rfl (by simp) ?_ ?_ (.inl rfl) ?_ ?_ h.level
    · simp [e, Pc.inside]
    · intro k; cases k
    · simp [e, Pc.inside]
    · simp [e, Pc.sleeper, Pc.sleeping]
    · intro _ _
      right
      by_contra hc
      refine hi ((h.all_idle hw (by rw [e]; rfl)).2 fun x hx hxw => ?_)
      cases k : (s.pc x).sleeping with
      | true => rfl
      | false => exact absurd ⟨x, hx, hxw, k⟩ hc
    · intro k; cases k
    · simp [e, Pc.charge]
    · intro k; rw [hs] at k; cases k
  | level r e => exact h.same rfl rfl rfl rfl rfl rfl (C.nextLevel_le _)
  | woken e ho =>
    obtain ⟨hw, hm⟩ := worker e (by simp) (by simp) rfl
    have hpos : 0 < s.idle := by
      have := (total_pos (n := C.n) (f := fun x => (s.pc x).sleeper) (fun x _ => Pc.sleeper_ge _)).2 w hw
      rw [e, ← h.idle, show Pc.sleeper .woken = 1 from rfl] at this
      omega
    refine h.move (w := w) (p := .loop) hw hm rfl rfl (fun _ => .inr ho) rfl ?_ rfl rfl (by simp) ?_ ?_ (.inr (.inl rfl)) ?_
      (fun _ => .inr (.inl rfl)) h.level
    · rw [e, show Pc.sleeper .woken = 1 from rfl, show Pc.sleeper .loop = 0 from rfl]
      show ((s.idle - 1 : Nat) : Int) = _
      omega
    · intro _ k; cases k
    · intro k; cases k
    · simp [e, Pc.charge]
  | done r e hq =>
    obtain ⟨hw, hm⟩ := worker e (by simp) (by simp) rfl
    have hs := run e (by simp) (by simp) (by simp)
    refine h.move (w := w) (p := .enter) hw hm rfl ?_ ?_ ?_ ?_ rfl rfl (by simp) ?_ ?_ ?_ ?_ ?_ h.level
    · simp [e, Pc.inside]
    · intro k; cases k
    · simp [e, Pc.inside]
    · simp [e, Pc.sleeper, Pc.sleeping]
    · intro _ k; cases k
    · intro k; cases k
    · exact .inr (.inr (.inr fun x _ => h.no_charge hw (by rw [e]; rfl) (by rw [e]; simp) (by rw [e]; rfl) x))
    · simp [e, Pc.charge]
    · intro k; rw [hs] at k; cases k
  | lockSolo r e =>
    obtain ⟨hw, hm⟩ := worker e (by simp) (by simp) rfl
    have hs := run e (by simp) (by simp) (by simp)
    have ho := (h.mutex w).2 (by rw [e]; rfl)
    have hd := h.depth
    rw [ho] at hd
    dsimp only at hd
    rw [e] at hd
    refine h.move (w := w) (p := .insert .events r) hw hm rfl ?_ ?_ ?_ ?_ rfl rfl (by simp) ?_ ?_ ?_ ?_ ?_ h.level
    · simp [Pc.inside, ho]
    · intro _; left; rw [e]; rfl
    · simpa [Pc.inside, Pc.locks] using hd
    · simp [e, Pc.sleeper, Pc.sleeping]
    · intro _ k; cases k
    · intro _; left; rw [e]; rfl
    · right; right; left; rw [e]; rfl
    · simpa [Pc.charge] using h.solo.2 ⟨w, by rw [e]; rfl⟩
    · intro k; rw [hs] at k; cases k
  | lockRun r0 r e ho =>
    obtain ⟨hw, hm⟩ := worker e (by simp) (by simp) rfl
    have hs := run e (by simp) (by simp) (by simp)
    refine h.move (w := w) (p := .insert (.running r0) r) hw hm rfl rfl (fun _ => .inr ho) rfl ?_ rfl rfl (by simp) ?_ ?_ ?_ ?_
      ?_ h.level
    · simp [e, Pc.sleeper, Pc.sleeping]
    · intro _ k; cases k
    · intro k; cases k
    · exact .inr (.inr (.inr fun x _ => h.no_charge hw (by rw [e]; rfl) (by rw [e]; simp) (by rw [e]; rfl) x))
    · simp [e, Pc.charge]
    · intro k; rw [hs] at k; cases k
  | lockBoot r e =>
    have hw := h.is_main (w := w) (by rw [e]; rfl)
    subst hw
    exact h.boot_move (p := .insert .boot r) (by rw [e]; rfl) rfl (.inl rfl) ((h.mutex C.n).2 (by rw [e]; rfl)) rfl rfl rfl rfl rfl
  | insertSolo r e =>
    obtain ⟨hw, hm⟩ := worker e (by simp) (by simp) rfl
    have hs := run e (by simp) (by simp) (by simp)
    have ho := (h.mutex w).2 (by rw [e]; rfl)
    have hd := h.depth
    rw [ho] at hd
    dsimp only at hd
    rw [e] at hd
    refine h.move (w := w) (p := .events) hw hm rfl ?_ ?_ ?_ ?_ rfl rfl (by simp) ?_ ?_ ?_ ?_ ?_ h.level
    · simp [Pc.inside, ho]
    · intro _; left; rw [e]; rfl
    · simpa [Pc.inside, Pc.locks] using hd
    · simp [e, Pc.sleeper, Pc.sleeping]
    · intro _ k; cases k
    · intro _; left; rw [e]; rfl
    · right; right; left; rw [e]; rfl
    · simpa [Pc.charge] using h.solo.2 ⟨w, by rw [e]; rfl⟩
    · intro k; rw [hs] at k; cases k
  | insertRun r0 r e =>
    obtain ⟨hw, hm⟩ := worker e (by simp) (by simp) rfl
    have hs := run e (by simp) (by simp) (by simp)
    refine h.move (w := w) (p := .run r0) hw hm rfl ?_ ?_ ?_ ?_ rfl rfl (by simp) ?_ ?_ ?_ ?_ ?_ h.level
    · simp [e, Pc.inside]
    · intro k; cases k
    · simp [e, Pc.inside]
    · simp [e, Pc.sleeper, Pc.sleeping]
    · intro _ k; cases k
    · intro k; cases k
    · exact .inr (.inr (.inr fun x _ => h.no_charge hw (by rw [e]; rfl) (by rw [e]; simp) (by rw [e]; rfl) x))
    · simp [e, Pc.charge]
    · intro k; rw [hs] at k; cases k
  | insertBoot r e =>
    have hw := h.is_main (w := w) (by rw [e]; rfl)
    subst hw
    exact h.boot_move (p := .boot) (by rw [e]; rfl) rfl (.inl rfl) ((h.mutex C.n).2 (by rw [e]; rfl)) rfl rfl rfl rfl rfl
  | resume e ho =>
    obtain ⟨hw, hm⟩ := worker e (by simp) (by simp) rfl
    have hs := run e (by simp) (by simp) (by simp)
    refine h.move (w := w) (p := .tag) hw hm rfl rfl (fun _ => .inr ho) rfl ?_ rfl rfl (by simp) ?_ ?_ ?_ ?_ ?_ h.level
    · simp [e, Pc.sleeper, Pc.sleeping]
    · intro _ k; cases k
    · intro _; left; rw [e]; rfl
    · right; right; left; rw [e]; rfl
    · simpa [Pc.charge] using h.solo.2 ⟨w, by rw [e]; rfl⟩
    · intro k; rw [hs] at k; cases k
  | events e =>
    obtain ⟨hw, hm⟩ := worker e (by simp) (by simp) rfl
    have hs := run e (by simp) (by simp) (by simp)
    have ho := (h.mutex w).2 (by rw [e]; rfl)
    have hd := h.depth
    rw [ho] at hd
    dsimp only at hd
    rw [e] at hd
    refine h.move (w := w) (p := .loop) hw hm rfl ?_ ?_ ?_ ?_ rfl rfl (by simp) ?_ ?_ (.inr (.inl rfl)) ?_
      (fun _ => .inr (.inl rfl)) (Nat.zero_le _)
    · simp [Pc.inside, ho]
    · intro _; left; rw [e]; rfl
    · simpa [Pc.inside, Pc.locks] using hd
    · simp [e, Pc.sleeper, Pc.sleeping]
    · intro _ k; cases k
    · intro k; cases k
    · simp [e, Pc.charge]
  | take r e hs hr hmin hl =>
    obtain ⟨hw, hm⟩ := worker e (by simp) (by simp) rfl
    exact take h e hs hw hm (notag e hr)
  | takeSignal r x e hs hr hmin hl hx hxw =>
    obtain ⟨hw, hm⟩ := worker e (by simp) (by simp) rfl
    have hne : w ≠ x := fun k => by subst k; rw [e] at hxw; cases hxw
    refine take (t := { s with pc := put s.pc x .woken }) (h.wakeUp hxw) ?_ hs hw ?_ ?_
    · show put s.pc x .woken w = _; rw [put_other _ _ hne]; exact e
    · show put s.pc x .woken C.n = _; rw [put_other _ _ (by omega)]; exact hm
    · intro y hy
      show (put s.pc x .woken y).charge = false
      by_cases hyx : y = x
      · subst hyx; rw [put_same]; rfl
      · rw [put_other _ _ hyx]; exact notag e hr y hy
  | triggerAgain who r e hr hl hq => exact h.same rfl rfl rfl rfl rfl rfl h.level
  | triggerNew who r e hr hl hq =>
    cases who with
    | boot =>
      have e : s.pc w = .boot := e
      have hw := h.is_main (w := w) (by rw [e]; rfl)
      subst hw
      have ho := (h.mutex C.n).2 (by rw [e]; rfl)
      have hd := h.depth
      rw [ho] at hd
      dsimp only at hd
      rw [e] at hd
      exact h.boot_move (p := .lock .boot r) (by rw [e]; rfl) rfl (.inl rfl) ho hd rfl rfl rfl rfl
    | running r0 =>
      have e : s.pc w = .run r0 := e
      obtain ⟨hw, hm⟩ := worker e (by simp) (by simp) rfl
      have hs := run e (by simp) (by simp) (by simp)
      refine h.move (w := w) (p := .lock (.running r0) r) hw hm rfl ?_ ?_ ?_ ?_ rfl rfl (by simp) ?_ ?_ ?_ ?_ ?_ h.level
      · simp [e, Pc.inside]
      · intro k; cases k
      · simp [e, Pc.inside]
      · simp [e, Pc.sleeper, Pc.sleeping]
      · intro _ k; cases k
      · intro k; cases k
      · exact .inr (.inr (.inr fun x _ => h.no_charge hw (by rw [e]; rfl) (by rw [e]; simp) (by rw [e]; rfl) x))
      · simp [e, Pc.charge]
      · intro k; rw [hs] at k; cases k
    | events =>
      have e : s.pc w = .events := e
      obtain ⟨hw, hm⟩ := worker e (by simp) (by simp) rfl
      have hs := run e (by simp) (by simp) (by simp)
      have ho := (h.mutex w).2 (by rw [e]; rfl)
      have hd := h.depth
      rw [ho] at hd
      dsimp only at hd
      rw [e] at hd
      refine h.move (w := w) (p := .lock .events r) hw hm rfl ?_ ?_ ?_ ?_ rfl rfl (by simp) ?_ ?_ ?_ ?_ ?_ h.level
      · simp [Pc.inside, ho]
      · intro _; left; rw [e]; rfl
      · simpa [Pc.inside, Pc.locks] using hd
      · simp [e, Pc.sleeper, Pc.sleeping]
      · intro _ k; cases k
      · intro _; left; rw [e]; rfl
      · right; right; left; rw [e]; rfl
      · simpa [Pc.charge] using h.solo.2 ⟨w, by rw [e]; rfl⟩
      · intro k; rw [hs] at k; cases k
  | finish r e =>
    obtain ⟨hw, hm⟩ := worker e (by simp) (by simp) rfl
    have hs := run e (by simp) (by simp) (by simp)
    refine h.move (w := w) (p := .done r) hw hm rfl ?_ ?_ ?_ ?_ rfl rfl (by simp) ?_ ?_ ?_ ?_ ?_ h.level
    · simp [e, Pc.inside]
    · intro k; cases k
    · simp [e, Pc.inside]
    · simp [e, Pc.sleeper, Pc.sleeping]
    · intro _ k; cases k
    · intro k; cases k
    · exact .inr (.inr (.inr fun x _ => h.no_charge hw (by rw [e]; rfl) (by rw [e]; simp) (by rw [e]; rfl) x))
    · simp [e, Pc.charge]
    · intro k; rw [hs] at k; cases k
  | advance e =>
    obtain ⟨hw, hm⟩ := worker e (by simp) (by simp) rfl
    have hs := run e (by simp) (by simp) (by simp)
    have ho := (h.mutex w).2 (by rw [e]; rfl)
    have hd := h.depth
    rw [ho] at hd
    dsimp only at hd
    rw [e] at hd
    refine h.move (w := w) (p := .events) hw hm rfl ?_ ?_ ?_ ?_ rfl rfl (by simp) ?_ ?_ ?_ ?_ ?_ h.level
    · simp [Pc.inside, ho]
    · intro _; left; rw [e]; rfl
    · simpa [Pc.inside, Pc.locks] using hd
    · simp [e, Pc.sleeper, Pc.sleeping]
    · intro _ k; cases k
    · intro _; left; rw [e]; rfl
    · right; right; left; rw [e]; rfl
    · simpa [Pc.charge] using h.solo.2 ⟨w, by rw [e]; rfl⟩
    · intro k; rw [hs] at k; cases k
  | retry e =>
    obtain ⟨hw, hm⟩ := worker e (by simp) (by simp) rfl
    have ho := (h.mutex w).2 (by rw [e]; rfl)
    have hd := h.depth
    rw [ho] at hd
    dsimp only at hd
    rw [e] at hd
    refine h.move (w := w) (p := .loop) hw hm rfl ?_ ?_ ?_ ?_ rfl rfl (by simp) ?_ ?_ (.inr (.inl rfl)) ?_
      (fun _ => .inr (.inl rfl)) (Nat.zero_le _)
    · simp [Pc.inside, ho]
    · intro _; left; rw [e]; rfl
    · simpa [Pc.inside, Pc.locks] using hd
    · simp [e, Pc.sleeper, Pc.sleeping]
    · intro _ k; cases k
    · intro k; cases k
    · simp [e, Pc.charge]
  | stop e =>
    obtain ⟨hw, hm⟩ := worker e (by simp) (by simp) rfl
    have ho := (h.mutex w).2 (by rw [e]; rfl)
    have hall : ∀ x, x < C.n → x ≠ w → wakeAll s.pc x = .woken := by
      intro x hx hxw
      have := h.alone w x (by rw [e]; rfl) hx hxw
      have hnl : s.pc x ≠ .loop := by
        intro k
        have := (h.mutex x).2 (by rw [k]; rfl)
        rw [ho] at this; cases this; exact hxw rfl
      unfold wakeAll
      rcases this with k | k
      · revert k; generalize s.pc x = p
        intro k
        cases p with
        | wait => rfl
        | woken => rfl
        | _ => cases k
      · exact absurd k hnl
    have hbe : ∀ x, C.n ≤ x → wakeAll s.pc x = .exited := by
      intro x hx
      have : s.pc x = .exited := by
        rcases Nat.lt_or_ge C.n x with k | k
        · exact h.beyond x k
        · rw [show x = C.n by omega]; exact hm
      unfold wakeAll
      rw [this]; rfl
    have pc : ∀ x, put (wakeAll s.pc) w .exited x = .exited ∨ x < C.n ∧ x ≠ w ∧ put (wakeAll s.pc) w .exited x = .woken := by
      intro x
      by_cases hxw : x = w
      · subst hxw; left; exact put_same _ _ _
      · rw [put_other _ _ hxw]
        rcases Nat.lt_or_ge x C.n with k | k
        · exact .inr ⟨k, hxw, hall x k hxw⟩
        · exact .inl (hbe x k)
    have hmn : put (wakeAll s.pc) w .exited C.n = .exited := by
      rw [put_other _ _ (by omega)]; exact hbe _ (Nat.le_refl _)
    have nocharge : ∀ x, (put (wakeAll s.pc) w .exited x).charge = false := by
      intro x
      rcases pc x with k | ⟨_, _, k⟩ <;> rw [k] <;> rfl
    refine ⟨fun x => ?_, rfl, ?_, .inr hmn, fun x hx => ?_, fun x hx => ?_, fun k => ?_, fun k => ?_, fun k => ?_,
      fun x y hx => ?_, ?_, fun _ x hx => ?_, h.level⟩
    · show none = some x ↔ (put (wakeAll s.pc) w .exited x).inside = true
      rcases pc x with k | ⟨_, _, k⟩ <;> rw [k] <;> simp [Pc.inside]
    · show (s.idle : Int) = total (fun x => (put (wakeAll s.pc) w .exited x).sleeper) C.n
      rw [h.idle]
      refine total_congr fun x hx => ?_
      by_cases hxw : x = w
      · subst hxw; rw [put_same, e]; rfl
      · rw [put_other _ _ hxw]
        unfold wakeAll
        split
        · rename_i k; rw [k]; rfl
        · rfl
    · show put (wakeAll s.pc) w .exited x = _
      rw [put_other _ _ (by omega)]; exact hbe x (by omega)
    · show (put (wakeAll s.pc) w .exited x).booting = false
      rcases pc x with k | ⟨_, _, k⟩ <;> rw [k] <;> rfl
    · replace k : (put (wakeAll s.pc) w .exited C.n).booting = true := k
      rw [hmn] at k; cases k
    · cases k
    · cases k
    · replace hx : (put (wakeAll s.pc) w .exited x).charge = true := hx
      rw [nocharge x] at hx; cases hx
    · constructor
      · intro k; cases k
      · rintro ⟨x, hx⟩
        replace hx : (put (wakeAll s.pc) w .exited x).charge = true := hx
        rw [nocharge x] at hx; cases hx
    · show put (wakeAll s.pc) w .exited x = .woken ∨ put (wakeAll s.pc) w .exited x = .loop ∨ put (wakeAll s.pc) w .exited x = .exited
      rcases pc x with k | ⟨_, _, k⟩
      · exact .inr (.inr k)
      · exact .inl k
  | pause e =>
    obtain ⟨hw, hm⟩ := worker e (by simp) (by simp) rfl
    have hs := run e (by simp) (by simp) (by simp)
    refine h.move (w := w) (p := .pause) hw hm rfl ?_ ?_ ?_ ?_ rfl rfl (by simp) ?_ ?_ ?_ ?_ ?_ h.level
    · simp [e, Pc.inside]
    · intro k; cases k
    · simp [e, Pc.inside]
    · simp [e, Pc.sleeper, Pc.sleeping]
    · intro _ k; cases k
    · intro _; left; rw [e]; rfl
    · right; right; left; rw [e]; rfl
    · simpa [Pc.charge] using h.solo.2 ⟨w, by rw [e]; rfl⟩
    · intro k; rw [hs] at k; cases k
  | spurious e => exact h.wakeUp e

end

end ReactorC.Gedf
