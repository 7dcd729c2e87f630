import Verif.Python.Spec
import Mathlib.Data.List.Count
import Mathlib.Data.List.Range

/-! # Invariant of the reference counts -/

namespace ReactorC.Python

/-- How many of the first `n` ports have the value `v`. -/
def countVal (f : Nat → CPort) (v : Nat) : Nat → Nat
  | 0 => 0
  | n + 1 => countVal f v n + (if (f n).value = some v then 1 else 0)

theorem countVal_upd_ge {f : Nat → CPort} {v p : Nat} {x : CPort} : ∀ {n : Nat}, n ≤ p →
    countVal (upd f p x) v n = countVal f v n
  | 0, _ => rfl
  | n + 1, h => by
    have hn : n ≠ p := by omega
    simp only [countVal]
    have := countVal_upd_ge (f := f) (v := v) (p := p) (x := x) (n := n) (by omega)
    rw [show upd f p x n = f n by simp [upd, hn]]
    omega

theorem countVal_upd {f : Nat → CPort} {v p : Nat} {x : CPort} : ∀ {n : Nat}, p < n →
    countVal (upd f p x) v n + (if (f p).value = some v then 1 else 0) =
      countVal f v n + (if x.value = some v then 1 else 0)
  | 0, h => by omega
  | n + 1, h => by
    by_cases hn : n = p
    · subst hn
      have := countVal_upd_ge (f := f) (v := v) (p := n) (x := x) (n := n) (by omega)
      simp only [countVal]
      rw [show upd f n x n = x by simp [upd]]
      omega
    · have := countVal_upd (f := f) (v := v) (p := p) (x := x) (n := n) (by omega)
      simp only [countVal]
      rw [show upd f p x n = f n by simp [upd, hn]]
      omega

theorem countVal_pos {f : Nat → CPort} {v p : Nat} (h : (f p).value = some v) : ∀ {n : Nat}, p < n → 0 < countVal f v n
  | 0, hp => by omega
  | n + 1, hp => by
    simp only [countVal]
    by_cases hn : n = p
    · subst hn
      rw [if_pos h]
      omega
    · have := countVal_pos h (n := n) (by omega)
      omega

theorem countVal_same {f g : Nat → CPort} (h : ∀ p, (f p).value = (g p).value) (v : Nat) : ∀ n, countVal f v n = countVal g v n
  | 0 => rfl
  | n + 1 => by simp only [countVal, h n, countVal_same h v n]

theorem countVal_eq (f : Nat → CPort) (v : Nat) : ∀ n,
    countVal f v n = ((List.range n).filter fun p => (f p).value = some v).length
  | 0 => rfl
  | n + 1 => by
    rw [List.range_succ, List.filter_append, List.length_append, countVal, countVal_eq f v n]
    by_cases h : (f n).value = some v <;> simp [h]

structure CapInv (s : State) (c : Nat) : Prop where
  rng : (s.cap c).target.inRange s.n
  cnt : (s.cap c).rc = s.heldCap c + (if (s.cap c).isArg = true then 0 else 1)
  arg : (s.cap c).isArg = true → 0 < s.heldCap c
  multi : ∀ l, (s.cap c).target = .multi l → (s.cap c).value = none
  le : ∀ p, (s.cap c).target = .single p → (s.cap c).seen ≤ setCount s.log p
  now : ∀ p, (s.cap c).target = .single p → (s.cap c).seen = setCount s.log p → (s.cap c).value = (s.port p).value

structure Inv (s : State) : Prop where
  ok : s.fault = false
  rc : ∀ v, s.rc v = s.held v + countVal s.port v s.n + s.scheduled v
  fresh : ∀ v, s.nObj ≤ v → s.rc v = 0
  cap : ∀ c, c < s.nCap → CapInv s c
  val : ∀ p, (s.port p).value = lastSet s.log p
  pres : ∀ p, (s.port p).present = setNow s.log p

theorem start_inv (n : Nat) : Inv (start n) := by
  refine ⟨rfl, fun v => ?_, fun v _ => rfl, fun c hc => absurd hc (Nat.not_lt_zero c), fun p => rfl, fun p => rfl⟩
  show 0 = 0 + countVal (fun _ => ⟨none, false⟩) v n + 0
  have : ∀ n, countVal (fun _ => ⟨none, false⟩) v n = 0 := by
    intro n
    induction n with
    | zero => rfl
    | succ n ih => simp [countVal, ih]
  rw [this]

theorem upd_same {α : Type} (f : Nat → α) (i : Nat) (x : α) : upd f i x i = x := by simp [upd]

theorem upd_ne {α : Type} (f : Nat → α) {i j : Nat} (x : α) (h : j ≠ i) : upd f i x j = f j := by simp [upd, h]

/-- A new capsule with a legal content. -/
theorem addCap_inv {s : State} (h : Inv s) {k : Capsule} {m : Nat} (rng : k.target.inRange s.n)
    (cnt : k.rc = m + (if k.isArg = true then 0 else 1)) (arg : k.isArg = true → 0 < m)
    (multi : ∀ l, k.target = .multi l → k.value = none)
    (now : ∀ p, k.target = .single p → k.seen = setCount s.log p ∧ k.value = (s.port p).value) : Inv (addCap s k m) := by
  refine ⟨h.ok, h.rc, h.fresh, fun c hc => ?_, h.val, h.pres⟩
  have hc' : c < s.nCap + 1 := hc
  by_cases hn : c = s.nCap
  · subst hn
    have e : (addCap s k m).cap s.nCap = k := upd_same _ _ _
    have e' : (addCap s k m).heldCap s.nCap = m := upd_same _ _ _
    refine ⟨?_, ?_, ?_, ?_, ?_, ?_⟩
    · rw [e]; exact rng
    · rw [e, e']; exact cnt
    · rw [e, e']; exact arg
    · rw [e]; exact multi
    · rw [e]
      intro p hp
      exact (now p hp).1.le
    · rw [e]
      intro p hp _
      exact (now p hp).2
  · have e : (addCap s k m).cap c = s.cap c := upd_ne _ _ hn
    have e' : (addCap s k m).heldCap c = s.heldCap c := upd_ne _ _ hn
    have hI := h.cap c (by omega)
    refine ⟨?_, ?_, ?_, ?_, ?_, ?_⟩
    · rw [e]; exact hI.rng
    · rw [e, e']; exact hI.cnt
    · rw [e, e']; exact hI.arg
    · rw [e]; exact hI.multi
    · rw [e]; exact hI.le
    · rw [e]; exact hI.now

theorem empty_inv {s : State} (h : Inv s) : Inv (addCap s emptyCapsule 0) :=
  addCap_inv h (by simp [emptyCapsule, Target.inRange]) (by simp [emptyCapsule]) (by simp [emptyCapsule])
    (fun _ _ => rfl) (by simp [emptyCapsule])

theorem item_inv {s : State} (h : Inv s) {p : Nat} (hp : p < s.n) : Inv (item s p) :=
  addCap_inv h hp (by simp) (by simp) (by simp) (by
    intro q hq
    have : p = q := by simpa using hq
    subst this
    exact ⟨rfl, rfl⟩)

theorem convert_inv {s : State} (h : Inv s) {t : Target} (ht : t.inRange s.n) : Inv (convert s t) := by
  cases t with
  | single p =>
    refine addCap_inv h ht (by simp) (by simp) (by simp) ?_
    intro q hq
    have : p = q := by simpa using hq
    subst this
    exact ⟨rfl, rfl⟩
  | multi l => exact addCap_inv h ht (by simp) (by simp) (fun _ _ => rfl) (by simp)

/-- Changing the counter of the iteration, or adding references on both sides. -/
theorem bump_inv {s : State} (h : Inv s) {c j i : Nat} (hc : c < s.nCap) :
    Inv { s with
      cap := upd s.cap c { s.cap c with index := i, rc := (s.cap c).rc + j }
      heldCap := upd s.heldCap c (s.heldCap c + j) } := by
  refine ⟨h.ok, h.rc, h.fresh, fun d hd => ?_, h.val, h.pres⟩
  have hI := h.cap d hd
  by_cases hn : d = c
  · subst hn
    refine ⟨?_, ?_, ?_, ?_, ?_, ?_⟩
    · show (upd s.cap d _ d).target.inRange s.n
      rw [upd_same]; exact hI.rng
    · show (upd s.cap d _ d).rc = upd s.heldCap d _ d + (if (upd s.cap d _ d).isArg = true then 0 else 1)
      rw [upd_same, upd_same]
      have := hI.cnt
      dsimp only
      omega
    · show (upd s.cap d _ d).isArg = true → 0 < upd s.heldCap d _ d
      rw [upd_same, upd_same]
      intro ha
      have := hI.arg ha
      omega
    · show ∀ l, (upd s.cap d _ d).target = _ → (upd s.cap d _ d).value = none
      rw [upd_same]; exact hI.multi
    · show ∀ p, (upd s.cap d _ d).target = _ → (upd s.cap d _ d).seen ≤ _
      rw [upd_same]; exact hI.le
    · show ∀ p, (upd s.cap d _ d).target = _ → (upd s.cap d _ d).seen = _ → (upd s.cap d _ d).value = _
      rw [upd_same]; exact hI.now
  · refine ⟨?_, ?_, ?_, ?_, ?_, ?_⟩
    · show (upd s.cap c _ d).target.inRange s.n
      rw [upd_ne _ _ hn]; exact hI.rng
    · show (upd s.cap c _ d).rc = upd s.heldCap c _ d + (if (upd s.cap c _ d).isArg = true then 0 else 1)
      rw [upd_ne _ _ hn, upd_ne _ _ hn]; exact hI.cnt
    · show (upd s.cap c _ d).isArg = true → 0 < upd s.heldCap c _ d
      rw [upd_ne _ _ hn, upd_ne _ _ hn]; exact hI.arg
    · show ∀ l, (upd s.cap c _ d).target = _ → (upd s.cap c _ d).value = none
      rw [upd_ne _ _ hn]; exact hI.multi
    · show ∀ p, (upd s.cap c _ d).target = _ → (upd s.cap c _ d).seen ≤ _
      rw [upd_ne _ _ hn]; exact hI.le
    · show ∀ p, (upd s.cap c _ d).target = _ → (upd s.cap c _ d).seen = _ → (upd s.cap c _ d).value = _
      rw [upd_ne _ _ hn]; exact hI.now

theorem index_inv {s : State} (h : Inv s) {c i : Nat} (hc : c < s.nCap) :
    Inv { s with cap := upd s.cap c { s.cap c with index := i } } := by
  have := bump_inv h (c := c) (j := 0) (i := i) hc
  have e : upd s.heldCap c (s.heldCap c + 0) = s.heldCap := by
    funext d
    by_cases hd : d = c
    · subst hd; rw [upd_same]; rfl
    · rw [upd_ne _ _ hd]
  rw [e] at this
  exact this

theorem dropCap_inv {s : State} (h : Inv s) {c : Nat} (hc : c < s.nCap) (hh : 0 < s.heldCap c)
    (ha : (s.cap c).isArg = true → 2 ≤ s.heldCap c) : Inv (dropCap s c).1 := by
  have hI := h.cap c hc
  have hrc : (s.cap c).rc ≠ 1 := by
    have := hI.cnt
    by_cases hb : (s.cap c).isArg = true
    · have := ha hb
      rw [if_pos hb] at *
      omega
    · rw [if_neg hb] at *
      omega
  unfold dropCap
  dsimp only
  rw [if_neg hrc]
  refine ⟨h.ok, h.rc, h.fresh, fun d hd => ?_, h.val, h.pres⟩
  have hJ := h.cap d hd
  by_cases hn : d = c
  · subst hn
    refine ⟨?_, ?_, ?_, ?_, ?_, ?_⟩
    · show (upd s.cap d _ d).target.inRange s.n
      rw [upd_same]; exact hI.rng
    · show (upd s.cap d _ d).rc = upd s.heldCap d _ d + (if (upd s.cap d _ d).isArg = true then 0 else 1)
      rw [upd_same, upd_same]
      have := hI.cnt
      dsimp only
      omega
    · show (upd s.cap d _ d).isArg = true → 0 < upd s.heldCap d _ d
      rw [upd_same, upd_same]
      intro hb
      have := ha hb
      omega
    · show ∀ l, (upd s.cap d _ d).target = _ → (upd s.cap d _ d).value = none
      rw [upd_same]; exact hI.multi
    · show ∀ p, (upd s.cap d _ d).target = _ → (upd s.cap d _ d).seen ≤ _
      rw [upd_same]; exact hI.le
    · show ∀ p, (upd s.cap d _ d).target = _ → (upd s.cap d _ d).seen = _ → (upd s.cap d _ d).value = _
      rw [upd_same]; exact hI.now
  · refine ⟨?_, ?_, ?_, ?_, ?_, ?_⟩
    · show (upd s.cap c _ d).target.inRange s.n
      rw [upd_ne _ _ hn]; exact hJ.rng
    · show (upd s.cap c _ d).rc = upd s.heldCap c _ d + (if (upd s.cap c _ d).isArg = true then 0 else 1)
      rw [upd_ne _ _ hn, upd_ne _ _ hn]; exact hJ.cnt
    · show (upd s.cap c _ d).isArg = true → 0 < upd s.heldCap c _ d
      rw [upd_ne _ _ hn, upd_ne _ _ hn]; exact hJ.arg
    · show ∀ l, (upd s.cap c _ d).target = _ → (upd s.cap c _ d).value = none
      rw [upd_ne _ _ hn]; exact hJ.multi
    · show ∀ p, (upd s.cap c _ d).target = _ → (upd s.cap c _ d).seen ≤ _
      rw [upd_ne _ _ hn]; exact hJ.le
    · show ∀ p, (upd s.cap c _ d).target = _ → (upd s.cap c _ d).seen = _ → (upd s.cap c _ d).value = _
      rw [upd_ne _ _ hn]; exact hJ.now

/-- A change of reference counts that leaves the rest alone. -/
theorem counts_inv {s : State} (h : Inv s) {rc held sch : Nat → Nat}
    (hrc : ∀ v, rc v = held v + countVal s.port v s.n + sch v) (hf : ∀ v, s.nObj ≤ v → rc v = 0) :
    Inv { s with rc := rc, held := held, scheduled := sch } :=
  ⟨h.ok, hrc, hf, fun c hc => ⟨(h.cap c hc).rng, (h.cap c hc).cnt, (h.cap c hc).arg, (h.cap c hc).multi, (h.cap c hc).le,
    (h.cap c hc).now⟩, h.val, h.pres⟩

theorem held_alive {s : State} (h : Inv s) {v : Nat} (hv : 0 < s.held v) : s.rc v ≠ 0 := by
  have := h.rc v
  omega

theorem port_alive {s : State} (h : Inv s) {p v : Nat} (hp : p < s.n) (hv : (s.port p).value = some v) : s.rc v ≠ 0 := by
  have := h.rc v
  have := countVal_pos hv hp
  omega

theorem alive_lt {s : State} (h : Inv s) {v : Nat} (hv : s.rc v ≠ 0) : v < s.nObj := by
  by_contra hc
  exact hv (h.fresh v (by omega))

theorem setCount_cons (p q : Nat) (v : Option Nat) (l : List Ev) :
    setCount (.set q v :: l) p = setCount l p + (if q = p then 1 else 0) := by
  unfold setCount
  by_cases h : q = p <;> simp [h]

theorem setCount_tag (p : Nat) (l : List Ev) : setCount (.tag :: l) p = setCount l p := by
  unfold setCount
  simp

theorem read_inv {s : State} (h : Inv s) {c : Nat} (hc : c < s.nCap)
    (hs : ∀ p, (s.cap c).target = .single p → (s.cap c).seen = setCount s.log p) : Inv (read s c).1 := by
  have hI := h.cap c hc
  unfold read
  dsimp only
  cases hv : (s.cap c).value with
  | none => exact h
  | some v =>
    have hal : s.rc v ≠ 0 := by
      cases ht : (s.cap c).target with
      | multi l => rw [hI.multi l ht] at hv; cases hv
      | single p =>
        have hr := hI.rng
        rw [ht] at hr
        exact port_alive h hr ((hI.now p ht (hs p ht)).symm.trans hv)
    have hlt := alive_lt h hal
    have hok : (s.fault || decide (s.rc v = 0)) = false := by simp [h.ok, hal]
    have key := counts_inv h (rc := upd s.rc v (s.rc v + 1)) (held := upd s.held v (s.held v + 1)) (sch := s.scheduled)
      (by
        intro w
        have := h.rc w
        by_cases hw : w = v
        · subst hw
          rw [upd_same, upd_same]
          omega
        · rw [upd_ne _ _ hw, upd_ne _ _ hw]
          exact this)
      (by
        intro w hw
        rw [upd_ne _ _ (by omega)]
        exact h.fresh w hw)
    show Inv { s with rc := _, fault := (s.fault || decide (s.rc v = 0)), held := _ }
    rw [hok]
    have e := h.ok
    rw [show (false : Bool) = s.fault from e.symm]
    exact key

theorem set_inv {s : State} (h : Inv s) {c p : Nat} {v : Option Nat} (hc : c < s.nCap) (ht : (s.cap c).target = .single p)
    (hv : ∀ x, v = some x → 0 < s.held x) : Inv (set s c v).1 := by
  have hp : p < s.n := by
    have := (h.cap c hc).rng
    rw [ht] at this
    exact this
  have hset : (set s c v).1 = { incref (setToken s p v) v with
      cap := upd (incref (setToken s p v) v).cap c { (incref (setToken s p v) v).cap c with
        value := v, present := true, seen := setCount (incref (setToken s p v) v).log p } } := by
    unfold set
    rw [ht]
  -- the fields after the call
  have f1 : (incref (setToken s p v) v).port = upd s.port p ⟨v, true⟩ := by
    unfold incref setToken decref
    cases v <;> cases (s.port p).value <;> rfl
  have f2 : (incref (setToken s p v) v).log = .set p v :: s.log := by
    unfold incref setToken decref
    cases v <;> cases (s.port p).value <;> rfl
  have f3 : (incref (setToken s p v) v).cap = s.cap := by
    unfold incref setToken decref
    cases v <;> cases (s.port p).value <;> rfl
  have f4 : (incref (setToken s p v) v).heldCap = s.heldCap := by
    unfold incref setToken decref
    cases v <;> cases (s.port p).value <;> rfl
  have f5 : (incref (setToken s p v) v).held = s.held ∧ (incref (setToken s p v) v).scheduled = s.scheduled ∧
      (incref (setToken s p v) v).n = s.n ∧ (incref (setToken s p v) v).nObj = s.nObj ∧
      (incref (setToken s p v) v).nCap = s.nCap := by
    unfold incref setToken decref
    cases v <;> cases (s.port p).value <;> exact ⟨rfl, rfl, rfl, rfl, rfl⟩
  have hold : ∀ o, (s.port p).value = some o → s.rc o ≠ 0 := fun o ho => port_alive h hp ho
  have hnew : ∀ x, v = some x → s.rc x ≠ 0 := fun x hx => held_alive h (hv x hx)
  -- the new value survives the release of the old one
  have hstrong : ∀ x, v = some x → (s.port p).value = some x → 2 ≤ s.rc x := by
    intro x hx ho
    have h1 := h.rc x
    have h2 := countVal_pos ho hp
    have h3 := hv x hx
    omega
  have f6 : (incref (setToken s p v) v).fault = false := by
    unfold incref setToken decref
    cases hvv : v with
    | none =>
      cases ho : (s.port p).value with
      | none => simp [h.ok]
      | some o => simp [h.ok, hold o ho]
    | some x =>
      cases ho : (s.port p).value with
      | none => simp [h.ok, hnew x hvv]
      | some o =>
        by_cases hox : x = o
        · subst hox
          have := hstrong x hvv ho
          simp only [upd, h.ok, if_true, Bool.false_or, Bool.or_eq_false_iff, decide_eq_false_iff_not]
          omega
        · simp [h.ok, hold o ho, upd, hox, hnew x hvv]
  have f7 : ∀ w, (incref (setToken s p v) v).rc w + (if (s.port p).value = some w then 1 else 0) =
      s.rc w + (if v = some w then 1 else 0) := by
    intro w
    unfold incref setToken decref
    cases hvv : v with
    | none =>
      cases ho : (s.port p).value with
      | none => simp
      | some o =>
        have := hold o ho
        by_cases how : w = o
        · subst how
          simp only [upd, if_true, reduceCtorEq, if_false]
          omega
        · simp [upd, how, Ne.symm how]
    | some x =>
      cases ho : (s.port p).value with
      | none =>
        by_cases hxw : w = x
        · subst hxw; simp [upd]
        · simp [upd, hxw, Ne.symm hxw]
      | some o =>
        have := hold o ho
        by_cases how : w = o
        · subst how
          by_cases hxw : w = x
          · subst hxw
            simp only [upd, if_true]
            omega
          · simp only [upd, if_true, if_neg hxw, Option.some.injEq, if_neg (Ne.symm hxw)]
            omega
        · by_cases hxw : w = x
          · subst hxw
            simp [upd, how, Ne.symm how]
          · simp [upd, how, hxw, Ne.symm how, Ne.symm hxw]
  rw [hset]
  refine ⟨f6, fun w => ?_, fun w hw => ?_, fun d hd => ?_, fun q => ?_, fun q => ?_⟩
  · show (incref (setToken s p v) v).rc w = (incref (setToken s p v) v).held w +
      countVal (incref (setToken s p v) v).port w (incref (setToken s p v) v).n + (incref (setToken s p v) v).scheduled w
    rw [f1, f5.1, f5.2.1, f5.2.2.1]
    have h1 := countVal_upd (f := s.port) (v := w) (p := p) (x := ⟨v, true⟩) (n := s.n) hp
    have h2 := f7 w
    have h3 := h.rc w
    dsimp only at h1
    omega
  · have hw' : s.nObj ≤ w := by
      have : (incref (setToken s p v) v).nObj ≤ w := hw
      rwa [f5.2.2.2.1] at this
    show (incref (setToken s p v) v).rc w = 0
    have h2 := f7 w
    have h3 := h.fresh w hw'
    have h4 : v ≠ some w := fun hx => absurd h3 (hnew w hx)
    rw [if_neg h4] at h2
    omega
  · have hd' : d < s.nCap := by
      have : d < (incref (setToken s p v) v).nCap := hd
      rwa [f5.2.2.2.2] at this
    have hI := h.cap d hd'
    by_cases hn : d = c
    · subst hn
      have e : ({ incref (setToken s p v) v with
          cap := upd (incref (setToken s p v) v).cap d { (incref (setToken s p v) v).cap d with
            value := v, present := true, seen := setCount (incref (setToken s p v) v).log p } } : State).cap d =
          { s.cap d with value := v, present := true, seen := setCount (.set p v :: s.log) p } := by
        dsimp only
        rw [upd_same, f2, f3]
      refine ⟨?_, ?_, ?_, ?_, ?_, ?_⟩
      · rw [e]
        show (s.cap d).target.inRange (incref (setToken s p v) v).n
        rw [f5.2.2.1]
        exact hI.rng
      · rw [e]
        show (s.cap d).rc = (incref (setToken s p v) v).heldCap d + _
        rw [f4]
        exact hI.cnt
      · rw [e]
        show (s.cap d).isArg = true → 0 < (incref (setToken s p v) v).heldCap d
        rw [f4]
        exact hI.arg
      · rw [e]
        intro l hl
        have : (s.cap d).target = .multi l := hl
        rw [ht] at this
        cases this
      · rw [e]
        intro q hq
        have hq' : (s.cap d).target = .single q := hq
        rw [ht] at hq'
        cases hq'
        show setCount _ _ ≤ setCount (incref (setToken s p v) v).log p
        rw [f2]
      · rw [e]
        intro q hq _
        have hq' : (s.cap d).target = .single q := hq
        rw [ht] at hq'
        cases hq'
        show v = ((incref (setToken s p v) v).port p).value
        rw [f1, upd_same]
    · have e : ({ incref (setToken s p v) v with
          cap := upd (incref (setToken s p v) v).cap c { (incref (setToken s p v) v).cap c with
            value := v, present := true, seen := setCount (incref (setToken s p v) v).log p } } : State).cap d =
          s.cap d := by
        dsimp only
        rw [upd_ne _ _ hn, f3]
      refine ⟨?_, ?_, ?_, ?_, ?_, ?_⟩
      · rw [e]
        show (s.cap d).target.inRange (incref (setToken s p v) v).n
        rw [f5.2.2.1]
        exact hI.rng
      · rw [e]
        show (s.cap d).rc = (incref (setToken s p v) v).heldCap d + _
        rw [f4]
        exact hI.cnt
      · rw [e]
        show (s.cap d).isArg = true → 0 < (incref (setToken s p v) v).heldCap d
        rw [f4]
        exact hI.arg
      · rw [e]; exact hI.multi
      · rw [e]
        intro q hq
        show _ ≤ setCount (incref (setToken s p v) v).log q
        rw [f2, setCount_cons]
        have := hI.le q hq
        omega
      · rw [e]
        intro q hq hse
        have hse' : (s.cap d).seen = setCount (incref (setToken s p v) v).log q := hse
        rw [f2, setCount_cons] at hse'
        have hle := hI.le q hq
        have hpq : p ≠ q := by
          intro hpq
          rw [if_pos hpq] at hse'
          omega
        rw [if_neg hpq] at hse'
        show _ = ((incref (setToken s p v) v).port q).value
        rw [f1, upd_ne _ _ (Ne.symm hpq)]
        exact hI.now q hq hse'
  · show ((incref (setToken s p v) v).port q).value = lastSet (incref (setToken s p v) v).log q
    rw [f1, f2]
    by_cases hq : q = p
    · subst hq
      rw [upd_same]
      simp [lastSet]
    · rw [upd_ne _ _ hq]
      simp only [lastSet, if_neg (Ne.symm hq)]
      exact h.val q
  · show ((incref (setToken s p v) v).port q).present = setNow (incref (setToken s p v) v).log q
    rw [f1, f2]
    by_cases hq : q = p
    · subst hq
      rw [upd_same]
      simp [setNow]
    · rw [upd_ne _ _ hq]
      simp only [setNow, decide_eq_false (Ne.symm hq), Bool.false_or]
      exact h.pres q

theorem exec_inv {s : State} (h : Inv s) {o : Op} (hl : Legal s o) (hc : Careful s o) : Inv (exec s o).1 := by
  cases o with
  | new =>
    have hz := h.fresh s.nObj (Nat.le_refl _)
    have hr := h.rc s.nObj
    refine ⟨h.ok, fun v => ?_, fun v hv => ?_, fun c hc => ⟨(h.cap c hc).rng, (h.cap c hc).cnt, (h.cap c hc).arg,
      (h.cap c hc).multi, (h.cap c hc).le, (h.cap c hc).now⟩, h.val, h.pres⟩
    · show upd s.rc s.nObj 1 v = upd s.held s.nObj 1 v + countVal s.port v s.n + s.scheduled v
      by_cases hn : v = s.nObj
      · subst hn
        rw [upd_same, upd_same]
        omega
      · rw [upd_ne _ _ hn, upd_ne _ _ hn]
        exact h.rc v
    · show upd s.rc s.nObj 1 v = 0
      have hv' : s.nObj + 1 ≤ v := hv
      rw [upd_ne _ _ (by omega)]
      exact h.fresh v (by omega)
  | dup v =>
    have hal := held_alive h hl
    have hlt := alive_lt h hal
    have hok : (s.fault || decide (s.rc v = 0)) = s.fault := by simp [hal]
    show Inv { s with rc := upd s.rc v (s.rc v + 1), fault := (s.fault || decide (s.rc v = 0)), held := _ }
    rw [hok]
    refine counts_inv h (fun w => ?_) (fun w hw => ?_)
    · have := h.rc w
      by_cases hw : w = v
      · subst hw
        rw [upd_same, upd_same]
        omega
      · rw [upd_ne _ _ hw, upd_ne _ _ hw]
        exact this
    · rw [upd_ne _ _ (by omega)]
      exact h.fresh w hw
  | drop v =>
    have hal := held_alive h hl
    have hlt := alive_lt h hal
    have hok : (s.fault || decide (s.rc v = 0)) = s.fault := by simp [hal]
    have hl' : 0 < s.held v := hl
    show Inv { s with rc := upd s.rc v (s.rc v - 1), fault := (s.fault || decide (s.rc v = 0)), held := _ }
    rw [hok]
    refine counts_inv h (fun w => ?_) (fun w hw => ?_)
    · have := h.rc w
      by_cases hw : w = v
      · subst hw
        rw [upd_same, upd_same]
        omega
      · rw [upd_ne _ _ hw, upd_ne _ _ hw]
        exact this
    · rw [upd_ne _ _ (by omega)]
      exact h.fresh w hw
  | convert t => exact convert_inv h hl
  | getItem c k =>
    obtain ⟨l, ht, hk⟩ := hc
    show Inv (getItem s c k).1
    unfold getItem
    rw [ht]
    cases k with
    | none => exact h
    | some k =>
      obtain ⟨h0, h1⟩ := hk k rfl
      have hr := (h.cap c hl.1).rng
      rw [ht] at hr
      obtain ⟨hr1, hr2⟩ := hr
      have ha : asLong k = k := by
        unfold asLong
        rw [if_pos]
        constructor
        · have : (0 : Int) ≤ 2 ^ 63 := by decide
          omega
        · have : ((2 : Int) ^ 31) ≤ 2 ^ 63 := by decide
          have : ((l.length : Int)) < 2 ^ 31 := by exact_mod_cast hr2
          omega
      dsimp only
      rw [ha, if_neg (by omega), if_pos h0]
      have hlt : k.toNat < l.length := by omega
      rw [List.getElem?_eq_getElem hlt]
      exact item_inv h (hr1 _ (List.getElem_mem hlt))
  | iter c => exact bump_inv h hl.1
  | iterNext c =>
    show Inv (iterNext s c).1
    unfold iterNext
    have hr := (h.cap c hl.1).rng
    cases ht : (s.cap c).target with
    | single p => exact empty_inv h
    | multi l =>
      rw [ht] at hr
      cases l with
      | nil => exact empty_inv h
      | cons q qs =>
        have hne : c ≠ s.nCap := Nat.ne_of_lt hl.1
        cases hg : (q :: qs)[(s.cap c).index]? with
        | none =>
          dsimp only
          rw [hg]
          have e : (addCap s emptyCapsule 0).cap c = s.cap c := upd_ne _ _ hne
          have := index_inv (empty_inv h) (c := c) (i := 0) (Nat.lt_succ_of_lt hl.1)
          rw [e] at this
          exact this
        | some p =>
          dsimp only
          rw [hg]
          have hp : p < s.n := hr.1 p (List.mem_of_getElem? hg)
          have e : (item s p).cap c = s.cap c := upd_ne _ _ hne
          have := index_inv (item_inv h hp) (c := c) (i := (s.cap c).index + 1) (Nat.lt_succ_of_lt hl.1)
          rw [e] at this
          exact this
  | set c v =>
    obtain ⟨p, ht⟩ := hc
    exact set_inv h hl.1.1 ht hl.2
  | read c => exact read_inv h hl.1 hc
  | isPresent c => exact h
  | dropCap c => exact dropCap_inv h hl.1 hl.2 hc
  | schedule v =>
    have hal := held_alive h hl
    have hlt := alive_lt h hal
    have hok : (s.fault || decide (s.rc v = 0)) = s.fault := by simp [hal]
    show Inv { s with rc := upd s.rc v (s.rc v + 1), fault := (s.fault || decide (s.rc v = 0)), scheduled := _ }
    rw [hok]
    refine counts_inv h (fun w => ?_) (fun w hw => ?_)
    · have := h.rc w
      by_cases hw : w = v
      · subst hw
        rw [upd_same, upd_same]
        omega
      · rw [upd_ne _ _ hw, upd_ne _ _ hw]
        exact this
    · rw [upd_ne _ _ (by omega)]
      exact h.fresh w hw
  | newTag =>
    refine ⟨h.ok, fun v => ?_, h.fresh, fun c hc => ⟨(h.cap c hc).rng, (h.cap c hc).cnt, (h.cap c hc).arg,
      (h.cap c hc).multi, ?_, ?_⟩, h.val, fun p => rfl⟩
    · show s.rc v = s.held v + countVal (fun p => { s.port p with present := false }) v s.n + s.scheduled v
      have e := countVal_same (f := fun p => { s.port p with present := false }) (g := s.port) (fun _ => rfl) v s.n
      rw [e]
      exact h.rc v
    · intro p hp
      show _ ≤ setCount (.tag :: s.log) p
      rw [setCount_tag]
      exact (h.cap c hc).le p hp
    · intro p hp hs
      have hs' : _ = setCount (.tag :: s.log) p := hs
      rw [setCount_tag] at hs'
      exact (h.cap c hc).now p hp hs'

theorem run_inv {s : State} (h : Inv s) : ∀ {ops : List Op}, Follows (fun s o => Legal s o ∧ Careful s o) s ops →
    Inv (run s ops)
  | [], _ => h
  | o :: os, hf => by
    show Inv (run (exec s o).1 os)
    exact run_inv (exec_inv h hf.1.1 hf.1.2) hf.2

end ReactorC.Python
