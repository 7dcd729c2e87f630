import Verif.Modes.Spec
import Verif.Tag.Order
import Mathlib.Data.List.Basic

/-! # The two loops of `_lf_process_mode_changes` and the flags of modes -/

namespace ReactorC.Modes
open ReactorC ReactorC.Sched

@[simp] theorem upd_same {α : Type} (f : Nat → α) (i : Nat) (v : α) : upd f i v i = v := by simp [upd]
theorem upd_ne {α : Type} (f : Nat → α) {i j : Nat} (v : α) (h : j ≠ i) : upd f i v j = f j := by simp [upd, h]
theorem upd_apply {α : Type} (f : Nat → α) (i j : Nat) (v : α) : upd f i v j = if j = i then v else f j := rfl

theorem IsActive.cur {P : Prog} {c : Nat → Nat} {md : Nat} (h : IsActive P c md) : c (P.owner md) = md := by
  cases h with | mk _ h _ => exact h

theorem IsActive.par {P : Prog} {c : Nat → Nat} {md p : Nat} (h : IsActive P c md)
    (hp : P.parent (P.owner md) = some p) : IsActive P c p := by
  cases h with | mk _ _ h => exact h p hp

/-- Only the reactor of the mode and those around it matter. -/
theorem IsActive.congr {P : Prog} (ok : P.Ok) {c c' : Nat → Nat} {md : Nat} (h : IsActive P c md)
    (hn : P.owner md < P.n) (hc : ∀ j, j ≤ P.owner md → c' j = c j) : IsActive P c' md := by
  induction h with
  | mk md h1 _ ih =>
    refine .mk md (by rw [hc _ (Nat.le_refl _)]; exact h1) ?_
    intro p hp
    have ho := ok.order _ p hn hp
    exact ih p hp (by omega) (fun j hj => hc j (by omega))

theorem isActive_congr {P : Prog} (ok : P.Ok) {c c' : Nat → Nat} {md : Nat} (hn : P.owner md < P.n)
    (hc : ∀ j, j ≤ P.owner md → c' j = c j) : IsActive P c' md ↔ IsActive P c md :=
  ⟨fun h => h.congr ok hn (fun j hj => (hc j hj).symm), fun h => h.congr ok hn hc⟩

/-- What holds of the flags and the current modes before and after every operation. -/
structure Flags (P : Prog) (m : Modes) : Prop where
  own : ∀ i, i < P.n → P.owner (m.current i) = i
  wants : ∀ i md, i < P.n → m.next i = some md → P.owner md = i
  act : ∀ md, P.owner md < P.n → (m.active md = true ↔ IsActive P m.current md)

/-! ## The start -/

theorem initLoop_spec {P : Prog} (ok : P.Ok) (k : Nat) (hk : k ≤ P.n) :
    (initLoop P k).current = P.initial ∧ (initLoop P k).next = (fun _ => none) ∧
    (initLoop P k).change = (fun _ => .no_transition) ∧
    (∀ md, P.owner md < k → ((initLoop P k).active md = true ↔ IsActive P P.initial md)) ∧
    (∀ md, k ≤ P.owner md → (initLoop P k).active md = false) ∧
    (∀ md, (initLoop P k).needsStartup md = (initLoop P k).active md) ∧
    (initLoop P k).hadStartup = (fun _ => false) ∧ (initLoop P k).needsReset = (fun _ => false) ∧
    (initLoop P k).deact = (fun _ => 0) := by
  induction k with
  | zero => exact ⟨rfl, rfl, rfl, by omega, fun _ _ => rfl, fun _ => rfl, rfl, rfl, rfl⟩
  | succ k ih =>
    obtain ⟨h1, h2, h3, h4, h5, h6, h7, h8, h9⟩ := ih (by omega)
    have hpar : isActive (initLoop P k) (P.parent k) = true ↔ ∀ p, P.parent k = some p → IsActive P P.initial p := by
      cases hp : P.parent k with
      | none => simp [isActive]
      | some p =>
        have := ok.order k p (by omega) hp
        simp only [isActive, h4 p this]
        constructor
        · intro h q hq; cases hq; exact h
        · intro h; exact h p rfl
    have hini := ok.initial k (by omega)
    have hact : ∀ md, P.owner md = k → (IsActive P P.initial md ↔
        md = P.initial k ∧ isActive (initLoop P k) (P.parent k) = true) := by
      intro md hmd
      rw [hpar]
      constructor
      · intro h
        refine ⟨?_, fun p hp => h.par (by rw [hmd]; exact hp)⟩
        have := h.cur
        rw [hmd] at this
        exact this.symm
      · rintro ⟨rfl, h⟩
        exact .mk _ (by rw [hmd]) (fun p hp => h p (by rw [← hmd]; exact hp))
    unfold initLoop
    by_cases hb : isActive (initLoop P k) (P.parent k) = true
    · simp only [hb, if_true, h1]
      refine ⟨trivial, h2, h3, ?_, ?_, ?_, h7, h8, h9⟩
      · intro md hmd
        by_cases he : md = P.initial k
        · subst he
          simp only [upd_same, true_iff]
          exact (hact _ hini).2 ⟨rfl, hb⟩
        · rw [upd_ne _ _ he]
          by_cases hlt : P.owner md < k
          · exact h4 md hlt
          · have hek : P.owner md = k := by omega
            rw [h5 md (by omega), hact md hek]
            simp [he]
      · intro md hmd
        have he : md ≠ P.initial k := by rintro rfl; omega
        rw [upd_ne _ _ he]
        exact h5 md (by omega)
      · intro md
        by_cases he : md = P.initial k
        · subst he; simp
        · rw [upd_ne _ _ he, upd_ne _ _ he]; exact h6 md
    · simp only [hb, if_false, Bool.false_eq_true]
      refine ⟨h1, h2, h3, ?_, fun md hmd => h5 md (by omega), h6, h7, h8, h9⟩
      intro md hmd
      by_cases hlt : P.owner md < k
      · exact h4 md hlt
      · have hek : P.owner md = k := by omega
        rw [h5 md (by omega), hact md hek]
        simp [hb]

theorem initModes_flags {P : Prog} (ok : P.Ok) : Flags P (initModes P) := by
  obtain ⟨h1, h2, _, h4, _⟩ := initLoop_spec ok P.n (Nat.le_refl _)
  refine ⟨?_, ?_, ?_⟩
  · intro i hi
    show P.owner ((initLoop P P.n).current i) = i
    rw [h1]; exact ok.initial i hi
  · intro i md hi h
    have h' : (initLoop P P.n).next i = some md := h
    rw [h2] at h'; cases h'
  · intro md hmd
    show (initLoop P P.n).active md = true ↔ IsActive P (initLoop P P.n).current md
    rw [h1]; exact h4 md hmd

theorem setMode_flags {P : Prog} {m : Modes} (f : Flags P m) (md : Nat) (ch : Change) : Flags P (setMode P m md ch) := by
  refine ⟨f.own, ?_, f.act⟩
  intro i x hi hx
  replace hx : upd m.next (P.owner md) (some md) i = some x := hx
  rw [upd_apply] at hx
  split at hx
  · cases hx; rename_i h; exact h.symm
  · exact f.wants i x hi hx

/-! ## The first loop -/

theorem target_eq (P : Prog) (next : Nat → Option Nat) (change : Nat → Change) (i : Nat) :
    target P next change i =
      match P.parent i with
      | none => (next i).map (fun md => (md, change i))
      | some p =>
        if P.owner p < i ∧ target P next change (P.owner p) = some (p, .reset_transition) then
          some (P.initial i, .reset_transition)
        else (next i).map (fun md => (md, change i)) := by
  rw [target]
  cases P.parent i with
  | none => rfl
  | some p =>
    simp only []
    by_cases h : P.owner p < i
    · simp only [h, dif_pos, true_and]
    · simp only [h, dif_neg, not_false_eq_true, false_and, if_false]

/-- The modes after the first loop: the requests, with the hierarchical resets added; nothing else has changed. -/
structure Loop1 (P : Prog) (m0 : Modes) (k : Nat) (m : Modes) : Prop where
  same : m = { m0 with next := m.next, change := m.change }
  rest : ∀ i, k ≤ i → m.next i = m0.next i ∧ m.change i = m0.change i
  done : ∀ i, i < k → (m.next i).map (fun md => (md, m.change i)) = target P m0.next m0.change i

theorem hier_spec {P : Prog} (ok : P.Ok) {m0 m : Modes} {k : Nat} (hk : k < P.n) (h : Loop1 P m0 k m) :
    Loop1 P m0 (k + 1) (hier P m k) := by
  have hself := h.rest k (Nat.le_refl k)
  unfold hier
  cases hp : P.parent k with
  | none =>
    simp only []
    refine ⟨h.same, fun i hi => h.rest i (by omega), fun i hi => ?_⟩
    by_cases he : i < k
    · exact h.done i he
    · have : i = k := by omega
      subst this
      rw [target_eq, hp, hself.1, hself.2]
  | some p =>
    have ho := ok.order k p hk hp
    have hd := h.done _ ho
    have hcond : (m.next (P.owner p) = some p ∧ m.change (P.owner p) = .reset_transition) ↔
        target P m0.next m0.change (P.owner p) = some (p, .reset_transition) := by
      rw [← hd]
      cases m.next (P.owner p) with
      | none => simp
      | some x => simp
    simp only []
    by_cases hc : m.next (P.owner p) = some p ∧ m.change (P.owner p) = .reset_transition
    · rw [if_pos hc]
      refine ⟨?_, fun i hi => ?_, fun i hi => ?_⟩
      · conv => lhs; rw [h.same]
      · have hik : i ≠ k := by omega
        simp only [upd_ne _ _ hik]
        exact h.rest i (by omega)
      · by_cases he : i = k
        · subst he
          rw [target_eq, hp]
          simp only [upd_same, Option.map_some]
          rw [if_pos ⟨ho, hcond.1 hc⟩]
        · simp only [upd_ne _ _ he]
          exact h.done i (by omega)
    · rw [if_neg hc]
      refine ⟨h.same, fun i hi => h.rest i (by omega), fun i hi => ?_⟩
      by_cases he : i < k
      · exact h.done i he
      · have : i = k := by omega
        subst this
        rw [target_eq, hp, hself.1, hself.2]
        simp only []
        rw [if_neg (fun h' => hc (hcond.2 h'.2))]

theorem loop1_spec {P : Prog} (ok : P.Ok) (s : St) (k : Nat) (hk : k ≤ P.n) : Loop1 P s.m k (loop1 P s k).1 := by
  induction k with
  | zero => exact ⟨rfl, fun _ _ => ⟨rfl, rfl⟩, by omega⟩
  | succ k ih => exact hier_spec ok (by omega) (ih (by omega))

/-- `transition` is set when some reactor goes to another mode. -/
theorem loop1_transition {P : Prog} (ok : P.Ok) (s : St) (k : Nat) (hk : k ≤ P.n) :
    (loop1 P s k).2.2 = true ↔ ∃ i, i < k ∧ (target P s.m.next s.m.change i).isSome = true := by
  induction k with
  | zero => simp [loop1]
  | succ k ih =>
    have h := (loop1_spec ok s (k + 1) hk).done k (by omega)
    have hsome : ((loop1 P s (k + 1)).1.next k).isSome = (target P s.m.next s.m.change k).isSome := by
      rw [← h]; simp
    have hb : (loop1 P s (k + 1)).2.2 = ((loop1 P s k).2.2 || ((loop1 P s (k + 1)).1.next k).isSome) := rfl
    rw [hb, Bool.or_eq_true, ih (by omega), hsome]
    constructor
    · rintro (⟨i, hi, h⟩ | h)
      · exact ⟨i, by omega, h⟩
      · exact ⟨k, by omega, h⟩
    · rintro ⟨i, hi, h'⟩
      by_cases he : i = k
      · subst he; exact Or.inr h'
      · exact Or.inl ⟨i, by omega, h'⟩

theorem target_owner {P : Prog} (ok : P.Ok) {m : Modes} (f : Flags P m) {i : Nat} (hi : i < P.n) {md : Nat} {ch : Change}
    (h : target P m.next m.change i = some (md, ch)) : P.owner md = i := by
  have base : ∀ {md : Nat} {ch : Change}, (m.next i).map (fun md => (md, m.change i)) = some (md, ch) →
      P.owner md = i := by
    intro md ch h
    cases hn : m.next i with
    | none => rw [hn] at h; cases h
    | some x =>
      rw [hn] at h
      simp only [Option.map_some, Option.some.injEq, Prod.mk.injEq] at h
      exact h.1 ▸ f.wants i x hi hn
  rw [target_eq] at h
  cases hp : P.parent i with
  | none => rw [hp] at h; exact base h
  | some p =>
    rw [hp] at h
    simp only [] at h
    split at h
    · cases h; exact ok.initial i hi
    · exact base h

/-! ## The second loop -/

/-- The current mode of modal reactor `i` after the transitions requested. -/
def goesTo (P : Prog) (m : Modes) (i : Nat) : Nat :=
  match target P m.next m.change i with
  | none => m.current i
  | some x => x.1

/-- The flag that requests the reset reactions of mode `md`, when its reactor goes to the given mode. -/
def resetFlag (old : Bool) (md : Nat) : Option (Nat × Change) → Bool
  | none => old
  | some x => if x.1 = md then decide (x.2 = .reset_transition) else old

/-- The modes after the second loop over the first `k` reactors, where `m0` are the modes before both loops and `m1`
those between them. -/
structure Loop2 (P : Prog) (now : Int) (m0 m1 : Modes) (k : Nat) (m : Modes) : Prop where
  cur : ∀ i, m.current i = if i < k then goesTo P m0 i else m0.current i
  next : ∀ i, m.next i = if i < k then none else m1.next i
  change : ∀ i, k ≤ i → m.change i = m1.change i
  old : ∀ md, k ≤ P.owner md → m.active md = m0.active md ∧ m.deact md = m0.deact md ∧
    m.needsStartup md = m0.needsStartup md ∧ m.needsReset md = m0.needsReset md
  new : ∀ md, P.owner md < k → (m.active md = true ↔ IsActive P m.current md)
  had : m.hadStartup = m0.hadStartup
  left : ∀ md, P.owner md < k → m.deact md =
    if m0.current (P.owner md) = md ∧ (target P m0.next m0.change (P.owner md)).isSome then now else m0.deact md
  start : ∀ md, P.owner md < k → m.needsStartup md =
    (m0.needsStartup md || (decide ((target P m0.next m0.change (P.owner md)).map Prod.fst = some md) &&
      !m0.hadStartup md))
  reset : ∀ md, P.owner md < k → m.needsReset md =
    resetFlag (m0.needsReset md) md (target P m0.next m0.change (P.owner md))
  reqS : m.reqStartup = true ↔ m0.reqStartup = true ∨
    ∃ md, P.owner md < k ∧ m.active md = true ∧ m.needsStartup md = true
  reqR : m.reqReset = true ↔ m0.reqReset = true ∨
    ∃ md, P.owner md < k ∧ m.active md = true ∧ m.needsReset md = true

/-- The second loop for one reactor, before the computation of the activity flag. -/
def mid (now : Int) (m : Modes) (i : Nat) : Modes :=
  let m := { m with active := upd m.active (m.current i) false }
  match m.next i with
  | none => m
  | some md =>
    { m with
      deact := upd m.deact (m.current i) now
      current := upd m.current i md
      needsStartup := if m.hadStartup md then m.needsStartup else upd m.needsStartup md true
      needsReset := upd m.needsReset md (decide (m.change i = .reset_transition))
      next := upd m.next i none
      change := upd m.change i .no_transition }

theorem apply_eq (P : Prog) (now : Int) (m : Modes) (i : Nat) : apply P now m i =
    if isActive (mid now m i) (P.parent i) then
      { mid now m i with
        active := upd (mid now m i).active ((mid now m i).current i) true
        reqStartup := (mid now m i).reqStartup || (mid now m i).needsStartup ((mid now m i).current i)
        reqReset := (mid now m i).reqReset || (mid now m i).needsReset ((mid now m i).current i) }
    else mid now m i := rfl

/-- The fields after `mid`, where `tgt` is where the reactor goes. -/
structure Mid (now : Int) (m : Modes) (i : Nat) (tgt : Option (Nat × Change)) (m2 : Modes) : Prop where
  cur : ∀ j, m2.current j = if j = i then (match tgt with | none => m.current i | some x => x.1) else m.current j
  next : ∀ j, m2.next j = if j = i then none else m.next j
  change : ∀ j, j ≠ i → m2.change j = m.change j
  active : ∀ md, m2.active md = if md = m.current i then false else m.active md
  had : m2.hadStartup = m.hadStartup
  deact : ∀ md, m2.deact md = if md = m.current i ∧ tgt.isSome then now else m.deact md
  start : ∀ md, m2.needsStartup md = (m.needsStartup md || (decide (tgt.map Prod.fst = some md) && !m.hadStartup md))
  reset : ∀ md, m2.needsReset md = resetFlag (m.needsReset md) md tgt
  reqS : m2.reqStartup = m.reqStartup
  reqR : m2.reqReset = m.reqReset

theorem mid_spec (now : Int) (m : Modes) (i : Nat) :
    Mid now m i ((m.next i).map (fun md => (md, m.change i))) (mid now m i) := by
  unfold mid
  cases hn : m.next i with
  | none =>
    simp only [hn]
    refine ⟨?_, ?_, fun _ _ => rfl, fun _ => rfl, rfl, ?_, ?_, fun _ => rfl, rfl, rfl⟩
    · intro j; by_cases h : j = i <;> simp [h]
    · intro j; by_cases h : j = i <;> simp [h, hn]
    · intro md; simp
    · intro md; simp
  | some x =>
    simp only [hn]
    refine ⟨?_, ?_, ?_, fun _ => rfl, rfl, ?_, ?_, ?_, rfl, rfl⟩
    · intro j; by_cases h : j = i <;> simp [h, upd]
    · intro j; by_cases h : j = i <;> simp [h, upd]
    · intro j hj; simp [upd, hj]
    · intro md; simp [upd]
    · intro md
      simp only [Option.map_some, Option.some.injEq]
      by_cases hh : m.hadStartup x = true
      · rw [if_pos hh]
        by_cases he : x = md
        · subst he; simp [hh]
        · simp [he]
      · rw [if_neg hh]
        by_cases he : x = md
        · subst he; simp [hh]
        · rw [upd_ne _ _ (Ne.symm he)]; simp [he]
    · intro md
      simp only [Option.map_some, resetFlag]
      by_cases he : x = md
      · subst he; simp
      · rw [upd_ne _ _ (Ne.symm he)]; simp [he]

theorem apply_spec {P : Prog} (ok : P.Ok) {now : Int} {m0 m1 m : Modes} {k : Nat} (hk : k < P.n) (f : Flags P m0)
    (h1 : Loop1 P m0 P.n m1) (h : Loop2 P now m0 m1 k m) : Loop2 P now m0 m1 (k + 1) (apply P now m k) := by
  have hcur : m.current k = m0.current k := by rw [h.cur]; simp
  have hown : P.owner (m.current k) = k := by rw [hcur]; exact f.own k hk
  have htg : (m.next k).map (fun md => (md, m.change k)) = target P m0.next m0.change k := by
    rw [h.next, h.change k (Nat.le_refl k)]
    simp only [Nat.lt_irrefl, if_false]
    exact h1.done k hk
  have hmid := mid_spec now m k
  rw [htg] at hmid
  have hgo : (mid now m k).current k = goesTo P m0 k := by
    rw [hmid.cur]
    unfold goesTo
    simp only [if_true, hcur]
  have hgown : P.owner (goesTo P m0 k) = k := by
    unfold goesTo
    cases ht : target P m0.next m0.change k with
    | none => exact f.own k hk
    | some x => exact target_owner ok f hk ht
  have hc2 : ∀ i, (mid now m k).current i = if i < k + 1 then goesTo P m0 i else m0.current i := by
    intro i
    by_cases he : i = k
    · subst he; rw [hgo]; simp
    · rw [hmid.cur, if_neg he, h.cur]
      by_cases hlt : i < k
      · simp [hlt, show i < k + 1 by omega]
      · simp [hlt, show ¬ i < k + 1 by omega]
  -- flags of the modes of reactors before `k`
  have hold : ∀ md, P.owner md < k → (mid now m k).active md = m.active md := by
    intro md hmd
    rw [hmid.active, if_neg]
    rintro rfl; omega
  have hnewlt : ∀ md, P.owner md < k → ((mid now m k).active md = true ↔ IsActive P (mid now m k).current md) := by
    intro md hmd
    rw [hold md hmd, h.new md hmd]
    refine (isActive_congr ok (by omega) (fun j hj => ?_)).symm
    rw [hmid.cur, if_neg (by omega)]
  have hnewk : ∀ md, P.owner md = k → (mid now m k).active md = false := by
    intro md hmd
    rw [hmid.active]
    split
    · rfl
    · rename_i hne
      have ho := (h.old md (by omega)).1
      rw [ho, Bool.eq_false_iff]
      intro ha
      have := ((f.act md (by omega)).1 ha).cur
      rw [hmd] at this
      exact hne (by rw [hcur, this])
  have hpar : isActive (mid now m k) (P.parent k) = true ↔
      ∀ p, P.parent k = some p → IsActive P (mid now m k).current p := by
    cases hp : P.parent k with
    | none => simp [isActive]
    | some p =>
      have := ok.order k p hk hp
      simp only [isActive, hnewlt p this]
      constructor
      · intro hh q hq; cases hq; exact hh
      · intro hh; exact hh p rfl
  have hactk : ∀ md, P.owner md = k → (IsActive P (mid now m k).current md ↔
      md = goesTo P m0 k ∧ isActive (mid now m k) (P.parent k) = true) := by
    intro md hmd
    rw [hpar]
    constructor
    · intro hh
      refine ⟨?_, fun p hp => hh.par (by rw [hmd]; exact hp)⟩
      have := hh.cur
      rw [hmd, hgo] at this
      exact this.symm
    · rintro ⟨he, hh⟩
      exact .mk _ (by rw [hmd, hgo, he]) (fun p hp => hh p (by rw [← hmd]; exact hp))
  have holdeq : ∀ md, k + 1 ≤ P.owner md → (mid now m k).active md = m0.active md ∧
      (mid now m k).deact md = m0.deact md ∧ (mid now m k).needsStartup md = m0.needsStartup md ∧
      (mid now m k).needsReset md = m0.needsReset md := by
    intro md hmd
    obtain ⟨o1, o2, o3, o4⟩ := h.old md (by omega)
    have hne : md ≠ m.current k := by rintro rfl; omega
    have htne : ∀ x, target P m0.next m0.change k = some x → x.1 ≠ md := by
      intro x hx he
      have := target_owner ok f hk (md := x.1) (ch := x.2) hx
      rw [he] at this; omega
    refine ⟨?_, ?_, ?_, ?_⟩
    · rw [hmid.active, if_neg hne, o1]
    · rw [hmid.deact, if_neg (fun hh => hne hh.1), o2]
    · rw [hmid.start, o3]
      cases ht : target P m0.next m0.change k with
      | none => simp
      | some x => simp [htne x ht]
    · rw [hmid.reset, ← o4]
      cases ht : target P m0.next m0.change k with
      | none => rfl
      | some x => simp [resetFlag, htne x ht]
  have hleft : ∀ md, P.owner md < k + 1 → (mid now m k).deact md =
      if m0.current (P.owner md) = md ∧ (target P m0.next m0.change (P.owner md)).isSome then now else m0.deact md := by
    intro md hmd
    rw [hmid.deact]
    by_cases he : P.owner md = k
    · rw [he, hcur, (h.old md (by omega)).2.1]
      simp only [eq_comm]
    · rw [if_neg (by rintro ⟨rfl, _⟩; exact he hown), h.left md (by omega)]
  have hstart : ∀ md, P.owner md < k + 1 → (mid now m k).needsStartup md =
      (m0.needsStartup md || (decide ((target P m0.next m0.change (P.owner md)).map Prod.fst = some md) &&
        !m0.hadStartup md)) := by
    intro md hmd
    rw [hmid.start]
    by_cases he : P.owner md = k
    · rw [he, (h.old md (by omega)).2.2.1, h.had]
    · have hne : (target P m0.next m0.change k).map Prod.fst ≠ some md := by
        intro hh
        cases ht : target P m0.next m0.change k with
        | none => rw [ht] at hh; cases hh
        | some x =>
          rw [ht] at hh
          simp only [Option.map_some, Option.some.injEq] at hh
          have := target_owner ok f hk (md := x.1) (ch := x.2) ht
          rw [hh] at this
          exact he this
      rw [h.start md (by omega)]
      simp [hne]
  have hreset : ∀ md, P.owner md < k + 1 → (mid now m k).needsReset md =
      resetFlag (m0.needsReset md) md (target P m0.next m0.change (P.owner md)) := by
    intro md hmd
    rw [hmid.reset]
    by_cases he : P.owner md = k
    · rw [he, (h.old md (by omega)).2.2.2]
    · rw [h.reset md (by omega)]
      cases ht : target P m0.next m0.change k with
      | none => rfl
      | some x =>
        have := target_owner ok f hk (md := x.1) (ch := x.2) ht
        simp only [resetFlag]
        rw [if_neg]
        rintro rfl
        exact he this
  have hkeepS : ∀ md, P.owner md < k → (mid now m k).needsStartup md = m.needsStartup md := by
    intro md hmd
    rw [hstart md (by omega), h.start md hmd]
  have hkeepR : ∀ md, P.owner md < k → (mid now m k).needsReset md = m.needsReset md := by
    intro md hmd
    rw [hreset md (by omega), h.reset md hmd]
  rw [apply_eq]
  by_cases hb : isActive (mid now m k) (P.parent k) = true
  · rw [if_pos hb]
    have hact : ∀ md, P.owner md < k + 1 → (upd (mid now m k).active ((mid now m k).current k) true md = true ↔
        IsActive P (mid now m k).current md) := by
      intro md hmd
      rw [upd_apply, hgo]
      by_cases he : P.owner md = k
      · rw [hactk md he, hnewk md he]
        simp [hb]
      · rw [if_neg (by rintro rfl; exact he hgown)]
        exact hnewlt md (by omega)
    refine ⟨hc2, ?_, ?_, ?_, hact, ?_, hleft, hstart, hreset, ?_, ?_⟩
    · intro i
      show (mid now m k).next i = _
      rw [hmid.next, h.next]
      by_cases he : i = k
      · subst he; simp
      · by_cases hlt : i < k
        · simp [he, hlt, show i < k + 1 by omega]
        · simp [he, hlt, show ¬ i < k + 1 by omega]
    · intro i hi
      show (mid now m k).change i = _
      rw [hmid.change i (by omega), h.change i (by omega)]
    · intro md hmd
      refine ⟨?_, (holdeq md hmd).2⟩
      show upd (mid now m k).active ((mid now m k).current k) true md = _
      rw [upd_ne _ _ (by rw [hgo]; rintro rfl; omega)]
      exact (holdeq md hmd).1
    · exact hmid.had.trans h.had
    · show ((mid now m k).reqStartup || (mid now m k).needsStartup ((mid now m k).current k)) = true ↔ m0.reqStartup = true ∨
        ∃ md, P.owner md < k + 1 ∧ upd (mid now m k).active ((mid now m k).current k) true md = true ∧
          (mid now m k).needsStartup md = true
      rw [hmid.reqS, Bool.or_eq_true, h.reqS]
      constructor
      · rintro ((h' | ⟨md, a, b, c⟩) | h')
        · exact Or.inl h'
        · refine Or.inr ⟨md, by omega, ?_, by rw [hkeepS md a]; exact c⟩
          rw [upd_ne _ _ (by rw [hgo]; rintro rfl; omega), hold md a]; exact b
        · exact Or.inr ⟨_, by rw [hgo, hgown]; omega, upd_same _ _ _, h'⟩
      · rintro (h' | ⟨md, a, b, c⟩)
        · exact Or.inl (Or.inl h')
        · by_cases he : P.owner md = k
          · have hb' := (hact md a).1 b
            have := ((hactk md he).1 hb').1
            rw [hgo, ← this]; exact Or.inr c
          · refine Or.inl (Or.inr ⟨md, by omega, ?_, by rw [← hkeepS md (by omega)]; exact c⟩)
            rw [upd_ne _ _ (by rw [hgo]; rintro rfl; omega), hold md (by omega)] at b
            exact b
    · show ((mid now m k).reqReset || (mid now m k).needsReset ((mid now m k).current k)) = true ↔ m0.reqReset = true ∨
        ∃ md, P.owner md < k + 1 ∧ upd (mid now m k).active ((mid now m k).current k) true md = true ∧
          (mid now m k).needsReset md = true
      rw [hmid.reqR, Bool.or_eq_true, h.reqR]
      constructor
      · rintro ((h' | ⟨md, a, b, c⟩) | h')
        · exact Or.inl h'
        · refine Or.inr ⟨md, by omega, ?_, by rw [hkeepR md a]; exact c⟩
          rw [upd_ne _ _ (by rw [hgo]; rintro rfl; omega), hold md a]; exact b
        · exact Or.inr ⟨_, by rw [hgo, hgown]; omega, upd_same _ _ _, h'⟩
      · rintro (h' | ⟨md, a, b, c⟩)
        · exact Or.inl (Or.inl h')
        · by_cases he : P.owner md = k
          · have hb' := (hact md a).1 b
            have := ((hactk md he).1 hb').1
            rw [hgo, ← this]; exact Or.inr c
          · refine Or.inl (Or.inr ⟨md, by omega, ?_, by rw [← hkeepR md (by omega)]; exact c⟩)
            rw [upd_ne _ _ (by rw [hgo]; rintro rfl; omega), hold md (by omega)] at b
            exact b
  · rw [if_neg hb]
    have hact : ∀ md, P.owner md < k + 1 → ((mid now m k).active md = true ↔
        IsActive P (mid now m k).current md) := by
      intro md hmd
      by_cases he : P.owner md = k
      · rw [hactk md he, hnewk md he]
        simp [hb]
      · exact hnewlt md (by omega)
    refine ⟨hc2, ?_, ?_, holdeq, hact, ?_, hleft, hstart, hreset, ?_, ?_⟩
    · intro i
      rw [hmid.next, h.next]
      by_cases he : i = k
      · subst he; simp
      · by_cases hlt : i < k
        · simp [he, hlt, show i < k + 1 by omega]
        · simp [he, hlt, show ¬ i < k + 1 by omega]
    · intro i hi
      rw [hmid.change i (by omega), h.change i (by omega)]
    · exact hmid.had.trans h.had
    · rw [hmid.reqS, h.reqS]
      constructor
      · rintro (h' | ⟨md, a, b, c⟩)
        · exact Or.inl h'
        · exact Or.inr ⟨md, by omega, by rw [hold md a]; exact b, by rw [hkeepS md a]; exact c⟩
      · rintro (h' | ⟨md, a, b, c⟩)
        · exact Or.inl h'
        · by_cases he : P.owner md = k
          · rw [hnewk md he] at b; cases b
          · exact Or.inr ⟨md, by omega, by rw [← hold md (by omega)]; exact b,
              by rw [← hkeepS md (by omega)]; exact c⟩
    · rw [hmid.reqR, h.reqR]
      constructor
      · rintro (h' | ⟨md, a, b, c⟩)
        · exact Or.inl h'
        · exact Or.inr ⟨md, by omega, by rw [hold md a]; exact b, by rw [hkeepR md a]; exact c⟩
      · rintro (h' | ⟨md, a, b, c⟩)
        · exact Or.inl h'
        · by_cases he : P.owner md = k
          · rw [hnewk md he] at b; cases b
          · exact Or.inr ⟨md, by omega, by rw [← hold md (by omega)]; exact b,
              by rw [← hkeepR md (by omega)]; exact c⟩

theorem loop2_spec {P : Prog} (ok : P.Ok) {now : Int} {m0 m1 : Modes} (f : Flags P m0) (h1 : Loop1 P m0 P.n m1)
    (k : Nat) (hk : k ≤ P.n) : Loop2 P now m0 m1 k (loop2 P now m1 k) := by
  induction k with
  | zero =>
    have hs := h1.same
    have e : ∀ {α : Type} (g : Modes → α), g m1 = g { m0 with next := m1.next, change := m1.change } := by
      intro α g; rw [← hs]
    refine ⟨fun i => ?_, fun i => ?_, fun _ _ => rfl, fun md _ => ⟨?_, ?_, ?_, ?_⟩, by omega, ?_, by omega, by omega,
      by omega, ?_, ?_⟩
    · simp only [Nat.not_lt_zero, if_false]; exact e (fun m => m.current i)
    · simp only [Nat.not_lt_zero, if_false]; rfl
    · exact e (fun m => m.active md)
    · exact e (fun m => m.deact md)
    · exact e (fun m => m.needsStartup md)
    · exact e (fun m => m.needsReset md)
    · exact e (fun m => m.hadStartup)
    · have := e (fun m => m.reqStartup)
      show m1.reqStartup = true ↔ _
      rw [this]; simp
    · have := e (fun m => m.reqReset)
      show m1.reqReset = true ↔ _
      rw [this]; simp
  | succ k ih => exact apply_spec ok (by omega) f h1 (ih (by omega))

/-- The modes after `_lf_process_mode_changes`. -/
theorem process_modes {P : Prog} (ok : P.Ok) (s : St) (f : Flags P s.m) :
    ((∃ i, i < P.n ∧ (target P s.m.next s.m.change i).isSome = true) ∧
      Loop2 P s.e.env.cur.time s.m (loop1 P s P.n).1 P.n (process P s).m) ∨
    ((∀ i, i < P.n → target P s.m.next s.m.change i = none) ∧ (process P s).m = { s.m with next := (process P s).m.next, change := (process P s).m.change } ∧
      ∀ i, i < P.n → (process P s).m.next i = none) := by
  have h1 := loop1_spec ok s P.n (Nat.le_refl _)
  have ht := loop1_transition ok s P.n (Nat.le_refl _)
  unfold process
  simp only []
  by_cases hb : (loop1 P s P.n).2.2 = true
  · left
    simp only [hb, if_true]
    exact ⟨ht.1 hb, loop2_spec ok f h1 P.n (Nat.le_refl _)⟩
  · right
    simp only [hb, if_false, Bool.false_eq_true]
    have hnone : ∀ i, i < P.n → target P s.m.next s.m.change i = none := by
      intro i hi
      cases hx : target P s.m.next s.m.change i with
      | none => rfl
      | some x => exact absurd (ht.2 ⟨i, hi, by rw [hx]; rfl⟩) hb
    refine ⟨hnone, h1.same, fun i hi => ?_⟩
    have := h1.done i hi
    rw [hnone i hi] at this
    cases hn : (loop1 P s P.n).1.next i with
    | none => rfl
    | some x => rw [hn] at this; cases this

theorem process_flags {P : Prog} (ok : P.Ok) {s : St} (f : Flags P s.m) : Flags P (process P s).m := by
  rcases process_modes ok s f with ⟨_, h⟩ | ⟨_, h, hn⟩
  · have hcur : ∀ i, i < P.n → (process P s).m.current i = goesTo P s.m i := by
      intro i hi; rw [h.cur, if_pos hi]
    refine ⟨?_, ?_, h.new⟩
    · intro i hi
      rw [hcur i hi]
      unfold goesTo
      cases ht : target P s.m.next s.m.change i with
      | none => exact f.own i hi
      | some x => exact target_owner ok f hi (md := x.1) (ch := x.2) ht
    · intro i md hi hx
      rw [h.next, if_pos hi] at hx
      cases hx
  · have e : ∀ {α : Type} (g : Modes → α), g (process P s).m =
        g { s.m with next := (process P s).m.next, change := (process P s).m.change } := by
      intro α g; rw [← h]
    have hc : (process P s).m.current = s.m.current := e (fun m => m.current)
    have ha : (process P s).m.active = s.m.active := e (fun m => m.active)
    refine ⟨?_, ?_, ?_⟩
    · intro i hi; rw [hc]; exact f.own i hi
    · intro i md hi hx; rw [hn i hi] at hx; cases hx
    · intro md hmd; rw [hc, ha]; exact f.act md hmd

theorem clearLoop_same (m : Modes) (k : Nat) : (clearLoop m k).current = m.current ∧ (clearLoop m k).next = m.next ∧
    (clearLoop m k).active = m.active ∧ (clearLoop m k).change = m.change ∧ (clearLoop m k).deact = m.deact := by
  induction k with
  | zero => exact ⟨rfl, rfl, rfl, rfl, rfl⟩
  | succ k ih =>
    have he : clearLoop m (k + 1) = clear (clearLoop m k) k := rfl
    rw [he]
    unfold clear
    split <;> exact ih

theorem startupReset_flags {P : Prog} {m : Modes} (f : Flags P m) : Flags P (startupReset P m).2 := by
  obtain ⟨h1, h2, h3, _⟩ := clearLoop_same m P.n
  refine ⟨?_, ?_, ?_⟩
  · intro i hi
    show P.owner ((clearLoop m P.n).current i) = i
    rw [h1]; exact f.own i hi
  · intro i md hi hx
    replace hx : (clearLoop m P.n).next i = some md := hx
    rw [h2] at hx; exact f.wants i md hi hx
  · intro md hmd
    show (clearLoop m P.n).active md = true ↔ IsActive P (clearLoop m P.n).current md
    rw [h1, h3]; exact f.act md hmd

end ReactorC.Modes
