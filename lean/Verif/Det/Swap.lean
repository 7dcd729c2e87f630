import Verif.Det.Spec

/-!
# Steps of independent reactions can be exchanged
-/

namespace ReactorC.Det

open Np (put)

variable {Cell Val : Type} [DecidableEq Cell]

/-- What the execution of a program consists of, apart from the scheduler: memory, the rest of the executing reactions, and
what has been triggered at this tag. -/
@[ext] structure Conf (Cell Val : Type) where
  cells : Cell → Val
  code : Nat → Option (Code Cell Val)
  trig : Nat → Bool

/-- Steps of a reaction. -/
inductive Kind
  | start
  | act
  | finish
deriving DecidableEq

structure X where
  who : Nat
  kind : Kind

/-- What a step of a reaction does, depending on what the reaction still has to do: what it has to do then, what it writes and
which reaction it triggers. -/
def look (P : Program Cell Val) (r : Nat) (m : Cell → Val) :
    Kind → Option (Code Cell Val) → Option (Option (Code Cell Val) × Option (Cell × Val) × Option Nat)
  | .start, none => some (some (P.body r), none, none)
  | .act, some (.read a k) => some (some (k (m a)), none, none)
  | .act, some (.write a v k) => some (some k, some (a, v), none)
  | .act, some (.trigger r' k) => some (some k, none, some r')
  | .finish, some .done => some (none, none, none)
  | _, _ => none

def wr (m : Cell → Val) : Option (Cell × Val) → Cell → Val
  | none => m
  | some (a, v) => set m a v

def tr (t : Nat → Bool) : Option Nat → Nat → Bool
  | none => t
  | some r => put t r true

def Conf.step (P : Program Cell Val) (c : Conf Cell Val) (x : X) : Option (Conf Cell Val) :=
  (look P x.who c.cells x.kind (c.code x.who)).map fun e => ⟨wr c.cells e.2.1, put c.code x.who e.1, tr c.trig e.2.2⟩

def Conf.exec (P : Program Cell Val) (c : Conf Cell Val) : List X → Option (Conf Cell Val)
  | [] => some c
  | x :: l => (c.step P x).bind fun c' => c'.exec P l

theorem Conf.exec_append (P : Program Cell Val) (l l' : List X) : ∀ c : Conf Cell Val,
    c.exec P (l ++ l') = (c.exec P l).bind fun c' => c'.exec P l' := by
  induction l with
  | nil => intro c; rfl
  | cons x l ih =>
    intro c
    show (c.step P x).bind _ = ((c.step P x).bind _).bind _
    cases c.step P x with
    | none => rfl
    | some c' => exact ih c'

@[simp] theorem put_eq {α : Type} (f : Nat → α) (i : Nat) (a : α) : put f i a i = a := by simp [put]

theorem put_other {α : Type} (f : Nat → α) {i j : Nat} (a : α) (h : j ≠ i) : put f i a j = f j := by
  unfold put; rw [if_neg h]

theorem put_comm {α : Type} (f : Nat → α) {i j : Nat} (a b : α) (h : i ≠ j) : put (put f i a) j b = put (put f j b) i a := by
  funext x
  unfold put
  by_cases h1 : x = j
  · rw [if_pos h1]
    by_cases h2 : x = i
    · exact absurd (h2.symm.trans h1) h
    · rw [if_neg h2, if_pos h1]
  · rw [if_neg h1]
    by_cases h2 : x = i
    · rw [if_pos h2, if_pos h2]
    · rw [if_neg h2, if_neg h2, if_neg h1]

theorem put_true_comm (f : Nat → Bool) (i j : Nat) : put (put f i true) j true = put (put f j true) i true := by
  by_cases h : i = j
  · rw [h]
  · exact put_comm f _ _ h

theorem set_other (m : Cell → Val) {c c' : Cell} (v : Val) (h : c' ≠ c) : set m c v c' = m c' := by
  unfold set; rw [if_neg h]

theorem set_comm (m : Cell → Val) {c d : Cell} (v w : Val) (h : c ≠ d) : set (set m c v) d w = set (set m d w) c v := by
  funext x
  unfold set
  by_cases h1 : x = d
  · rw [if_pos h1]
    by_cases h2 : x = c
    · exact absurd (h2.symm.trans h1) h
    · rw [if_neg h2, if_pos h1]
  · rw [if_neg h1]
    by_cases h2 : x = c
    · rw [if_pos h2, if_pos h2]
    · rw [if_neg h2, if_neg h2, if_neg h1]

/-- The cells that the executing reactions access are the ones they may access. -/
def Conf.Ok (reads writes : Nat → Cell → Prop) (triggers : Nat → Nat → Prop) (c : Conf Cell Val) : Prop :=
  ∀ r k, c.code r = some k → k.Within (reads r) (writes r) (triggers r)

/-- Neither writes what the other one accesses. -/
def Indep (reads writes : Nat → Cell → Prop) (r r' : Nat) : Prop :=
  ∀ a, (writes r a → ¬ reads r' a ∧ ¬ writes r' a) ∧ (writes r' a → ¬ reads r a ∧ ¬ writes r a)

section
variable {P : Program Cell Val} {reads writes : Nat → Cell → Prop} {triggers : Nat → Nat → Prop}

theorem look_within (hb : ∀ r, (P.body r).Within (reads r) (writes r) (triggers r)) {r : Nat} {m : Cell → Val} {kind : Kind}
    {o : Option (Code Cell Val)} (ho : ∀ k, o = some k → k.Within (reads r) (writes r) (triggers r))
    {e : Option (Code Cell Val) × Option (Cell × Val) × Option Nat} (h : look P r m kind o = some e) :
    (∀ k, e.1 = some k → k.Within (reads r) (writes r) (triggers r)) ∧ (∀ a v, e.2.1 = some (a, v) → writes r a) ∧
      ∀ r', e.2.2 = some r' → triggers r r' := by
  cases kind <;> cases o with
  | none =>
    first
    | (cases h; done)
    | (cases h; exact ⟨fun k e => (by cases e; exact hb r), fun a v e => (by cases e), fun r' e => (by cases e)⟩)
  | some k =>
    have hw := ho k rfl
    cases k <;> first
      | (cases h; done)
      | (cases h; cases hw with | read h1 h2 => exact ⟨fun k e => (by cases e; exact h2 _), fun a v e => (by cases e), fun r' e => (by cases e)⟩)
      | (cases h; cases hw with | write h1 h2 => exact ⟨fun k e => (by cases e; exact h2), fun a v e => (by cases e; exact h1), fun r' e => (by cases e)⟩)
      | (cases h; cases hw with | trigger h1 h2 => exact ⟨fun k e => (by cases e; exact h2), fun a v e => (by cases e), fun r' e => (by cases e; exact h1)⟩)
      | (cases h; exact ⟨fun k e => (by cases e), fun a v e => (by cases e), fun r' e => (by cases e)⟩)

/-- What a reaction does next depends only on the cells that it reads. -/
theorem look_congr {r : Nat} {m m' : Cell → Val} {kind : Kind} {o : Option (Code Cell Val)}
    (ho : ∀ k, o = some k → k.Within (reads r) (writes r) (triggers r)) (hm : ∀ a, reads r a → m' a = m a) :
    look P r m' kind o = look P r m kind o := by
  cases kind <;> cases o with
  | none => rfl
  | some k =>
    have hw := ho k rfl
    cases k with
    | read a f =>
      first
      | rfl
      | (cases hw with | read h1 h2 => exact congrArg (fun v => some (some (f v), none, none)) (hm _ h1))
    | _ => rfl

theorem Conf.Ok.step {c c' : Conf Cell Val} (hb : ∀ r, (P.body r).Within (reads r) (writes r) (triggers r))
    (h : c.Ok reads writes triggers) {x : X} (hs : c.step P x = some c') : c'.Ok reads writes triggers := by
  unfold Conf.step at hs
  cases hl : look P x.who c.cells x.kind (c.code x.who) with
  | none => rw [hl] at hs; cases hs
  | some e =>
    rw [hl] at hs; cases hs
    intro r k hk
    by_cases er : r = x.who
    · subst er; dsimp only at hk; rw [put_eq] at hk; exact (look_within hb (h _) hl).1 k hk
    · dsimp only at hk; rw [put_other _ _ er] at hk; exact h r k hk

theorem Conf.Ok.exec {c c' : Conf Cell Val} (hb : ∀ r, (P.body r).Within (reads r) (writes r) (triggers r))
    (h : c.Ok reads writes triggers) {l : List X} (hs : c.exec P l = some c') : c'.Ok reads writes triggers := by
  induction l generalizing c with
  | nil => cases hs; exact h
  | cons x l ih =>
    unfold Conf.exec at hs
    cases hx : c.step P x with
    | none => rw [hx] at hs; cases hs
    | some c1 => rw [hx] at hs; exact ih (h.step hb hx) hs

theorem wr_other {m : Cell → Val} {w : Option (Cell × Val)} {a : Cell} (h : ∀ b v, w = some (b, v) → b ≠ a) : wr m w a = m a := by
  cases w with
  | none => rfl
  | some p => obtain ⟨b, v⟩ := p; exact set_other m v (fun e => h b v rfl e.symm)

theorem wr_comm {m : Cell → Val} {w w' : Option (Cell × Val)}
    (h : ∀ a v b v', w = some (a, v) → w' = some (b, v') → a ≠ b) : wr (wr m w) w' = wr (wr m w') w := by
  cases w with
  | none => rfl
  | some p =>
    cases w' with
    | none => rfl
    | some p' => obtain ⟨a, v⟩ := p; obtain ⟨b, v'⟩ := p'; exact set_comm m v v' (h a v b v' rfl rfl)

theorem tr_comm {t : Nat → Bool} {a b : Option Nat} : tr (tr t a) b = tr (tr t b) a := by
  cases a <;> cases b <;> first | rfl | exact put_true_comm _ _ _

/-- Steps of independent reactions can be exchanged. -/
theorem Conf.swap (hb : ∀ r, (P.body r).Within (reads r) (writes r) (triggers r)) {c c1 : Conf Cell Val}
    (h : c.Ok reads writes triggers) {x y : X} (hxy : x.who ≠ y.who)
    (hi : Indep reads writes x.who y.who) (h1 : c.step P x = some c1) :
    c1.step P y = (c.step P y).bind fun c2 => c2.step P x := by
  unfold Conf.step at h1
  cases hl : look P x.who c.cells x.kind (c.code x.who) with
  | none => rw [hl] at h1; cases h1
  | some e =>
    rw [hl] at h1; cases h1
    have wx := look_within hb (h _) hl
    unfold Conf.step
    dsimp only
    rw [put_other _ _ hxy.symm]
    have e1 : look P y.who (wr c.cells e.2.1) y.kind (c.code y.who) = look P y.who c.cells y.kind (c.code y.who) :=
      look_congr (h _) fun a ha => wr_other fun b v eb hba => by
        subst hba; exact ((hi b).1 (wx.2.1 b v eb)).1 ha
    rw [e1]
    cases hl' : look P y.who c.cells y.kind (c.code y.who) with
    | none => rfl
    | some e' =>
      have wy := look_within hb (h _) hl'
      show some _ = ((look P x.who _ x.kind (put c.code y.who e'.1 x.who)).map _)
      dsimp only
      rw [put_other _ _ hxy]
      have e2 : look P x.who (wr c.cells e'.2.1) x.kind (c.code x.who) = look P x.who c.cells x.kind (c.code x.who) :=
        look_congr (h _) fun a ha => wr_other fun b v eb hba => by
          subst hba; exact ((hi b).2 (wy.2.1 b v eb)).1 ha
      rw [e2, hl]
      show some _ = some _
      congr 1
      dsimp only
      rw [wr_comm (w := e.2.1) fun a v b v' ea eb hab => by subst hab; exact ((hi a).1 (wx.2.1 a v ea)).2 (wy.2.1 a v' eb),
        put_comm _ _ _ hxy, tr_comm]

theorem Conf.exec_cons {c c' : Conf Cell Val} {x : X} {l : List X} (h : c.exec P (x :: l) = some c') :
    ∃ c1, c.step P x = some c1 ∧ c1.exec P l = some c' := by
  unfold Conf.exec at h
  cases hx : c.step P x with
  | none => rw [hx] at h; cases h
  | some c1 => rw [hx] at h; exact ⟨c1, rfl, h⟩

theorem Conf.exec_cons_of {c c1 c' : Conf Cell Val} {x : X} {l : List X} (h1 : c.step P x = some c1) (h2 : c1.exec P l = some c') :
    c.exec P (x :: l) = some c' := by
  unfold Conf.exec; rw [h1]; exact h2

/-- A step can come after steps of an independent reaction. -/
theorem Conf.pass (hb : ∀ r, (P.body r).Within (reads r) (writes r) (triggers r)) {r : Nat} {x : X} (hx : x.who ≠ r)
    (hi : Indep reads writes x.who r) {rest : List X} {c' : Conf Cell Val} : ∀ {l : List X} {c : Conf Cell Val},
    c.Ok reads writes triggers → (∀ y ∈ l, y.who = r) → c.exec P (x :: (l ++ rest)) = some c' →
    c.exec P (l ++ x :: rest) = some c'
  | [], c, h, hl, hs => hs
  | y :: l, c, h, hl, hs => by
    obtain ⟨c1, h1, h2⟩ := Conf.exec_cons hs
    obtain ⟨c3, h3, h4⟩ := Conf.exec_cons h2
    have ey : y.who = r := hl y (by simp)
    have hsw := Conf.swap hb h (x := x) (y := y) (by rw [ey]; exact hx) (by rw [ey]; exact hi) h1
    rw [h3] at hsw
    cases hy : c.step P y with
    | none => rw [hy] at hsw; cases hsw
    | some c2 =>
      rw [hy] at hsw
      exact Conf.exec_cons_of hy (Conf.pass hb hx hi (h.step hb hy) (fun z hz => hl z (by simp [hz])) (Conf.exec_cons_of hsw.symm h4))

/-- All steps of a reaction can come first, if those before them are steps of independent reactions. -/
theorem Conf.front (hb : ∀ r, (P.body r).Within (reads r) (writes r) (triggers r)) {r : Nat} {c' : Conf Cell Val} :
    ∀ {l : List X} {c : Conf Cell Val}, c.Ok reads writes triggers →
    l.Pairwise (fun x y => x.who ≠ r → y.who = r → Indep reads writes x.who r) → c.exec P l = some c' →
    c.exec P (l.filter (fun x => decide (x.who = r)) ++ l.filter (fun x => decide (x.who ≠ r))) = some c'
  | [], c, h, hl, hs => hs
  | x :: l, c, h, hl, hs => by
    rw [List.pairwise_cons] at hl
    obtain ⟨c1, h1, h2⟩ := Conf.exec_cons hs
    have ih := Conf.front hb (h.step hb h1) hl.2 h2
    by_cases hx : x.who = r
    · rw [List.filter_cons_of_pos (by simp [hx]), List.filter_cons_of_neg (by simp [hx])]
      exact Conf.exec_cons_of h1 ih
    · rw [List.filter_cons_of_neg (by simp [hx]), List.filter_cons_of_pos (by simp [hx])]
      cases hf : l.filter (fun x => decide (x.who = r)) with
      | nil => rw [hf] at ih; exact Conf.exec_cons_of h1 ih
      | cons z f =>
        rw [← hf]
        have hz : z ∈ l.filter (fun x => decide (x.who = r)) := by rw [hf]; simp
        rw [List.mem_filter, decide_eq_true_eq] at hz
        exact Conf.pass hb hx (hl.1 z hz.1 hx hz.2) h (fun y hy => by rw [List.mem_filter, decide_eq_true_eq] at hy; exact hy.2)
          (Conf.exec_cons_of h1 ih)

/-! ### A reaction by itself -/

/-- Steps of a reaction change only what it still has to do, what it may write and what it may trigger. -/
theorem Conf.step_other {c c1 : Conf Cell Val} {x : X} (h1 : c.step P x = some c1) {r : Nat} (hr : r ≠ x.who) :
    c1.code r = c.code r := by
  unfold Conf.step at h1
  cases hl : look P x.who c.cells x.kind (c.code x.who) with
  | none => rw [hl] at h1; cases h1
  | some e => rw [hl] at h1; cases h1; exact put_other _ _ hr

theorem Conf.exec_other {c' : Conf Cell Val} {r : Nat} : ∀ {l : List X} {c : Conf Cell Val}, c.exec P l = some c' →
    (∀ x ∈ l, x.who ≠ r) → c'.code r = c.code r
  | [], c, h, hr => by cases h; rfl
  | x :: l, c, h, hr => by
    obtain ⟨c1, h1, h2⟩ := Conf.exec_cons h
    rw [Conf.exec_other h2 (fun y hy => hr y (by simp [hy])), Conf.step_other h1 (fun e => hr x (by simp) e.symm)]

theorem Conf.step_trig {c c1 : Conf Cell Val} {x : X} (h1 : c.step P x = some c1) {r : Nat} (hr : c.trig r = true) :
    c1.trig r = true := by
  unfold Conf.step at h1
  cases hl : look P x.who c.cells x.kind (c.code x.who) with
  | none => rw [hl] at h1; cases h1
  | some e =>
    rw [hl] at h1; cases h1
    dsimp only
    cases e.2.2 with
    | none => exact hr
    | some q =>
      show put c.trig q true r = true
      unfold put
      split
      · rfl
      · exact hr

theorem Conf.exec_trig {c' : Conf Cell Val} {r : Nat} : ∀ {l : List X} {c : Conf Cell Val}, c.exec P l = some c' →
    c.trig r = true → c'.trig r = true
  | [], c, h, hr => by cases h; exact hr
  | x :: l, c, h, hr => by
    obtain ⟨c1, h1, h2⟩ := Conf.exec_cons h
    exact Conf.exec_trig h2 (Conf.step_trig h1 hr)

/-- Only reactions that may trigger it trigger a reaction. -/
theorem Conf.exec_trig_inv (hb : ∀ r, (P.body r).Within (reads r) (writes r) (triggers r)) {c' : Conf Cell Val} {r : Nat} :
    ∀ {l : List X} {c : Conf Cell Val}, c.Ok reads writes triggers → c.exec P l = some c' →
    (∀ x ∈ l, ¬ triggers x.who r) → c'.trig r = true → c.trig r = true
  | [], c, ho, h, hr, ht => by cases h; exact ht
  | x :: l, c, ho, h, hr, ht => by
    obtain ⟨c1, h1, h2⟩ := Conf.exec_cons h
    have k := Conf.exec_trig_inv hb (ho.step hb h1) h2 (fun y hy => hr y (by simp [hy])) ht
    have h1' := h1
    unfold Conf.step at h1'
    cases hl : look P x.who c.cells x.kind (c.code x.who) with
    | none => rw [hl] at h1'; cases h1'
    | some e =>
      rw [hl] at h1'; cases h1'
      have hw := (look_within hb (ho _) hl).2.2
      dsimp only at k
      cases he : e.2.2 with
      | none => rw [he] at k; exact k
      | some q =>
        rw [he] at k
        have k' : put c.trig q true r = true := k
        by_cases eq : r = q
        · exact (hr x (by simp) (by rw [eq]; exact hw q he)).elim
        · rw [put_other _ _ eq] at k'; exact k'

/-- A reaction that has been started and comes to its end by itself does what `Code.run` says. -/
theorem Conf.alone {r : Nat} {c' : Conf Cell Val} (hend : c'.code r = none) : ∀ {l : List X} {c : Conf Cell Val} {k : Code Cell Val},
    c.code r = some k → (∀ x ∈ l, x.who = r) → (∀ x ∈ l, x.kind ≠ .start) → c.exec P l = some c' →
    (c'.cells, c'.trig) = k.run (c.cells, c.trig)
  | [], c, k, hk, hl, hn, h => by cases h; rw [hk] at hend; cases hend
  | x :: l, c, k, hk, hl, hn, h => by
    obtain ⟨c1, h1, h2⟩ := Conf.exec_cons h
    have hx := hl x (by simp)
    have hl' : ∀ y ∈ l, y.who = r := fun y hy => hl y (by simp [hy])
    have hn' : ∀ y ∈ l, y.kind ≠ .start := fun y hy => hn y (by simp [hy])
    unfold Conf.step at h1
    rw [hx, hk] at h1
    cases hkind : x.kind with
    | start => exact (hn x (by simp) hkind).elim
    | act =>
      rw [hkind] at h1
      cases k with
      | read a k' => cases h1; have := Conf.alone hend (c := ⟨_, _, _⟩) (put_eq c.code r (some (k' (c.cells a)))) hl' hn' h2; exact this
      | write a v k' => cases h1; have := Conf.alone hend (c := ⟨_, _, _⟩) (put_eq c.code r (some k')) hl' hn' h2; exact this
      | trigger q k' => cases h1; have := Conf.alone hend (c := ⟨_, _, _⟩) (put_eq c.code r (some k')) hl' hn' h2; exact this
      | done => cases h1
    | finish =>
      rw [hkind] at h1
      cases k with
      | done =>
        cases h1
        cases l with
        | nil => cases h2; rfl
        | cons y l =>
          obtain ⟨c2, h3, _⟩ := Conf.exec_cons h2
          unfold Conf.step at h3
          have hy := hl' y (by simp)
          rw [hy] at h3
          dsimp only at h3
          rw [put_eq] at h3
          cases hky : y.kind with
          | start => exact (hn' y (by simp) hky).elim
          | act => rw [hky] at h3; cases h3
          | finish => rw [hky] at h3; cases h3
      | read a k' => cases h1
      | write a v k' => cases h1
      | trigger q k' => cases h1

end

end ReactorC.Det
