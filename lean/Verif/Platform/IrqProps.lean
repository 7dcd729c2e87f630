import Verif.Platform.Irq

/-!
# Critical sections by disabling interrupts exclude each other (C65)
-/

set_option linter.unusedVariables false

namespace ReactorC.Platform.Irq

variable {σ : Type}

/-! ## Specification -/

/-- Programs that enter and exit critical sections in pairs, and access the shared variable only in critical sections; `d` is the
number of critical sections they begin in, and `most` the greatest number they may be in. -/
def Bal (most : Nat → Prop) : Nat → List (Op σ) → Prop
  | 0, [] => True
  | _ + 1, [] => False
  | d, .enter :: p => most (d + 1) ∧ Bal most (d + 1) p
  | 0, .exit :: _ => False
  | d + 1, .exit :: p => Bal most d p
  | d, .update _ :: p => 0 < d ∧ Bal most d p

/-- Any number of nested critical sections. -/
def Nested : List (Op σ) → Prop := Bal (fun _ => True) 0

/-- Critical sections that are not nested. -/
def Flat : List (Op σ) → Prop := Bal (· ≤ 1) 0

/-- Updates (what has been read and the function; the latest first) that lead from `x` to `y`, none of which is lost or works with a
value that is out of date. -/
def Replays (x : σ) : List (σ × (σ → σ)) → σ → Prop
  | [], y => y = x
  | (r, f) :: l, y => Replays x l r ∧ y = f r

/-- Whoever is in a critical section is the one that executes, and whatever happens next is its own instruction. -/
def Exclusive (P : Platform) (m : Mode) (s : St σ) : Prop :=
  ∀ c ∈ s.stack, 0 < c.depth → s.stack.head? = some c ∧
    ∀ a t, s.act P m a = some t → ∃ c', t.stack = c' :: s.stack.tail

/-- Everything has been executed. -/
def St.Done (s : St σ) : Prop := ∀ c ∈ s.stack, c.code = [] ∧ c.prog = []

/-- What critical sections are for. -/
structure Works (P : Platform) (m : Mode) (x : σ) (s : St σ) : Prop where
  exclusive : Exclusive P m s
  /-- no update is lost -/
  updates : Replays x s.log s.var
  /-- all calls succeed -/
  success : s.err = false
  /-- interrupts are enabled outside of critical sections -/
  enabled : s.Done → s.irq = true ∧ s.count = 0

/-! ## Proof that is common to the platforms -/

/-- What a platform has to satisfy; `Ph b c irq n v`: `c` began with the count `b`, and the count is now `n`. -/
structure Sound (P : Platform) (nesting : Bool) (W : List (Op σ) → Prop)
    (Ph : Nat → Ctx σ → Bool → Nat → σ → Prop) : Prop where
  first : ∀ x v p, W p → Ph 0 (Ctx.new x p) true 0 v
  next : ∀ b c n v x p, Ph b c true n v → (nesting = true ∨ b = 0) → W p → Ph n (Ctx.new x p) true n v
  exec : ∀ m (s t : St σ) c l b, s.stack = c :: l → Ph b c s.irq s.count s.var → s.act P m .exec = some t →
    ∃ c', t.stack = c' :: l ∧ Ph b c' t.irq t.count t.var ∧ t.err = s.err ∧
      ((t.log = s.log ∧ t.var = s.var) ∨ ∃ f, t.log = (s.var, f) :: s.log ∧ t.var = f s.var)
  fin : ∀ b c irq n v, Ph b c irq n v → c.code = [] → c.prog = [] → n = b ∧ irq = true ∧ c.depth = 0
  quiet : ∀ b c n v, Ph b c true n v → (nesting = true ∨ b = 0) → c.depth = 0 ∧ ∀ v', Ph b c true n v'

inductive Stk (Ph : Nat → Ctx σ → Bool → Nat → σ → Prop) : List (Ctx σ) → Nat → Prop
  | nil : Stk Ph [] 0
  | cons {l b c n} : Stk Ph l b → (∀ v, Ph b c true n v) → c.depth = 0 → Stk Ph (c :: l) n

structure Inv (nesting : Bool) (Ph : Nat → Ctx σ → Bool → Nat → σ → Prop) (x : σ) (s : St σ) : Prop where
  stack : ∃ c l b, s.stack = c :: l ∧ Stk Ph l b ∧ Ph b c s.irq s.count s.var ∧ (nesting = false → l.length ≤ 1)
  err : s.err = false
  log : Replays x s.log s.var

theorem Stk.depth {Ph : Nat → Ctx σ → Bool → Nat → σ → Prop} {l : List (Ctx σ)} {n : Nat} (h : Stk Ph l n) :
    ∀ c ∈ l, c.depth = 0 := by
  induction h with
  | nil => intro c hc; cases hc
  | cons _ _ hd ih =>
    intro c hc
    rcases List.mem_cons.1 hc with rfl | hc
    · exact hd
    · exact ih c hc

theorem Stk.done {P : Platform} {nesting : Bool} {W : List (Op σ) → Prop} {Ph : Nat → Ctx σ → Bool → Nat → σ → Prop}
    (h : Sound P nesting W Ph) (v : σ) {l : List (Ctx σ)} {n : Nat} (hl : Stk Ph l n)
    (hd : ∀ c ∈ l, c.code = [] ∧ c.prog = []) : n = 0 := by
  induction hl with
  | nil => rfl
  | @cons l b c n _ hc _ ih =>
    obtain ⟨h1, h2⟩ := hd c List.mem_cons_self
    rw [(h.fin _ _ _ _ _ (hc v) h1 h2).1]
    exact ih fun c' hc' => hd c' (List.mem_cons_of_mem _ hc')

theorem Sound.inv {P : Platform} {nesting : Bool} {W : List (Op σ) → Prop} {Ph : Nat → Ctx σ → Bool → Nat → σ → Prop}
    (h : Sound P nesting W Ph) {x : σ} {s : St σ} (hr : Reach P ⟨nesting, false, false⟩ W x s) : Inv nesting Ph x s := by
  induction hr with
  | @start ps hW hp =>
    have hp : ps.length = 1 := by rcases hp with hp | hp; exact absurd hp (by simp); exact hp
    obtain ⟨p, rfl⟩ := List.length_eq_one_iff.1 hp
    exact ⟨⟨Ctx.new x p, [], 0, rfl, .nil, h.first _ _ _ (hW p List.mem_cons_self), fun _ => Nat.zero_le _⟩, rfl, rfl⟩
  | @step s t a _ hW hx ih =>
    obtain ⟨⟨c, l, b, hs, hl, hc, hlen⟩, herr, hlog⟩ := ih
    cases a with
    | exec =>
      obtain ⟨c', h1, h2, h3, h4⟩ := h.exec _ s t c l b hs hc hx
      refine ⟨⟨c', l, b, h1, hl, h2, hlen⟩, h3.trans herr, ?_⟩
      rcases h4 with ⟨e1, e2⟩ | ⟨f, e1, e2⟩
      · rw [e1, e2]; exact hlog
      · rw [e1]; exact ⟨hlog, e2⟩
    | interrupt p =>
      unfold St.act at hx
      dsimp only at hx
      split_ifs at hx with hif
      cases hx
      obtain ⟨hirq, hn⟩ := hif
      rw [hirq] at hc
      have hb : nesting = true ∨ b = 0 := by
        rcases hn with hn | hn
        · exact .inl hn
        · rw [hs] at hn
          cases l with
          | nil => cases hl; exact .inr rfl
          | cons _ _ => simp at hn
      obtain ⟨q1, q2⟩ := h.quiet _ _ _ _ hc hb
      refine ⟨⟨Ctx.new s.var p, s.stack, s.count, rfl, ?_, ?_, ?_⟩, herr, hlog⟩
      · rw [hs]; exact .cons hl q2 q1
      · show Ph s.count (Ctx.new s.var p) s.irq s.count s.var
        rw [hirq]
        exact h.next _ _ _ _ _ _ hc hb (hW p rfl)
      · intro hf
        rcases hn with hn | hn
        · rw [hf] at hn; cases hn
        · exact hn
    | ret =>
      unfold St.act at hx
      dsimp only at hx
      rw [hs] at hx
      cases hl with
      | nil => simp at hx
      | @cons l' b' c' n hl hc' hd =>
        dsimp only at hx
        split_ifs at hx with hif
        cases hx
        obtain ⟨f1, f2, _⟩ := h.fin _ _ _ _ _ hc hif.1 (by simpa using hif.2)
        refine ⟨⟨c', l', b', rfl, hl, ?_, fun hf => ?_⟩, herr, hlog⟩
        · show Ph b' c' s.irq s.count s.var
          rw [f1, f2]; exact hc' _
        · have := hlen hf
          simp only [List.length_cons] at this
          omega
    | switch i =>
      unfold St.act at hx
      simp at hx

theorem Sound.works {P : Platform} {nesting : Bool} {W : List (Op σ) → Prop} {Ph : Nat → Ctx σ → Bool → Nat → σ → Prop}
    (h : Sound P nesting W Ph) {x : σ} {s : St σ} (hr : Reach P ⟨nesting, false, false⟩ W x s) :
    Works P ⟨nesting, false, false⟩ x s := by
  obtain ⟨⟨c, l, b, hs, hl, hc, hlen⟩, herr, hlog⟩ := h.inv hr
  refine ⟨?_, hlog, herr, ?_⟩
  · intro c' hc' hd
    have he : c' = c := by
      rw [hs] at hc'
      rcases List.mem_cons.1 hc' with e | e
      · exact e
      · have := hl.depth c' e; omega
    subst he
    refine ⟨by rw [hs]; rfl, fun a t hx => ?_⟩
    cases a with
    | exec =>
      obtain ⟨c'', h1, _⟩ := h.exec _ s t c' l b hs hc hx
      exact ⟨c'', by rw [h1, hs]; rfl⟩
    | interrupt p =>
      exfalso
      unfold St.act at hx
      dsimp only at hx
      split_ifs at hx with hif
      obtain ⟨hirq, hn⟩ := hif
      rw [hirq] at hc
      have hb : nesting = true ∨ b = 0 := by
        rcases hn with hn | hn
        · exact .inl hn
        · rw [hs] at hn
          cases l with
          | nil => cases hl; exact .inr rfl
          | cons _ _ => simp at hn
      have := (h.quiet _ _ _ _ hc hb).1
      omega
    | ret =>
      exfalso
      unfold St.act at hx
      dsimp only at hx
      rw [hs] at hx
      cases l with
      | nil => simp at hx
      | cons c2 l2 =>
        dsimp only at hx
        split_ifs at hx with hif
        have := (h.fin _ _ _ _ _ hc hif.1 (by simpa using hif.2)).2.2
        omega
    | switch i => unfold St.act at hx; simp at hx
  · intro hdone
    have hcd := hdone c (by rw [hs]; exact List.mem_cons_self)
    obtain ⟨f1, f2, _⟩ := h.fin _ _ _ _ _ hc hcd.1 hcd.2
    refine ⟨f2, ?_⟩
    rw [f1]
    refine hl.done h s.var fun c' hc' => hdone c' (by rw [hs]; exact List.mem_cons_of_mem _ hc')

theorem Bal.enter {M : Nat → Prop} {d : Nat} {p : List (Op σ)} (h : Bal M d (.enter :: p)) : M (d + 1) ∧ Bal M (d + 1) p := by
  cases d <;> exact h

theorem Bal.exit {M : Nat → Prop} {d : Nat} {p : List (Op σ)} (h : Bal M d (.exit :: p)) : ∃ d', d = d' + 1 ∧ Bal M d' p := by
  cases d with
  | zero => exact h.elim
  | succ d => exact ⟨d, rfl, h⟩

theorem Bal.update {M : Nat → Prop} {d : Nat} {f : σ → σ} {p : List (Op σ)} (h : Bal M d (.update f :: p)) : 0 < d ∧ Bal M d p := by
  cases d <;> exact h

theorem Bal.nil {M : Nat → Prop} {d : Nat} (h : Bal (σ := σ) M d []) : d = 0 := by
  cases d with
  | zero => rfl
  | succ d => exact h.elim

/-! ## RP2040 -/

/-- Where `c` can be, on the RP2040. -/
inductive PhR : Nat → Ctx σ → Bool → Nat → σ → Prop
  | idle {p reg tmp fn d v irq} : Bal (fun _ => True) d p → (irq = true ↔ d = 0) → PhR 0 ⟨p, [], reg, tmp, fn, d⟩ irq d v
  | upd {p reg tmp fn d v} : Bal (fun _ => True) d p → 0 < d → PhR 0 ⟨p, [.read, .write], reg, tmp, fn, d⟩ false d v
  | wr {p reg fn d v} : Bal (fun _ => True) d p → 0 < d → PhR 0 ⟨p, [.write], reg, v, fn, d⟩ false d v
  | e1 {p reg tmp fn d v irq} : Bal (fun _ => True) (d + 1) p → (irq = true ↔ d = 0) →
      PhR 0 ⟨p, [.load, .lockIfZero, .load, .storeInc, .entered], reg, tmp, fn, d⟩ irq d v
  | e2 {p tmp fn d v irq} : Bal (fun _ => True) (d + 1) p → (irq = true ↔ d = 0) →
      PhR 0 ⟨p, [.lockIfZero, .load, .storeInc, .entered], d, tmp, fn, d⟩ irq d v
  | e3 {p reg tmp fn d v} : Bal (fun _ => True) (d + 1) p → PhR 0 ⟨p, [.load, .storeInc, .entered], reg, tmp, fn, d⟩ false d v
  | e4 {p tmp fn d v} : Bal (fun _ => True) (d + 1) p → PhR 0 ⟨p, [.storeInc, .entered], d, tmp, fn, d⟩ false d v
  | e5 {p reg tmp fn d v} : Bal (fun _ => True) (d + 1) p → PhR 0 ⟨p, [.entered], reg, tmp, fn, d⟩ false (d + 1) v
  | x1 {p reg tmp fn d v} : Bal (fun _ => True) d p →
      PhR 0 ⟨p, [.leaving, .load, .errIfZero, .storeDec, .unlockIfOne], reg, tmp, fn, d + 1⟩ false (d + 1) v
  | x2 {p reg tmp fn d v} : Bal (fun _ => True) d p →
      PhR 0 ⟨p, [.load, .errIfZero, .storeDec, .unlockIfOne], reg, tmp, fn, d⟩ false (d + 1) v
  | x3 {p tmp fn d v} : Bal (fun _ => True) d p → PhR 0 ⟨p, [.errIfZero, .storeDec, .unlockIfOne], d + 1, tmp, fn, d⟩ false (d + 1) v
  | x4 {p tmp fn d v} : Bal (fun _ => True) d p → PhR 0 ⟨p, [.storeDec, .unlockIfOne], d + 1, tmp, fn, d⟩ false (d + 1) v
  | x5 {p tmp fn d v} : Bal (fun _ => True) d p → PhR 0 ⟨p, [.unlockIfOne], d + 1, tmp, fn, d⟩ false d v

theorem PhR.sound : Sound (σ := σ) rp2040 true Nested PhR where
  first := fun x v p h => .idle h (by simp)
  next := by
    intro b c n v x p h _ hp
    have hn : n = 0 := by
      cases h with
      | idle _ h => exact h.1 rfl
      | e1 _ h => exact h.1 rfl
      | e2 _ h => exact h.1 rfl
    subst hn
    exact .idle hp (by simp)
  exec := by
    intro m s t c l b hs h hx
    obtain ⟨irq, count, var, err, log, stack⟩ := s
    dsimp only at hs h
    subst hs
    cases h with
    | @idle p reg tmp fn d v irq hb hi =>
      cases p with
      | nil => simp [St.act] at hx
      | cons op p =>
        simp only [St.act, Option.some.injEq] at hx
        subst hx
        cases op with
        | enter => exact ⟨_, rfl, .e1 hb.enter.2 hi, rfl, .inl ⟨rfl, rfl⟩⟩
        | exit =>
          obtain ⟨d', rfl, hb⟩ := hb.exit
          have : irq = false := by cases irq; rfl; exact absurd (hi.1 rfl) (by omega)
          subst this
          exact ⟨_, rfl, .x1 hb, rfl, .inl ⟨rfl, rfl⟩⟩
        | update f =>
          obtain ⟨hd, hb⟩ := hb.update
          have : irq = false := by cases irq; rfl; exact absurd (hi.1 rfl) (by omega)
          subst this
          exact ⟨_, rfl, .upd hb hd, rfl, .inl ⟨rfl, rfl⟩⟩
    | upd hb hd =>
      cases hx
      exact ⟨_, rfl, .wr hb hd, rfl, .inl ⟨rfl, rfl⟩⟩
    | wr hb hd =>
      cases hx
      exact ⟨_, rfl, .idle hb (by show false = true ↔ _; simp; omega), rfl, .inr ⟨_, rfl, rfl⟩⟩
    | e1 hb hi =>
      cases hx
      exact ⟨_, rfl, .e2 hb hi, rfl, .inl ⟨rfl, rfl⟩⟩
    | @e2 p tmp fn d v irq hb hi =>
      simp only [St.act, St.micro, Option.some.injEq] at hx
      have : (if count = 0 then false else irq) = false := by
        split_ifs with h
        · rfl
        · cases irq; rfl; exact absurd (hi.1 rfl) h
      rw [this] at hx
      subst hx
      exact ⟨_, rfl, .e3 hb, rfl, .inl ⟨rfl, rfl⟩⟩
    | e3 hb =>
      cases hx
      exact ⟨_, rfl, .e4 hb, rfl, .inl ⟨rfl, rfl⟩⟩
    | e4 hb =>
      cases hx
      exact ⟨_, rfl, .e5 hb, rfl, .inl ⟨rfl, rfl⟩⟩
    | e5 hb =>
      cases hx
      exact ⟨_, rfl, .idle hb (by show false = true ↔ _; simp), rfl, .inl ⟨rfl, rfl⟩⟩
    | x1 hb =>
      cases hx
      exact ⟨_, rfl, .x2 hb, rfl, .inl ⟨rfl, rfl⟩⟩
    | x2 hb =>
      cases hx
      exact ⟨_, rfl, .x3 hb, rfl, .inl ⟨rfl, rfl⟩⟩
    | x3 hb =>
      cases hx
      exact ⟨_, rfl, .x4 hb, rfl, .inl ⟨rfl, rfl⟩⟩
    | x4 hb =>
      cases hx
      exact ⟨_, rfl, .x5 hb, rfl, .inl ⟨rfl, rfl⟩⟩
    | @x5 p tmp fn d v hb =>
      cases hx
      refine ⟨_, rfl, .idle hb ?_, rfl, .inl ⟨rfl, rfl⟩⟩
      show (if count + 1 = 1 then true else false) = true ↔ _
      split_ifs <;> simp <;> omega
  fin := by
    intro b c irq n v h h1 h2
    cases h with
    | @idle p reg tmp fn d v irq hb hi =>
      dsimp only at h2
      subst h2
      have := hb.nil
      exact ⟨this, hi.2 this, this⟩
    | _ => cases h1
  quiet := by
    intro b c n v h _
    cases h with
    | idle hb hi => exact ⟨hi.1 rfl, fun v' => .idle hb hi⟩
    | e1 hb hi => exact ⟨hi.1 rfl, fun v' => .e1 hb hi⟩
    | e2 hb hi => exact ⟨hi.1 rfl, fun v' => .e2 hb hi⟩

/-! ## Zephyr and Patmos -/

/-- Where `c` can be, on Zephyr and Patmos, when it began with the count `b`. -/
inductive PhZ : Nat → Ctx σ → Bool → Nat → σ → Prop
  | idle {b p reg tmp fn d v irq} : Bal (fun _ => True) d p → (irq = true ↔ 0 < b ∨ d = 0) →
      PhZ b ⟨p, [], reg, tmp, fn, d⟩ irq (b + d) v
  | upd {b p reg tmp fn d v irq} : Bal (fun _ => True) d p → 0 < d → (irq = true ↔ 0 < b) →
      PhZ b ⟨p, [.read, .write], reg, tmp, fn, d⟩ irq (b + d) v
  | wr {b p reg fn d v irq} : Bal (fun _ => True) d p → 0 < d → (irq = true ↔ 0 < b) →
      PhZ b ⟨p, [.write], reg, v, fn, d⟩ irq (b + d) v
  | e1 {b p reg tmp fn d v irq} : Bal (fun _ => True) (d + 1) p → (irq = true ↔ 0 < b ∨ d = 0) →
      PhZ b ⟨p, [.load, .storeInc, .lockIfZero, .entered], reg, tmp, fn, d⟩ irq (b + d) v
  | e2 {b p tmp fn d v irq} : Bal (fun _ => True) (d + 1) p → (irq = true ↔ 0 < b ∨ d = 0) →
      PhZ b ⟨p, [.storeInc, .lockIfZero, .entered], b + d, tmp, fn, d⟩ irq (b + d) v
  | e3 {b p tmp fn d v irq} : Bal (fun _ => True) (d + 1) p → (irq = true ↔ 0 < b ∨ d = 0) →
      PhZ b ⟨p, [.lockIfZero, .entered], b + d, tmp, fn, d⟩ irq (b + d + 1) v
  | e4 {b p reg tmp fn d v irq} : Bal (fun _ => True) (d + 1) p → (irq = true ↔ 0 < b) →
      PhZ b ⟨p, [.entered], reg, tmp, fn, d⟩ irq (b + d + 1) v
  | x1 {b p reg tmp fn d v irq} : Bal (fun _ => True) d p → (irq = true ↔ 0 < b) →
      PhZ b ⟨p, [.leaving, .load, .errIfZero, .storeDec, .unlockIfOne], reg, tmp, fn, d + 1⟩ irq (b + d + 1) v
  | x2 {b p reg tmp fn d v irq} : Bal (fun _ => True) d p → (irq = true ↔ 0 < b) →
      PhZ b ⟨p, [.load, .errIfZero, .storeDec, .unlockIfOne], reg, tmp, fn, d⟩ irq (b + d + 1) v
  | x3 {b p tmp fn d v irq} : Bal (fun _ => True) d p → (irq = true ↔ 0 < b) →
      PhZ b ⟨p, [.errIfZero, .storeDec, .unlockIfOne], b + d + 1, tmp, fn, d⟩ irq (b + d + 1) v
  | x4 {b p tmp fn d v irq} : Bal (fun _ => True) d p → (irq = true ↔ 0 < b) →
      PhZ b ⟨p, [.storeDec, .unlockIfOne], b + d + 1, tmp, fn, d⟩ irq (b + d + 1) v
  | x5 {b p tmp fn d v irq} : Bal (fun _ => True) d p → (irq = true ↔ 0 < b) →
      PhZ b ⟨p, [.unlockIfOne], b + d + 1, tmp, fn, d⟩ irq (b + d) v

theorem PhZ.sound : Sound (σ := σ) zephyr false Nested PhZ where
  first := fun x v p h => .idle (d := 0) h (by simp)
  next := fun b c n v x p h _ hp => .idle (d := 0) hp (by simp)
  exec := by
    intro m s t c l b hs h hx
    obtain ⟨irq, count, var, err, log, stack⟩ := s
    dsimp only at hs h
    subst hs
    cases h with
    | @idle p reg tmp fn d v irq hb hi =>
      cases p with
      | nil => simp [St.act] at hx
      | cons op p =>
        simp only [St.act, Option.some.injEq] at hx
        subst hx
        cases op with
        | enter => exact ⟨_, rfl, .e1 hb.enter.2 hi, rfl, .inl ⟨rfl, rfl⟩⟩
        | exit =>
          obtain ⟨d', rfl, hb⟩ := hb.exit
          exact ⟨_, rfl, .x1 hb (by rw [hi]; omega), rfl, .inl ⟨rfl, rfl⟩⟩
        | update f =>
          obtain ⟨hd, hb⟩ := hb.update
          exact ⟨_, rfl, .upd hb hd (by rw [hi]; omega), rfl, .inl ⟨rfl, rfl⟩⟩
    | upd hb hd hi =>
      cases hx
      exact ⟨_, rfl, .wr hb hd hi, rfl, .inl ⟨rfl, rfl⟩⟩
    | wr hb hd hi =>
      cases hx
      exact ⟨_, rfl, .idle hb (hi.trans (by dsimp only; omega)), rfl, .inr ⟨_, rfl, rfl⟩⟩
    | e1 hb hi =>
      cases hx
      exact ⟨_, rfl, .e2 hb hi, rfl, .inl ⟨rfl, rfl⟩⟩
    | e2 hb hi =>
      cases hx
      exact ⟨_, rfl, .e3 hb hi, rfl, .inl ⟨rfl, rfl⟩⟩
    | @e3 p tmp fn d v irq hb hi =>
      cases hx
      refine ⟨_, rfl, .e4 hb ?_, rfl, .inl ⟨rfl, rfl⟩⟩
      show (if b + d = 0 then false else irq) = true ↔ 0 < b
      split_ifs with h0
      · simp only [Bool.false_eq_true, false_iff]; omega
      · rw [hi]; omega
    | e4 hb hi =>
      cases hx
      exact ⟨_, rfl, .idle hb (hi.trans (by omega)), rfl, .inl ⟨rfl, rfl⟩⟩
    | x1 hb hi =>
      cases hx
      exact ⟨_, rfl, .x2 hb hi, rfl, .inl ⟨rfl, rfl⟩⟩
    | x2 hb hi =>
      cases hx
      exact ⟨_, rfl, .x3 hb hi, rfl, .inl ⟨rfl, rfl⟩⟩
    | x3 hb hi =>
      cases hx
      exact ⟨_, rfl, .x4 hb hi, rfl, .inl ⟨rfl, rfl⟩⟩
    | x4 hb hi =>
      cases hx
      exact ⟨_, rfl, .x5 hb hi, rfl, .inl ⟨rfl, rfl⟩⟩
    | @x5 p tmp fn d v irq hb hi =>
      cases hx
      refine ⟨_, rfl, .idle hb ?_, rfl, .inl ⟨rfl, rfl⟩⟩
      show (if b + d + 1 = 1 then true else irq) = true ↔ 0 < b ∨ d = 0
      split_ifs with h0
      · simp only [true_iff]; omega
      · rw [hi]; omega
  fin := by
    intro b c irq n v h h1 h2
    cases h with
    | @idle p reg tmp fn d v irq hb hi =>
      dsimp only at h2
      subst h2
      have := hb.nil
      exact ⟨by omega, hi.2 (.inr this), this⟩
    | _ => cases h1
  quiet := by
    intro b c n v h hn
    rcases hn with hn | rfl
    · cases hn
    generalize hb0 : 0 = b at h
    generalize ht : true = irq at h
    cases h with
    | idle hb hi => exact ⟨by have := hi.1 ht.symm; dsimp only; omega, fun v' => .idle hb hi⟩
    | upd hb hd hi => have := hi.1 ht.symm; omega
    | wr hb hd hi => have := hi.1 ht.symm; omega
    | e1 hb hi => exact ⟨by have := hi.1 ht.symm; dsimp only; omega, fun v' => .e1 hb hi⟩
    | e2 hb hi => exact ⟨by have := hi.1 ht.symm; dsimp only; omega, fun v' => .e2 hb hi⟩
    | e3 hb hi => exact ⟨by have := hi.1 ht.symm; dsimp only; omega, fun v' => .e3 hb hi⟩
    | e4 hb hi => have := hi.1 ht.symm; omega
    | x1 hb hi => have := hi.1 ht.symm; omega
    | x2 hb hi => have := hi.1 ht.symm; omega
    | x3 hb hi => have := hi.1 ht.symm; omega
    | x4 hb hi => have := hi.1 ht.symm; omega
    | x5 hb hi => have := hi.1 ht.symm; omega

/-! ## nRF52 -/

/-- Where `c` can be, on the nRF52, when it began with the count `b`. -/
inductive PhN : Nat → Ctx σ → Bool → Nat → σ → Prop
  | idle {b p reg tmp fn d v irq} : Bal (· ≤ 1) d p → d ≤ 1 → (irq = true ↔ d = 0) → PhN b ⟨p, [], reg, tmp, fn, d⟩ irq (b + d) v
  | upd {b p reg tmp fn v} : Bal (· ≤ 1) 1 p → PhN b ⟨p, [.read, .write], reg, tmp, fn, 1⟩ false (b + 1) v
  | wr {b p reg fn v} : Bal (· ≤ 1) 1 p → PhN b ⟨p, [.write], reg, v, fn, 1⟩ false (b + 1) v
  | e1 {b p reg tmp fn v} : Bal (· ≤ 1) 1 p → PhN b ⟨p, [.load, .storeInc, .lock, .entered], reg, tmp, fn, 0⟩ true b v
  | e2 {b p tmp fn v} : Bal (· ≤ 1) 1 p → PhN b ⟨p, [.storeInc, .lock, .entered], b, tmp, fn, 0⟩ true b v
  | e3 {b p reg tmp fn v} : Bal (· ≤ 1) 1 p → PhN b ⟨p, [.lock, .entered], reg, tmp, fn, 0⟩ true (b + 1) v
  | e4 {b p reg tmp fn v} : Bal (· ≤ 1) 1 p → PhN b ⟨p, [.entered], reg, tmp, fn, 0⟩ false (b + 1) v
  | x1 {b p reg tmp fn v} : Bal (· ≤ 1) 0 p →
      PhN b ⟨p, [.leaving, .load, .errIfZero, .storeDec, .unlock], reg, tmp, fn, 1⟩ false (b + 1) v
  | x2 {b p reg tmp fn v} : Bal (· ≤ 1) 0 p → PhN b ⟨p, [.load, .errIfZero, .storeDec, .unlock], reg, tmp, fn, 0⟩ false (b + 1) v
  | x3 {b p tmp fn v} : Bal (· ≤ 1) 0 p → PhN b ⟨p, [.errIfZero, .storeDec, .unlock], b + 1, tmp, fn, 0⟩ false (b + 1) v
  | x4 {b p tmp fn v} : Bal (· ≤ 1) 0 p → PhN b ⟨p, [.storeDec, .unlock], b + 1, tmp, fn, 0⟩ false (b + 1) v
  | x5 {b p reg tmp fn v} : Bal (· ≤ 1) 0 p → PhN b ⟨p, [.unlock], reg, tmp, fn, 0⟩ false b v

theorem PhN.sound : Sound (σ := σ) nrf52 true Flat PhN where
  first := fun x v p h => .idle (d := 0) h (by simp) (by simp)
  next := fun b c n v x p h _ hp => .idle (d := 0) hp (by simp) (by simp)
  exec := by
    intro m s t c l b hs h hx
    obtain ⟨irq, count, var, err, log, stack⟩ := s
    dsimp only at hs h
    subst hs
    cases h with
    | @idle p reg tmp fn d v irq hb hd hi =>
      cases p with
      | nil => simp [St.act] at hx
      | cons op p =>
        simp only [St.act, Option.some.injEq] at hx
        subst hx
        cases op with
        | enter =>
          obtain ⟨h1, h2⟩ := hb.enter
          have h0 : d = 0 := by omega
          subst h0
          have := hi.2 rfl
          subst this
          exact ⟨_, rfl, .e1 h2, rfl, .inl ⟨rfl, rfl⟩⟩
        | exit =>
          obtain ⟨d', rfl, hb⟩ := hb.exit
          have h0 : d' = 0 := by omega
          subst h0
          have : irq = false := by cases irq; rfl; exact absurd (hi.1 rfl) (by omega)
          subst this
          exact ⟨_, rfl, .x1 hb, rfl, .inl ⟨rfl, rfl⟩⟩
        | update f =>
          obtain ⟨h1, hb⟩ := hb.update
          have h0 : d = 1 := by omega
          subst h0
          have : irq = false := by cases irq; rfl; exact absurd (hi.1 rfl) (by omega)
          subst this
          exact ⟨_, rfl, .upd hb, rfl, .inl ⟨rfl, rfl⟩⟩
    | upd hb =>
      cases hx
      exact ⟨_, rfl, .wr hb, rfl, .inl ⟨rfl, rfl⟩⟩
    | wr hb =>
      cases hx
      exact ⟨_, rfl, .idle hb (Nat.le_refl _) (by show false = true ↔ _; simp), rfl, .inr ⟨_, rfl, rfl⟩⟩
    | e1 hb =>
      cases hx
      exact ⟨_, rfl, .e2 hb, rfl, .inl ⟨rfl, rfl⟩⟩
    | e2 hb =>
      cases hx
      exact ⟨_, rfl, .e3 hb, rfl, .inl ⟨rfl, rfl⟩⟩
    | e3 hb =>
      cases hx
      exact ⟨_, rfl, .e4 hb, rfl, .inl ⟨rfl, rfl⟩⟩
    | e4 hb =>
      cases hx
      exact ⟨_, rfl, .idle hb (Nat.le_refl _) (by show false = true ↔ _; simp), rfl, .inl ⟨rfl, rfl⟩⟩
    | x1 hb =>
      cases hx
      exact ⟨_, rfl, .x2 hb, rfl, .inl ⟨rfl, rfl⟩⟩
    | x2 hb =>
      cases hx
      exact ⟨_, rfl, .x3 hb, rfl, .inl ⟨rfl, rfl⟩⟩
    | x3 hb =>
      cases hx
      exact ⟨_, rfl, .x4 hb, rfl, .inl ⟨rfl, rfl⟩⟩
    | x4 hb =>
      cases hx
      exact ⟨_, rfl, .x5 hb, rfl, .inl ⟨rfl, rfl⟩⟩
    | x5 hb =>
      cases hx
      exact ⟨_, rfl, .idle (d := 0) hb (Nat.zero_le _) (by show true = true ↔ _; simp), rfl, .inl ⟨rfl, rfl⟩⟩
  fin := by
    intro b c irq n v h h1 h2
    cases h with
    | @idle p reg tmp fn d v irq hb hd hi =>
      dsimp only at h2
      subst h2
      have := hb.nil
      exact ⟨by omega, hi.2 this, this⟩
    | _ => cases h1
  quiet := by
    intro b c n v h _
    cases h with
    | idle hb hd hi => exact ⟨hi.1 rfl, fun v' => .idle hb hd hi⟩
    | e1 hb => exact ⟨rfl, fun v' => .e1 hb⟩
    | e2 hb => exact ⟨rfl, fun v' => .e2 hb⟩
    | e3 hb => exact ⟨rfl, fun v' => .e3 hb⟩

/-! ## The property -/

/-- RP2040, with one core: critical sections work, however they are nested and however interrupt service routines interrupt each
other. -/
theorem C65_rp2040_critical_sections {x : σ} {s : St σ} (h : Reach rp2040 ⟨true, false, false⟩ Nested x s) :
    Works rp2040 ⟨true, false, false⟩ x s := PhR.sound.works h

/-- Zephyr and Patmos, without threads: critical sections work, however they are nested, if interrupt service routines are not
interrupted. -/
theorem C65_zephyr_critical_sections_partial {x : σ} {s : St σ} (h : Reach zephyr ⟨false, false, false⟩ Nested x s) :
    Works zephyr ⟨false, false, false⟩ x s := PhZ.sound.works h

/-- nRF52: critical sections work, however interrupt service routines interrupt each other, if they are not nested. -/
theorem C65_nrf52_critical_sections_partial {x : σ} {s : St σ} (h : Reach nrf52 ⟨true, false, false⟩ Flat x s) :
    Works nrf52 ⟨true, false, false⟩ x s := PhN.sound.works h

/-! ## Non-vacuity and disagreements -/

theorem Reach.acts {P : Platform} {m : Mode} {W : List (Op σ) → Prop} {x : σ} : ∀ (l : List (Act σ)) {s t : St σ},
    Reach P m W x s → (∀ a ∈ l, ∀ p, a = .interrupt p → W p) → s.acts P m l = some t → Reach P m W x t
  | [], s, t, h, _, e => by cases e; exact h
  | a :: l, s, t, h, hW, e => by
    unfold St.acts at e
    obtain ⟨u, h1, h2⟩ := Option.bind_eq_some_iff.1 e
    exact Reach.acts l (h.step (hW a List.mem_cons_self) h1) (fun b hb => hW b (List.mem_cons_of_mem _ hb)) h2

/-- `lf_atomic_fetch_add(&x, 1)`. -/
def inc : List (Op Nat) := [.enter, .update (· + 1), .exit]

/-- Does something `n` times. -/
def go (n : Nat) : List (Act Nat) := List.replicate n .exec

theorem inc_nested : Nested inc := by simp [Nested, inc, Bal]
theorem inc_flat : Flat inc := by simp [Flat, inc, Bal]

/-- Whether everything has been executed, the variable, the number of updates, whether interrupts are enabled, and whether some call
failed. -/
def St.obs (s : St Nat) : Bool × Nat × Nat × Bool × Bool :=
  (s.stack.all fun c => c.code.isEmpty && c.prog.isEmpty, s.var, s.log.length, s.irq, s.err)

theorem run_ex {P : Platform} {m : Mode} {W : List (Op Nat) → Prop} (ps : List (List (Op Nat))) (l : List (Act Nat))
    (hps : ∀ p ∈ ps, W p) (hm : m.threads = true ∨ ps.length = 1) (hW : ∀ a ∈ l, ∀ p, a = .interrupt p → W p)
    {n k : Nat} {i e : Bool} (hQ : ((St.start 0 ps).acts P m l).map St.obs = some (true, n, k, i, e)) :
    ∃ s, Reach P m W 0 s ∧ s.Done ∧ s.var = n ∧ s.log.length = k ∧ s.irq = i ∧ s.err = e := by
  obtain ⟨t, h1, h2⟩ := Option.map_eq_some_iff.1 hQ
  simp only [St.obs, Prod.mk.injEq] at h2
  refine ⟨t, Reach.acts l (.start hps hm) hW h1, ?_, h2.2⟩
  intro c hc
  have := List.all_eq_true.1 h2.1 c hc
  simpa using this

theorem all_ints {W : List (Op Nat) → Prop} {l : List (Act Nat)}
    (h : l.Forall fun a => match a with | .interrupt p => W p | _ => True) : ∀ a ∈ l, ∀ p, a = .interrupt p → W p := by
  intro a ha p e
  subst e
  exact List.forall_iff_forall_mem.1 h _ ha

/-- RP2040: a program interrupted on its way into a critical section, by an interrupt that is interrupted in its turn; three
increments are three. -/
example : ∃ s, Reach rp2040 ⟨true, false, false⟩ Nested 0 s ∧ s.Done ∧ s.var = 3 ∧ s.log.length = 3 ∧ s.irq = true ∧ s.err = false :=
  run_ex [inc] (go 2 ++ [.interrupt inc] ++ go 1 ++ [.interrupt inc] ++ go 15 ++ [.ret] ++ go 14 ++ [.ret] ++ go 13)
    (by simpa using inc_nested) (.inr rfl) (all_ints (by simp [go, inc_nested]))
    (by decide +kernel)

/-- Zephyr: an interrupt between counting a critical section and disabling interrupts. -/
example : ∃ s, Reach zephyr ⟨false, false, false⟩ Nested 0 s ∧ s.Done ∧ s.var = 2 ∧ s.log.length = 2 ∧ s.irq = true ∧ s.err = false :=
  run_ex [inc] (go 3 ++ [.interrupt inc] ++ go 14 ++ [.ret] ++ go 11)
    (by simpa using inc_nested) (.inr rfl) (all_ints (by simp [go, inc_nested])) (by decide +kernel)

/-- nRF52: the same, with an interrupt that is interrupted. -/
example : ∃ s, Reach nrf52 ⟨true, false, false⟩ Flat 0 s ∧ s.Done ∧ s.var = 3 ∧ s.log.length = 3 ∧ s.irq = true ∧ s.err = false :=
  run_ex [inc] (go 3 ++ [.interrupt inc] ++ go 2 ++ [.interrupt inc] ++ go 14 ++ [.ret] ++ go 12 ++ [.ret] ++ go 11)
    (by simpa using inc_flat) (.inr rfl) (all_ints (by simp [go, inc_flat])) (by decide +kernel)

/-- Zephyr, Patmos: when an interrupt comes between counting a critical section and disabling interrupts, the critical sections of its
service routine are not protected; if it is interrupted there, an update is lost: three increments are two. -/
theorem C65_zephyr_nested_interrupts_lose_updates : ∃ s, Reach zephyr ⟨true, false, false⟩ (· = inc) 0 s ∧
    s.Done ∧ s.var = 2 ∧ s.log.length = 3 ∧ s.irq = true ∧ s.err = false :=
  run_ex [inc] (go 3 ++ [.interrupt inc] ++ go 7 ++ [.interrupt inc] ++ go 14 ++ [.ret] ++ go 7 ++ [.ret] ++ go 11)
    (by simp) (.inr rfl) (all_ints (by simp [go])) (by decide +kernel)

/-- Zephyr: so does a change of threads between counting and disabling interrupts: `lf_atomic_fetch_add` by three threads adds
two. -/
theorem C65_zephyr_threads_lose_updates : ∃ s, Reach zephyr ⟨false, true, false⟩ (· = inc) 0 s ∧
    s.Done ∧ s.var = 2 ∧ s.log.length = 3 ∧ s.irq = true ∧ s.err = false :=
  run_ex [inc, inc, inc] (go 3 ++ [.switch 1] ++ go 7 ++ [.switch 2] ++ go 14 ++ [.switch 1] ++ go 7 ++ [.switch 2] ++ go 11)
    (by simp) (.inl rfl) (all_ints (by simp [go])) (by decide +kernel)

/-- nRF52: the exit of an inner critical section enables interrupts in the outer one; two increments are one. -/
theorem C65_nrf52_nested_sections_lose_updates : ∃ s, Reach nrf52 ⟨false, false, false⟩
      (fun p => p = inc ∨ p = [.enter, .enter, .exit, .update (· + 1), .exit]) 0 s ∧
    s.Done ∧ s.var = 1 ∧ s.log.length = 2 ∧ s.irq = true ∧ s.err = false :=
  run_ex [[.enter, .enter, .exit, .update (· + 1), .exit]] (go 18 ++ [.interrupt inc] ++ go 14 ++ [.ret] ++ go 7)
    (by simp) (.inr rfl) (all_ints (by simp [go])) (by decide +kernel)

/-- Arduino: entering a critical section fails, and does not disable interrupts; leaving it disables them for good. -/
theorem C65_arduino_is_the_wrong_way_round : ∃ s, Reach arduino ⟨false, false, false⟩ (· = inc) 0 s ∧
    s.Done ∧ s.var = 1 ∧ s.log.length = 2 ∧ s.irq = false ∧ s.err = true :=
  run_ex [inc] (go 6 ++ [.interrupt inc] ++ go 12 ++ [.ret] ++ go 6)
    (by simp) (.inr rfl) (all_ints (by simp [go])) (by decide +kernel)

/-- RP2040: the second core does not wait for a critical section of the first one: two increments are one. -/
theorem C65_rp2040_cores_lose_updates : ∃ s, Reach rp2040 ⟨false, true, true⟩ (· = inc) 0 s ∧
    s.Done ∧ s.var = 1 ∧ s.log.length = 2 ∧ s.irq = true ∧ s.err = false :=
  run_ex [inc, inc] (go 8 ++ [.switch 1] ++ go 15 ++ [.switch 1] ++ go 7)
    (by simp) (.inl rfl) (all_ints (by simp [go])) (by decide +kernel)

end ReactorC.Platform.Irq
