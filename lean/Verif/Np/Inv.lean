import Verif.Np.Places

/-!
# The levels

What the indexes, the current level and the statements at which the workers are have to do with each other.
-/

set_option linter.unusedVariables false

namespace ReactorC.Np

/-- What is required of the program: there are workers, and every reaction has a level of the program. -/
structure Config.Ok (C : Config) : Prop where
  workers : 0 < C.n
  levels : ∀ r, r ∈ C.reactions → C.level r ≤ C.maxLevel

/-- The worker is between two levels. -/
def Pc.top : Pc → Bool
  | .loop | .tag | .events | .dist | .signal => true
  | .fetch .events _ | .store .events _ _ => true
  | _ => false

theorem Pc.top_charge {p : Pc} (h : p.top = true) : p.charge = true := by
  cases p with
  | fetch who r => cases who <;> first | rfl | cases h
  | store who r i => cases who <;> first | rfl | cases h
  | _ => first | rfl | cases h

theorem Pc.booting_charge {p : Pc} (h : p.booting = true) : p.charge = false := by
  cases p with
  | fetch who r => cases who <;> first | rfl | cases h
  | store who r i => cases who <;> first | rfl | cases h
  | _ => first | rfl | cases h

/-- What holds for a thread at a statement if `base` is the current level and `v` its index. -/
def Pc.Fine (C : Config) (base : Nat) (v : Int) : Pc → Prop
  | .dec l => l = base
  | .wait | .reset => v < 0
  | .notify => 0 < v
  | .fetch who r | .store who r _ => (∀ r', who = .running r' → C.level r' = base ∧ base < C.level r) ∧
      (who = .boot → 0 ≤ v ∧ base = 0) ∧ (who = .events → base = 0)
  | .run r | .done r => C.level r = base
  | .boot => 0 ≤ v ∧ base = 0
  | .tag | .events => base = 0
  | _ => True

structure Based (C : Config) (s : State) (base : Nat) : Prop where
  mem : ∀ r, s.queued r = true → r ∈ C.reactions ∧ base ≤ C.level r
  high : ∀ l, base < l → 0 ≤ s.idx l
  low : ∀ l, l < base → s.idx l = 0
  top : ∀ w, (s.pc w).top = true → base = s.next ∧ 0 ≤ s.idx base
  cur : (∀ w, (s.pc w).top = false) → s.next = base + 1 ∧ s.exec = base
  fine : ∀ w, (s.pc w).Fine C base (s.idx base)
  range : s.next ≤ C.maxLevel + 1

structure Inv (C : Config) (s : State) : Prop where
  pool : Pool C s
  data : s.stop = false → ∃ loc base, Places C s loc ∧ Based C s base

section
variable {C : Config} {s s' : State} {w : Nat}

/-- While a worker is neither idle nor in charge, nobody is between the levels. -/
theorem Pool.no_top (h : Pool C s) (hs : s.stop = false) (hw : w < C.n) (h1 : s.pc w ≠ .acquire)
    (h2 : (s.pc w).charge = false) : ∀ x, (s.pc x).charge = false ∧ (s.pc x).top = false := by
  intro x
  have hc : (s.pc x).charge = false := by
    cases hc : (s.pc x).charge with
    | false => rfl
    | true =>
      exfalso
      rcases Nat.lt_trichotomy x C.n with hx | hx | hx
      · obtain ⟨_, _, ha⟩ := (h.run hs).alone hx hc
        by_cases hwx : w = x
        · subst hwx; rw [hc] at h2; cases h2
        · exact h1 (ha w hw hwx)
      · subst hx
        cases hst : s.started with
        | true => rw [h.main hst] at hc; cases hc
        | false =>
          rw [Pc.booting_charge (h.early hst).2.1] at hc; cases hc
      · rw [h.beyond x hx] at hc; cases hc
  refine ⟨hc, ?_⟩
  cases ht : (s.pc x).top with
  | false => rfl
  | true => rw [Pc.top_charge ht] at hc; cases hc

/-- While a worker is in charge, all others are idle. -/
theorem Pool.others (h : Pool C s) (hs : s.stop = false) (hst : s.started = true) (hw : w < C.n)
    (hc : (s.pc w).charge = true) : ∀ x, x ≠ w → s.pc x = .acquire ∨ s.pc x = .exited := by
  intro x hx
  rcases Nat.lt_trichotomy x C.n with hn | hn | hn
  · exact .inl (((h.run hs).alone hw hc).2.2 x hn hx)
  · subst hn; exact .inr (h.main hst)
  · exact .inr (h.beyond x hn)

/-- While a worker acts, the main thread does not trigger reactions. -/
theorem Pool.no_boot (h : Pool C s) (hs : s.stop = false) (hst : s.started = true) :
    ∀ x, (s.pc x).booting = false := by
  intro x
  rcases Nat.lt_trichotomy x C.n with hn | hn | hn
  · exact ((h.run hs).live x hn).2.2
  · subst hn; rw [h.main hst]; rfl
  · rw [h.beyond x hn]; rfl

/-- While the main thread triggers reactions, the workers have not begun. -/
theorem Pool.boot_others (h : Pool C s) (hst : s.started = false) :
    ∀ x, x ≠ C.n → s.pc x = .check ∨ s.pc x = .exited := by
  intro x hx
  rcases Nat.lt_trichotomy x C.n with hn | hn | hn
  · exact .inl ((h.early hst).1 x hn)
  · exact absurd hn hx
  · exact .inr (h.beyond x hn)

/-- A step by which only the statement of one thread changes. -/
theorem Based.move {base : Nat} (h : Based C s base) {p : Pc} (e1 : s'.pc = put s.pc w p)
    (e2 : ∀ r, s'.queued r = true → s.queued r = true) (e3 : s'.idx = s.idx) (e4 : s'.next = s.next) (e5 : s'.exec = s.exec)
    (ht : p.top = (s.pc w).top) (hf : p.Fine C base (s.idx base)) : Based C s' base := by
  have htop : ∀ x, (s'.pc x).top = (s.pc x).top := by
    intro x
    rw [e1]
    by_cases hx : x = w
    · subst hx; rw [put_same, ht]
    · rw [put_other _ _ hx]
  refine ⟨fun r k => h.mem r (e2 r k), fun l k => ?_, fun l k => ?_, fun x k => ?_, fun k => ?_, fun x => ?_, ?_⟩
  · rw [e3]; exact h.high l k
  · rw [e3]; exact h.low l k
  · rw [e3, e4]; rw [htop] at k; exact h.top x k
  · rw [e4, e5]; exact h.cur fun x => by rw [← htop]; exact k x
  · rw [e1, e3]
    by_cases hx : x = w
    · subst hx; rw [put_same]; exact hf
    · rw [put_other _ _ hx]; exact h.fine x
  · rw [e4]; exact h.range

/-- The level changes; all other threads are idle. -/
theorem Based.jump {base base' : Nat} (h : Based C s base) {p : Pc} (ho : ∀ x, x ≠ w → s.pc x = .acquire ∨ s.pc x = .exited)
    (e1 : s'.pc = put s.pc w p) (hm : ∀ r, s'.queued r = true → r ∈ C.reactions ∧ base' ≤ C.level r)
    (hh : ∀ l, base' < l → 0 ≤ s'.idx l) (hl : ∀ l, l < base' → s'.idx l = 0)
    (ht : if p.top then base' = s'.next ∧ 0 ≤ s'.idx base' else s'.next = base' + 1 ∧ s'.exec = base')
    (hf : p.Fine C base' (s'.idx base')) (hr : s'.next ≤ C.maxLevel + 1) : Based C s' base' := by
  have hx : ∀ x, x ≠ w → (s'.pc x).top = false ∧ (s'.pc x).Fine C base' (s'.idx base') := by
    intro x hx
    rw [e1, put_other _ _ hx]
    rcases ho x hx with k | k <;> rw [k] <;> exact ⟨rfl, trivial⟩
  refine ⟨hm, hh, hl, fun x k => ?_, fun k => ?_, fun x => ?_, hr⟩
  · by_cases hxw : x = w
    · subst hxw
      rw [e1, put_same] at k
      rw [if_pos k] at ht; exact ht
    · rw [(hx x hxw).1] at k; cases k
  · have := k w
    rw [e1, put_same] at this
    rw [if_neg (by rw [this]; simp)] at ht; exact ht
  · by_cases hxw : x = w
    · subst hxw; rw [e1, put_same]; exact hf
    · exact (hx x hxw).2

theorem Based.same {base : Nat} (h : Based C s base) (e1 : s'.pc = s.pc) (e2 : s'.queued = s.queued) (e3 : s'.idx = s.idx)
    (e4 : s'.next = s.next) (e5 : s'.exec = s.exec) : Based C s' base := by
  refine ⟨fun r k => h.mem r (by rw [← e2]; exact k), fun l k => ?_, fun l k => ?_, fun x k => ?_, fun k => ?_, fun x => ?_, ?_⟩
  · rw [e3]; exact h.high l k
  · rw [e3]; exact h.low l k
  · rw [e3, e4]; rw [e1] at k; exact h.top x k
  · rw [e4, e5]; exact h.cur fun x => by rw [← e1]; exact k x
  · rw [e1, e3]; exact h.fine x
  · rw [e4]; exact h.range

theorem Places.same {loc : Nat → Option Loc} (h : Places C s loc) (e1 : s'.pc = s.pc) (e2 : s'.queued = s.queued)
    (e3 : s'.idx = s.idx) (e4 : s'.arr = s.arr) (e5 : s'.exec = s.exec) : Places C s' loc := by
  refine ⟨?_, ?_, ?_, ?_, ?_, ?_, ?_, ?_, ?_⟩
  · rw [e2]; exact h.q
  · rw [e3, e4]; exact h.slot
  · rw [e1, e4, e5]; exact h.held
  · rw [e1, e3]; exact h.fut
  · rw [e1, e4, e5]; exact h.entry
  · rw [e1, e3, e4]; exact h.store
  · rw [e1]; exact h.uniq
  · rw [e1, e4, e5]; exact h.take
  · rw [e1, e4, e5]; exact h.clear

/-- A queued reaction of a level without reactions in its array is in somebody's hands. -/
theorem Places.in_hands {loc : Nat → Option Loc} (h : Places C s loc) {r : Nat} (hq : s.queued r = true)
    (hi : s.idx (C.level r) ≤ 0) : ∃ x, (s.pc x).Holds (s.arr s.exec) r := by
  cases hl : loc r with
  | none => exact absurd hl ((h.q r).1 hq)
  | some y =>
    cases y with
    | slot i => have := (h.slot r i hl).2; omega
    | held x => exact ⟨x, (h.held r x).1 hl⟩

theorem Pc.idle_quiet {p : Pc} (h : p = .acquire ∨ p = .exited) : p.quiet = true := by
  rcases h with h | h <;> rw [h] <;> rfl

/-- A worker that is in charge leaves a level behind. -/
theorem Based.next_level {base : Nat} {loc : Nat → Option Loc} (hP : Places C s loc) (h : Based C s base)
    (ho : ∀ x, x ≠ w → s.pc x = .acquire ∨ s.pc x = .exited) (hq : (s.pc w).quiet = true) (hi : s.idx base ≤ 0) :
    ∀ r, s.queued r = true → r ∈ C.reactions ∧ base + 1 ≤ C.level r := by
  intro r hr
  obtain ⟨h1, h2⟩ := h.mem r hr
  refine ⟨h1, ?_⟩
  by_contra hc
  have he : C.level r = base := by omega
  obtain ⟨x, hx⟩ := hP.in_hands hr (by rw [he]; exact hi)
  by_cases hxw : x = w
  · subst hxw; exact Pc.quiet_holds hq _ _ hx
  · exact Pc.quiet_holds (Pc.idle_quiet (ho x hxw)) _ _ hx

theorem Who.fine (who : Who) {r : Nat} {base : Nat} {v : Int}
    (h : (Pc.fetch who r).Fine C base v) : who.pc.Fine C base v := by
  cases who with
  | boot => exact h.2.1 rfl
  | events => exact h.2.2 rfl
  | running r' => exact (h.1 r' rfl).1

theorem Who.pc_top (who : Who) (r : Nat) : who.pc.top = (Pc.fetch who r).top := by cases who <;> rfl

theorem Who.store_top (who : Who) (r i : Nat) : (Pc.store who r i).top = (Pc.fetch who r).top := by cases who <;> rfl

/-- The reaction that a thread is about to insert has a level whose index is not negative, and nobody takes reactions from
this level. -/
theorem Inv.insert {base : Nat} {loc : Nat → Option Loc} (hp : Pool C s) (hs : s.stop = false) (hP : Places C s loc)
    (h : Based C s base) (hturn : if s.started then w < C.n else w = C.n) {who : Who} {r : Nat}
    (hw : s.pc w = .fetch who r) :
    0 ≤ s.idx (C.level r) ∧ (∀ x j y, s.pc x = .take j ∨ s.pc x = .clear j y → s.exec ≠ C.level r) ∧
      (C.level r = base → ∀ x, x ≠ w → s.pc x = .acquire ∨ s.pc x = .exited ∨ s.pc x = .check) := by
  have hq : s.queued r = true := (hP.q r).2 (by rw [(hP.held r w).2 (by rw [hw]; exact .inl rfl)]; simp)
  obtain ⟨_, hb⟩ := h.mem r hq
  have hf := h.fine w
  rw [hw] at hf
  obtain ⟨hf1, hf2, _⟩ := hf
  have hi : 0 ≤ s.idx base → 0 ≤ s.idx (C.level r) := by
    intro h0
    rcases Nat.lt_or_eq_of_le hb with hb | hb
    · exact h.high _ hb
    · rw [← hb]; exact h0
  cases who with
  | boot =>
    have hst : s.started = false := by
      cases hst : s.started with
      | false => rfl
      | true => have := hp.no_boot hs hst w; rw [hw] at this; cases this
    rw [hst] at hturn
    replace hturn : w = C.n := hturn
    have ho := hp.boot_others hst
    rw [← hturn] at ho
    refine ⟨hi (hf2 rfl).1, fun x j y k => ?_, fun _ x hx => ?_⟩
    · exfalso
      by_cases hx : x = w
      · subst hx; rw [hw] at k; rcases k with k | k <;> cases k
      · rcases ho x hx with e | e <;> rw [e] at k <;> rcases k with k | k <;> cases k
    · rcases ho x hx with e | e
      · exact .inr (.inr e)
      · exact .inr (.inl e)
  | events =>
    have hst : s.started = true := by
      cases hst : s.started with
      | true => rfl
      | false =>
        rw [hst] at hturn
        have := (hp.early hst).2.1
        rw [← (show w = C.n from hturn), hw] at this; cases this
    rw [hst] at hturn
    have ho := hp.others hs hst (show w < C.n from hturn) (by rw [hw]; rfl)
    refine ⟨hi (h.top w (by rw [hw]; rfl)).2, fun x j y k => ?_, fun _ x hx => ?_⟩
    · exfalso
      by_cases hx : x = w
      · subst hx; rw [hw] at k; rcases k with k | k <;> cases k
      · rcases ho x hx with e | e <;> rw [e] at k <;> rcases k with k | k <;> cases k
    · rcases ho x hx with e | e
      · exact .inl e
      · exact .inr (.inl e)
  | running r' =>
    obtain ⟨_, hlt⟩ := hf1 r' rfl
    refine ⟨h.high _ hlt, fun x j y k he => ?_, fun he => by omega⟩
    have hst : s.started = true := by
      cases hst : s.started with
      | true => rfl
      | false =>
        rw [hst] at hturn
        have := (hp.early hst).2.1
        rw [← (show w = C.n from hturn), hw] at this; cases this
    rw [hst] at hturn
    have hn := hp.no_top hs (show w < C.n from hturn) (by rw [hw]; simp) (by rw [hw]; rfl)
    have := (h.cur fun x => (hn x).2).2
    omega

theorem Pc.Fine.less {base : Nat} {v v' : Int} {p : Pc} (h : p.Fine C base v) (hc : p.charge = false) (hb : p.booting = false)
    (hv : v' ≤ v) : p.Fine C base v' := by
  cases p with
  | wait => replace h : v < 0 := h; show v' < 0; omega
  | boot => cases hb
  | reset => cases hc
  | notify => cases hc
  | fetch who r => exact ⟨h.1, fun e => (by subst e; cases hb), h.2.2⟩
  | store who r i => exact ⟨h.1, fun e => (by subst e; cases hb), h.2.2⟩
  | _ => exact h

theorem Inv.data_step (hC : C.Ok) (h : Inv C s) (hs : s.stop = false) (hturn : if s.started then w < C.n else w = C.n)
    (hstep : Step C s w s') (hs' : s'.stop = false) : ∃ loc base, Places C s' loc ∧ Based C s' base := by
  have hp := h.pool
  obtain ⟨loc, base, P, B⟩ := h.data hs
  have hf := B.fine w
  -- a thread that is not the main thread is a worker
  have worker : ∀ {p : Pc}, s.pc w = p → p.booting = false → s.started = true ∧ w < C.n := by
    intro p e hb
    cases hst : s.started with
    | true => rw [hst] at hturn; exact ⟨rfl, hturn⟩
    | false =>
      rw [hst] at hturn
      have := (hp.early hst).2.1
      rw [← (show w = C.n from hturn), e, hb] at this; cases this
  have quietly : ∀ {s' : State} {p : Pc}, (s.pc w).quiet = true → p.quiet = true → s'.pc = put s.pc w p → s'.arr = s.arr →
      s'.idx = s.idx → s'.queued = s.queued → s'.exec = s.exec → s'.next = s.next → p.top = (s.pc w).top →
      p.Fine C base (s.idx base) → ∃ loc base, Places C s' loc ∧ Based C s' base :=
    fun q1 q2 e1 e2 e3 e4 e5 e6 ht hf => ⟨loc, base, P.calm q1 q2 e1 e2 e3 e4 (.inl e5),
      B.move e1 (fun r k => by rw [← e4]; exact k) e3 e6 e5 ht hf⟩
  have others : ∀ {p : Pc}, s.pc w = p → p.charge = true → p.booting = false →
      ∀ x, x ≠ w → s.pc x = .acquire ∨ s.pc x = .exited := by
    intro p e hc hb
    obtain ⟨hst, hw⟩ := worker e hb
    exact hp.others hs hst hw (by rw [e]; exact hc)
  have allquiet : ∀ {p : Pc}, s.pc w = p → p.charge = true → p.booting = false → p.quiet = true →
      ∀ x, (s.pc x).quiet = true := by
    intro p e hc hb hq x
    by_cases hx : x = w
    · subst hx; rw [e]; exact hq
    · exact Pc.idle_quiet (others e hc hb x hx)
  have cur : ∀ {p : Pc}, s.pc w = p → p.booting = false → p ≠ .acquire → p.charge = false →
      (s.next = base + 1 ∧ s.exec = base) ∧ ∀ x, (s.pc x).charge = false := by
    intro p e hb hne hc
    obtain ⟨hst, hw⟩ := worker e hb
    have := hp.no_top hs hw (by rw [e]; exact hne) (by rw [e]; exact hc)
    exact ⟨B.cur fun x => (this x).2, fun x => (this x).1⟩
  cases hstep with
  | bootEnd e => exact quietly (by rw [e]; rfl) rfl rfl rfl rfl rfl rfl rfl (by rw [e]; rfl) trivial
  | checkStop e k => rw [hs] at k; cases k
  | check e => exact quietly (by rw [e]; rfl) rfl rfl rfl rfl rfl rfl rfl (by rw [e]; rfl) trivial
  | readFault e => exact ⟨loc, base, P.same rfl rfl rfl rfl rfl, B.same rfl rfl rfl rfl rfl⟩
  | read e =>
    have := (cur e rfl (by simp) rfl).1.1
    exact quietly (by rw [e]; rfl) rfl rfl rfl rfl rfl rfl rfl (by rw [e]; rfl) (show s.next - 1 = base by omega)
  | decTake l e h0 =>
    rw [e] at hf
    replace hf : l = base := hf
    subst hf
    obtain ⟨⟨c1, c2⟩, c3⟩ := cur e rfl (by simp) rfl
    obtain ⟨hst, hw⟩ := worker e rfl
    have hb := hp.no_boot hs hst
    obtain ⟨loc', P'⟩ := P.pop e c2.symm h0 (fun x who r i k hl => by
      have := B.fine x
      have hcx := c3 x
      have hbx := hb x
      rw [k] at this hcx hbx
      cases who with
      | boot => cases hbx
      | events => cases hcx
      | running r' => have := (this.1 r' rfl).2; omega)
    refine ⟨loc', l, P', ⟨B.mem, fun l' k => ?_, fun l' k => ?_, fun x k => ?_, fun k => ⟨c1, c2⟩, fun x => ?_, B.range⟩⟩
    · show 0 ≤ put s.idx l _ l'
      rw [put_other _ _ (by omega)]; exact B.high l' k
    · show put s.idx l _ l' = 0
      rw [put_other _ _ (by omega)]; exact B.low l' k
    · exfalso
      replace k : (put s.pc w (.take (s.idx l - 1).toNat) x).top = true := k
      by_cases hx : x = w
      · subst hx; rw [put_same] at k; cases k
      · rw [put_other _ _ hx] at k
        have := Pc.top_charge k
        rw [c3 x] at this; cases this
    · show (put s.pc w (.take (s.idx l - 1).toNat) x).Fine C l (put s.idx l (s.idx l - 1) l)
      rw [put_same]
      by_cases hx : x = w
      · subst hx; rw [put_same]; exact trivial
      · rw [put_other _ _ hx]; exact (B.fine x).less (c3 x) (hb x) (by omega)
  | decWait l e h0 =>
    rw [e] at hf
    replace hf : l = base := hf
    subst hf
    obtain ⟨⟨c1, c2⟩, c3⟩ := cur e rfl (by simp) rfl
    obtain ⟨hst, hw⟩ := worker e rfl
    have hb := hp.no_boot hs hst
    have P' := P.zero (l := l) (by omega) (s.idx l - 1) (by omega)
    have P'' := P'.calm (w := w) (p := .wait) (s' := { s with idx := put s.idx l (s.idx l - 1), pc := put s.pc w .wait })
      (by show (s.pc w).quiet = true; rw [e]; rfl) rfl rfl rfl rfl rfl (.inl rfl)
    refine ⟨loc, l, P'', ⟨B.mem, fun l' k => ?_, fun l' k => ?_, fun x k => ?_, fun k => ⟨c1, c2⟩, fun x => ?_, B.range⟩⟩
    · show 0 ≤ put s.idx l _ l'
      rw [put_other _ _ (by omega)]; exact B.high l' k
    · show put s.idx l _ l' = 0
      rw [put_other _ _ (by omega)]; exact B.low l' k
    · exfalso
      replace k : (put s.pc w .wait x).top = true := k
      by_cases hx : x = w
      · subst hx; rw [put_same] at k; cases k
      · rw [put_other _ _ hx] at k
        have := Pc.top_charge k
        rw [c3 x] at this; cases this
    · show (put s.pc w .wait x).Fine C l (put s.idx l (s.idx l - 1) l)
      rw [put_same]
      by_cases hx : x = w
      · subst hx; rw [put_same]; show s.idx l - 1 < 0; omega
      · rw [put_other _ _ hx]; exact (B.fine x).less (c3 x) (hb x) (by omega)
  | take i e =>
    exact ⟨loc, base, P.look e _, B.move rfl (fun _ k => k) rfl rfl rfl (by rw [e]; rfl) trivial⟩
  | clearNone i e =>
    obtain ⟨r, k, _⟩ := P.clear _ _ _ e
    cases k
  | clear i r e =>
    obtain ⟨r', k, k'⟩ := P.clear _ _ _ e
    cases k
    have hl := (P.entry _ _ _ k').1
    have := (cur e rfl (by simp) rfl).1.2
    exact ⟨loc, base, P.start e _, B.move rfl (fun _ k => k) rfl rfl rfl (by rw [e]; rfl)
      (show C.level r = base by rw [hl]; exact this)⟩
  | done r e hq =>
    exact ⟨_, base, P.done e, B.move (p := .check) rfl (fun r' k => by
      rcases put_cases (show put s.queued r false r' = true from k) with ⟨_, k⟩ | ⟨_, k⟩
      · cases k
      · exact k) rfl rfl rfl (by rw [e]; rfl) trivial⟩
  | doneFault r e => exact ⟨loc, base, P.same rfl rfl rfl rfl rfl, B.same rfl rfl rfl rfl rfl⟩
  | fetch who r e =>
    obtain ⟨i1, i2, i3⟩ := Inv.insert hp hs P B hturn e
    have hq : s.queued r = true := (P.q r).2 (by rw [(P.held r w).2 (by rw [e]; exact .inl rfl)]; simp)
    obtain ⟨_, hb⟩ := B.mem r hq
    rw [e] at hf
    have hv : 0 ≤ s.idx base → 0 ≤ put s.idx (C.level r) (s.idx (C.level r) + 1) base := by
      intro k
      by_cases hl : base = C.level r
      · rw [← hl, put_same]; omega
      · rw [put_other _ _ hl]; exact k
    have htop : ∀ x, (put s.pc w (.store who r (s.idx (C.level r)).toNat) x).top = (s.pc x).top := by
      intro x
      by_cases hx : x = w
      · subst hx; rw [put_same, e, Who.store_top]
      · rw [put_other _ _ hx]
    refine ⟨loc, base, P.fetch e i1 i2 _, ⟨B.mem, fun l k => ?_, fun l k => ?_, fun x k => ?_,
      fun k => B.cur fun x => ?_, fun x => ?_, B.range⟩⟩
    · show 0 ≤ put s.idx (C.level r) _ l
      by_cases hl : l = C.level r
      · subst hl; rw [put_same]; omega
      · rw [put_other _ _ hl]; exact B.high l k
    · show put s.idx (C.level r) _ l = 0
      rw [put_other _ _ (by omega)]; exact B.low l k
    · replace k : (put s.pc w (.store who r (s.idx (C.level r)).toNat) x).top = true := k
      rw [htop] at k
      exact ⟨(B.top x k).1, hv (B.top x k).2⟩
    · have : (put s.pc w (.store who r (s.idx (C.level r)).toNat) x).top = false := k x
      rw [htop] at this; exact this
    · show (put s.pc w (.store who r (s.idx (C.level r)).toNat) x).Fine C base
        (put s.idx (C.level r) (s.idx (C.level r) + 1) base)
      by_cases hx : x = w
      · subst hx; rw [put_same]
        exact ⟨hf.1, fun k => ⟨hv (hf.2.1 k).1, (hf.2.1 k).2⟩, hf.2.2⟩
      · rw [put_other _ _ hx]
        by_cases hl : C.level r = base
        · rcases i3 hl x hx with k | k | k <;> rw [k] <;> trivial
        · rw [put_other _ _ (fun k => hl k.symm)]; exact B.fine x
  | store who r i e =>
    rw [e] at hf
    exact ⟨_, base, P.put e (fun r' k hr => by
        have := hf.1 r' k
        rw [hr] at this
        omega) _,
      B.move rfl (fun _ k => k) rfl rfl rfl (by rw [e, who.pc_top r, Who.store_top]) (who.fine (r := r) hf)⟩
  | waitLast e =>
    rw [e] at hf
    exact quietly (by rw [e]; rfl) rfl rfl rfl rfl rfl rfl rfl (by rw [e]; rfl) hf
  | wait e => exact quietly (by rw [e]; rfl) rfl rfl rfl rfl rfl rfl rfl (by rw [e]; rfl) trivial
  | acquire e => exact quietly (by rw [e]; rfl) rfl rfl rfl rfl rfl rfl rfl (by rw [e]; rfl) trivial
  | resetFault e => exact ⟨loc, base, P.same rfl rfl rfl rfl rfl, B.same rfl rfl rfl rfl rfl⟩
  | reset e hn =>
    have ho := others e rfl rfl
    have hcur := B.cur (fun x => by
      by_cases hx : x = w
      · subst hx; rw [e]; rfl
      · rcases ho x hx with k | k <;> rw [k] <;> rfl)
    rw [e] at hf
    replace hf : s.idx base < 0 := hf
    have hb : s.next - 1 = base := by omega
    rw [hb]
    have P' := P.zero (l := base) (by omega) 0 (by omega)
    have P'' := P'.calm (w := w) (p := .loop) (s' := { s with idx := put s.idx base 0, pc := put s.pc w .loop })
      (by show (s.pc w).quiet = true; rw [e]; rfl) rfl rfl rfl rfl rfl (.inl rfl)
    have hnl := B.next_level P ho (by rw [e]; rfl) (by omega)
    refine ⟨loc, base + 1, P'', B.jump (base' := base + 1) ho rfl hnl
      (fun l k => ?_) (fun l k => ?_) ?_ trivial B.range⟩
    · show 0 ≤ put s.idx base 0 l
      rw [put_other _ _ (by omega)]; exact B.high l (by omega)
    · show put s.idx base 0 l = 0
      by_cases hl : l = base
      · subst hl; exact put_same _ _ _
      · rw [put_other _ _ hl]; exact B.low l (by omega)
    · refine ⟨hcur.1.symm, ?_⟩
      show 0 ≤ put s.idx base 0 (base + 1)
      rw [put_other _ _ (by omega)]; exact B.high _ (by omega)
  | loopTag e hn =>
    have ho := others e rfl rfl
    obtain ⟨t1, t2⟩ := B.top w (by rw [e]; rfl)
    have hall : ∀ l, 0 ≤ s.idx l := by
      intro l
      rcases Nat.lt_trichotomy l base with k | k | k
      · rw [B.low l k]; omega
      · rw [k]; exact t2
      · exact B.high l k
    refine ⟨loc, 0, P.calm (by rw [e]; rfl) rfl rfl rfl rfl rfl (.inl rfl), B.jump ho rfl (fun r k => ?_)
      (fun l _ => hall l) (fun l k => by omega) ⟨rfl, hall 0⟩ rfl (Nat.zero_le _)⟩
    exact ⟨(B.mem r k).1, Nat.zero_le _⟩
  | loopDist e => exact quietly (by rw [e]; rfl) rfl rfl rfl rfl rfl rfl rfl (by rw [e]; rfl) trivial
  | events e => exact quietly (by rw [e]; rfl) rfl rfl rfl rfl rfl rfl rfl (by rw [e]; rfl) trivial
  | distFound r e hn hr =>
    have ho := others e rfl rfl
    obtain ⟨t1, t2⟩ := B.top w (by rw [e]; rfl)
    refine ⟨loc, base, P.calm (by rw [e]; rfl) rfl rfl rfl rfl rfl (.inr (allquiet e rfl rfl rfl)), B.jump ho rfl B.mem
      B.high B.low ⟨by rw [t1], t1.symm⟩ ?_ (show s.next + 1 ≤ _ by omega)⟩
    show 0 < s.idx base
    rw [t1]
    obtain ⟨k1, k2⟩ := P.entry _ _ _ hr
    rcases k2 with k2 | ⟨_, x, k2⟩
    · have := (P.slot _ _ k2).2
      rw [k1] at this
      simpa using this
    · have := allquiet e rfl rfl rfl x
      rcases k2 with k2 | k2 <;> rw [k2] at this <;> cases this
  | distSkip e hn hr =>
    have ho := others e rfl rfl
    obtain ⟨t1, t2⟩ := B.top w (by rw [e]; rfl)
    have hz : s.idx base = 0 := by
      by_contra hc
      rcases P.fut base 0 (by simp; omega) with ⟨r, k1, k2⟩ | ⟨x, who, r, k1, k2⟩
      · have := (P.slot _ _ k1).1
        rw [k2, t1, hr] at this; cases this
      · have := allquiet e rfl rfl rfl x
        rw [k1] at this; cases this
    have hnl := B.next_level P ho (by rw [e]; rfl) (by omega)
    refine ⟨loc, base + 1, P.calm (by rw [e]; rfl) rfl rfl rfl rfl rfl (.inr (allquiet e rfl rfl rfl)), B.jump ho rfl
      hnl (fun l k => B.high l (by omega)) (fun l k => ?_)
      ⟨by rw [t1], B.high _ (by omega)⟩ trivial (show s.next + 1 ≤ _ by omega)⟩
    by_cases hl : l = base
    · rw [hl]; exact hz
    · exact B.low l (by omega)
  | distEnd e => exact quietly (by rw [e]; rfl) rfl rfl rfl rfl rfl rfl rfl (by rw [e]; rfl) trivial
  | notify k e => exact quietly (by rw [e]; rfl) rfl rfl rfl rfl rfl rfl rfl (by rw [e]; rfl) trivial
  | notifyOne k e => exact quietly (by rw [e]; rfl) rfl rfl rfl rfl rfl rfl rfl (by rw [e]; rfl) trivial
  | release m e => exact quietly (by rw [e]; rfl) rfl rfl rfl rfl rfl rfl rfl (by rw [e]; rfl) trivial
  | signal e => cases hs'
  | halt e =>
    obtain ⟨_, hw⟩ := worker e rfl
    exact absurd e ((hp.run hs).live w hw).2.1
  | triggerAgain who r e => exact ⟨loc, base, P.same rfl rfl rfl rfl rfl, B.same rfl rfl rfl rfl rfl⟩
  | triggerNew who r e hr hl hq =>
    have hbase : base ≤ C.level r ∧ (Pc.fetch who r).Fine C base (s.idx base) := by
      rw [e] at hf
      cases who with
      | boot => exact ⟨by have := hf.2; omega, fun r' k => (by cases k), fun _ => hf, fun k => (by cases k)⟩
      | events => exact ⟨by have : base = 0 := hf; omega, fun r' k => (by cases k), fun k => (by cases k), fun _ => hf⟩
      | running r' =>
        have h1 : C.level r' = base := hf
        have h2 := hl r' rfl
        refine ⟨by omega, fun r'' k => ?_, fun k => (by cases k), fun k => (by cases k)⟩
        cases k; omega
    refine ⟨_, base, P.trigger e hq _, ?_⟩
    have B' : Based C { s with hist := .trigger r :: s.hist, pc := put s.pc w (.fetch who r) } base :=
      B.move rfl (fun _ k => k) rfl rfl rfl (by rw [e, who.pc_top r]) hbase.2
    refine ⟨fun r' k => ?_, B'.high, B'.low, B'.top, B'.cur, B'.fine, B'.range⟩
    rcases put_cases (show put s.queued r true r' = true from k) with ⟨k, _⟩ | ⟨_, k⟩
    · subst k; exact ⟨hr, hbase.1⟩
    · exact B.mem r' k
  | finish r e =>
    rw [e] at hf
    exact ⟨loc, base, P.finish e _, B.move rfl (fun _ k => k) rfl rfl rfl (by rw [e]; rfl) hf⟩
  | advance e =>
    rw [e] at hf
    exact quietly (by rw [e]; rfl) rfl rfl rfl rfl rfl rfl rfl (by rw [e]; rfl) hf
  | retry e => exact quietly (by rw [e]; rfl) rfl rfl rfl rfl rfl rfl rfl (by rw [e]; rfl) trivial
  | stop e => exact quietly (by rw [e]; rfl) rfl rfl rfl rfl rfl rfl rfl (by rw [e]; rfl) trivial

theorem Inv.init (hC : C.Ok) : Inv C (init C) := by
  refine ⟨Pool.init C hC.workers, fun _ => ⟨_, 0, Places.init C, ⟨fun r k => (by cases k), fun l _ => Int.le_refl 0,
    fun l k => rfl, fun w k => ?_, fun _ => ⟨rfl, rfl⟩, fun w => ?_, by show 1 ≤ C.maxLevel + 1; omega⟩⟩⟩
  · exfalso
    replace k : (if w < C.n then Pc.check else if w = C.n then Pc.boot else Pc.exited).top = true := k
    split at k
    · cases k
    · split at k <;> cases k
  · show (if w < C.n then Pc.check else if w = C.n then Pc.boot else Pc.exited).Fine C 0 0
    split
    · trivial
    · split
      · exact ⟨Int.le_refl 0, rfl⟩
      · trivial

theorem Inv.step (hC : C.Ok) (h : Inv C s) (hturn : if s.started then w < C.n else w = C.n) (hstep : Step C s w s') :
    Inv C s' := by
  cases hst : s.started with
  | false =>
    rw [hst] at hturn
    replace hturn : w = C.n := hturn
    subst hturn
    have hs := (h.pool.early hst).2.2
    exact ⟨h.pool.early_step hst hstep, h.data_step hC hs (by rw [hst]; exact rfl) hstep⟩
  | true =>
    have hturn' := hturn
    rw [hst] at hturn
    replace hturn : w < C.n := hturn
    cases hs : s.stop with
    | true =>
      obtain ⟨k1, k2, _⟩ := h.pool.stop_step hst hs hturn hstep
      exact ⟨k1, fun k => by rw [k2] at k; cases k⟩
    | false =>
      refine ⟨h.pool.run_step hC.workers hst hs hturn (fun e => ?_) hstep, h.data_step hC hs hturn' hstep⟩
      obtain ⟨loc, base, P, B⟩ := h.data hs
      have ho := h.pool.others hs hst hturn (by rw [e]; rfl)
      have hcur := B.cur (fun x => by
        by_cases hx : x = w
        · subst hx; rw [e]; rfl
        · rcases ho x hx with k | k <;> rw [k] <;> rfl)
      have := B.fine w
      rw [e] at this
      rw [show s.next - 1 = base by omega]; exact this

theorem Reach.inv (hC : C.Ok) (h : Reach C s) : Inv C s := by
  induction h with
  | init => exact Inv.init hC
  | step a _ ha he ih => exact ih.step hC ha.1 (exec_step ha he)

end

end ReactorC.Np
