import Mathlib.Data.List.Perm.Subperm
import Mathlib.Data.List.Nodup
import Mathlib.Tactic.Choose
import Verif.Np.Ledger

/-!
# No access outside of the arrays, no deadlock, no busy waiting
-/

set_option linter.unusedVariables false

namespace ReactorC.Np

section
variable {C : Config} {s s' : State} {w : Nat}

/-- A level never has more reactions in its array than the program has at this level. -/
theorem Places.room {base : Nat} {loc : Nat → Option Loc} (P : Places C s loc) (B : Based C s base) (l : Nat) :
    s.idx l ≤ C.cap l := by
  have hc : ∀ i : Nat, ∃ r, (i : Int) < s.idx l → C.level r = l ∧
      (loc r = some (.slot i) ∨ ∃ w who, s.pc w = .store who r i) := by
    intro i
    by_cases h : (i : Int) < s.idx l
    · rcases P.fut l i h with ⟨r, k1, k2⟩ | ⟨w, who, r, k1, k2⟩
      · exact ⟨r, fun _ => ⟨k2, .inl k1⟩⟩
      · exact ⟨r, fun _ => ⟨k2, .inr ⟨w, who, k1⟩⟩⟩
    · exact ⟨0, fun k => absurd k h⟩
  choose f hf using hc
  have hheld : ∀ {w who r i}, s.pc w = .store who r i → loc r = some (.held w) := fun k =>
    (P.held _ _).2 (by rw [k]; exact .inl rfl)
  have hnd : ((List.range (s.idx l).toNat).map f).Nodup := by
    refine List.Nodup.map_on (fun i hi j hj e => ?_) List.nodup_range
    have hi' : (i : Int) < s.idx l := by have := List.mem_range.1 hi; omega
    have hj' : (j : Int) < s.idx l := by have := List.mem_range.1 hj; omega
    obtain ⟨_, ki⟩ := hf i hi'
    obtain ⟨_, kj⟩ := hf j hj'
    rw [← e] at kj
    rcases ki with ki | ⟨x, who, ki⟩ <;> rcases kj with kj | ⟨y, who', kj⟩
    · rw [ki] at kj; cases kj; rfl
    · rw [hheld kj] at ki; cases ki
    · rw [hheld ki] at kj; cases kj
    · have := hheld ki
      rw [hheld kj] at this
      cases this
      rw [ki] at kj; cases kj; rfl
  have hsub : ((List.range (s.idx l).toNat).map f) ⊆ C.reactions.filter fun r => C.level r = l := by
    intro r hr
    obtain ⟨i, hi, rfl⟩ := List.mem_map.1 hr
    have hi' : (i : Int) < s.idx l := by have := List.mem_range.1 hi; omega
    obtain ⟨k1, k2⟩ := hf i hi'
    refine List.mem_filter.2 ⟨(B.mem (f i) ((P.q _).2 ?_)).1, by simpa using k1⟩
    rcases k2 with k2 | ⟨x, who, k2⟩
    · rw [k2]; simp
    · rw [hheld k2]; simp
  have := (List.subperm_of_subset hnd hsub).length_le
  rw [List.length_map, List.length_range] at this
  show s.idx l ≤ ((C.reactions.filter fun r => C.level r = l).length : Nat)
  omega

/-- Every level has a reaction. -/
def Config.Full (C : Config) : Prop := ∀ l, l ≤ C.maxLevel → ∃ r ∈ C.reactions, C.level r = l

structure Sound (C : Config) (s : State) : Prop where
  fault : s.fault = false
  room : ∀ l i r, s.arr l i = some r → i < C.cap l

theorem Config.Full.cap (h : C.Full) {l : Nat} (hl : l ≤ C.maxLevel) : C.cap l ≠ 0 := by
  obtain ⟨r, h1, h2⟩ := h l hl
  intro k
  have := List.eq_nil_of_length_eq_zero k
  have hm : r ∈ C.reactions.filter fun r => C.level r = l := List.mem_filter.2 ⟨h1, by simpa using h2⟩
  rw [this] at hm; cases hm

/-- None of the error cases of the steps occurs. -/
theorem Inv.no_error (h : Inv C s) (hs : s.stop = false) (hturn : if s.started then w < C.n else w = C.n) :
    (s.pc w = .read → s.next ≠ 0) ∧ (s.pc w = .reset → s.next ≠ 0) ∧ (∀ r, s.pc w = .done r → s.queued r = true) ∧
      (∀ i, s.pc w ≠ .clear i none) := by
  have hp := h.pool
  obtain ⟨loc, base, P, B⟩ := h.data hs
  have worker : ∀ {p : Pc}, s.pc w = p → p.booting = false → s.started = true ∧ w < C.n := by
    intro p e hb
    cases hst : s.started with
    | true => rw [hst] at hturn; exact ⟨rfl, hturn⟩
    | false =>
      rw [hst] at hturn
      have := (hp.early hst).2.1
      rw [← (show w = C.n from hturn), e, hb] at this; cases this
  refine ⟨fun e => ?_, fun e => ?_, fun r e => ?_, fun i e => ?_⟩
  · obtain ⟨hst, hw⟩ := worker e rfl
    have := hp.no_top hs hw (by rw [e]; simp) (by rw [e]; rfl)
    have := (B.cur fun x => (this x).2).1
    omega
  · obtain ⟨hst, hw⟩ := worker e rfl
    have ho := hp.others hs hst hw (by rw [e]; rfl)
    have := (B.cur (fun x => by
      by_cases hx : x = w
      · subst hx; rw [e]; rfl
      · rcases ho x hx with k | k <;> rw [k] <;> rfl)).1
    omega
  · exact (P.q r).2 (by rw [(P.held r w).2 (by rw [e]; exact rfl)]; simp)
  · obtain ⟨r, k, _⟩ := P.clear _ _ _ e
    cases k

theorem Sound.step (hF : C.Full) (h : Inv C s) (S : Sound C s) (hs : s.stop = false)
    (hturn : if s.started then w < C.n else w = C.n) (hstep : Step C s w s') : Sound C s' := by
  have hp := h.pool
  obtain ⟨loc, base, P, B⟩ := h.data hs
  obtain ⟨n1, n2, n3, n4⟩ := h.no_error hs hturn
  have hclear : ∀ {i l i' r}, put s.arr s.exec (put (s.arr s.exec) i none) l i' = some r → s.arr l i' = some r := by
    intro i l i' r k
    by_cases hl : l = s.exec
    · subst hl
      rw [put_same] at k
      rcases put_cases k with ⟨_, k⟩ | ⟨_, k⟩
      · cases k
      · exact k
    · rw [put_other _ _ hl] at k; exact k
  have or : ∀ {b : Bool}, b = false → (s.fault || b) = false := fun k => by rw [S.fault, k]; rfl
  cases hstep with
  | readFault e h0 => exact absurd h0 (n1 e)
  | resetFault e h0 => exact absurd h0 (n2 e)
  | doneFault r e h0 => rw [n3 r e] at h0; cases h0
  | take i e =>
    obtain ⟨r, k⟩ := P.take w i e
    have := S.room _ _ _ k
    exact ⟨or (decide_eq_false (by omega)), S.room⟩
  | clearNone i e => exact absurd e (n4 i)
  | clear i r e => exact ⟨S.fault, fun l i' r' k => S.room l i' r' (hclear k)⟩
  | fetch who r e =>
    obtain ⟨i1, _⟩ := Inv.insert hp hs P B hturn e
    exact ⟨or (decide_eq_false (by omega)), S.room⟩
  | store who r i e =>
    have h1 := (P.store w who r i e).2
    have h2 := P.room B (C.level r)
    refine ⟨or (decide_eq_false (by omega)), fun l i' r' k => ?_⟩
    replace k : put s.arr (C.level r) (put (s.arr (C.level r)) i (some r)) l i' = some r' := k
    by_cases hl : l = C.level r
    · subst hl
      rw [put_same] at k
      rcases put_cases k with ⟨k, _⟩ | ⟨_, k⟩
      · subst k; omega
      · exact S.room _ _ _ k
    · rw [put_other _ _ hl] at k; exact S.room _ _ _ k
  | distFound r e hn hr => exact ⟨or (decide_eq_false (hF.cap hn)), S.room⟩
  | distSkip e hn hr => exact ⟨or (decide_eq_false (hF.cap hn)), S.room⟩
  | _ => exact ⟨S.fault, S.room⟩

theorem Reach.started_turn (hC : C.Ok) (h : Reach C s) (hs : s.stop = true) : s.started = true := by
  cases hst : s.started with
  | true => rfl
  | false => have := ((h.inv hC).pool.early hst).2.2; rw [hs] at this; cases this

theorem Reach.sound (hC : C.Ok) (hF : C.Full) (h : Reach C s) : s.fault = false ∧ (s.stop = false → Sound C s) := by
  induction h with
  | init => exact ⟨rfl, fun _ => ⟨rfl, fun _ _ _ k => (by cases k)⟩⟩
  | step a hr ha he ih =>
    rename_i s s'
    have hstep := exec_step ha he
    cases hs : s.stop with
    | false =>
      have := Sound.step hF (hr.inv hC) (ih.2 hs) hs ha.1 hstep
      exact ⟨this.fault, fun _ => this⟩
    | true =>
      have hst := hr.started_turn hC hs
      have hw := ha.1
      rw [hst] at hw
      obtain ⟨_, k1, k2, _, k3⟩ := (hr.inv hC).pool.stop_step hst hs hw hstep
      exact ⟨by rw [k3]; exact ih.1, fun k => by rw [k1] at k; cases k⟩

/-! ## Who can make a step -/

/-- Every worker that does not wait for a permit can make a step, until it has left. -/
theorem can_act (h : Inv C s) (hturn : if s.started then w < C.n else w = C.n) (h1 : s.pc w ≠ .exited)
    (h2 : s.pc w = .acquire → 0 < s.sem) : ∃ a : Act, a.thread = w ∧ a.allowed C s ∧ ∃ s', exec C s a = some s' := by
  have go : (∃ s', exec C s (.go w) = some s') → ∃ a : Act, a.thread = w ∧ a.allowed C s ∧ ∃ s', exec C s a = some s' :=
    fun k => ⟨.go w, rfl, ⟨hturn, trivial⟩, k⟩
  cases e : s.pc w with
  | exited => exact absurd e h1
  | run r => exact ⟨.finish w, rfl, ⟨hturn, trivial⟩, _, by unfold exec; dsimp only; rw [e]⟩
  | tag => exact ⟨.advance w, rfl, ⟨hturn, trivial⟩, _, by unfold exec; dsimp only; rw [e]⟩
  | acquire => exact go ⟨_, by unfold exec; dsimp only; rw [e]; dsimp only; rw [if_pos (h2 e)]⟩
  | read =>
    by_cases k : s.next = 0
    · exact go ⟨_, by unfold exec; dsimp only; rw [e]; dsimp only; rw [if_pos k]⟩
    · exact go ⟨_, by unfold exec; dsimp only; rw [e]; dsimp only; rw [if_neg k]⟩
  | reset =>
    by_cases k : s.next = 0
    · exact go ⟨_, by unfold exec; dsimp only; rw [e]; dsimp only; rw [if_pos k]⟩
    · exact go ⟨_, by unfold exec; dsimp only; rw [e]; dsimp only; rw [if_neg k]⟩
  | loop =>
    by_cases k : s.next = C.maxLevel + 1
    · exact go ⟨_, by unfold exec; dsimp only; rw [e]; dsimp only; rw [if_pos k]⟩
    · exact go ⟨_, by unfold exec; dsimp only; rw [e]; dsimp only; rw [if_neg k]⟩
  | dist =>
    by_cases k : s.next ≤ C.maxLevel
    · exact go ⟨_, by unfold exec; dsimp only; rw [e]; dsimp only; rw [if_pos k]⟩
    · exact go ⟨_, by unfold exec; dsimp only; rw [e]; dsimp only; rw [if_neg k]⟩
  | done r =>
    by_cases k : s.queued r = true
    · exact go ⟨_, by unfold exec; dsimp only; rw [e]; dsimp only; rw [if_pos k]⟩
    · exact go ⟨_, by unfold exec; dsimp only; rw [e]; dsimp only; rw [if_neg k]⟩
  | clear i x => cases x <;> exact go ⟨_, by unfold exec; dsimp only; rw [e]⟩
  | _ => exact go ⟨_, by unfold exec; dsimp only; rw [e]⟩

/-- If all workers wait for a permit, there is one. -/
theorem Inv.permit (hC : C.Ok) (h : Inv C s) (hst : s.started = true) (hall : ∀ w, w < C.n → s.pc w = .acquire) : 0 < s.sem := by
  have hn := hC.workers
  cases hs : s.stop with
  | false =>
    have hr := h.pool.run hs
    have h1 := hr.sum
    rw [total_const (c := 1) (fun w hw => by rw [hall w hw]; rfl)] at h1
    have : s.idle ≠ C.n := by
      intro k
      obtain ⟨w, hw, hc⟩ := hr.ex k
      rw [hall w hw] at hc; cases hc
    omega
  | true =>
    rcases h.pool.stop hs with ⟨w, hw, k, _⟩ | ⟨_, k⟩
    · rw [hall w hw] at k; cases k
    · rw [total_const (c := 1) (fun w hw => by rw [hall w hw]; exact if_pos rfl)] at k
      omega

theorem Inv.progress (hC : C.Ok) (h : Inv C s) :
    (s.started = true ∧ s.stop = true ∧ ∀ w, w < C.n → s.pc w = .exited) ∨
      ∃ a : Act, a.allowed C s ∧ ∃ s', exec C s a = some s' := by
  cases hst : s.started with
  | false =>
    have hb := (h.pool.early hst).2.1
    obtain ⟨a, _, h1, h2⟩ := can_act (w := C.n) h (by rw [hst]; exact rfl) (fun k => by rw [k] at hb; cases hb)
      (fun k => by rw [k] at hb; cases hb)
    exact .inr ⟨a, h1, h2⟩
  | true =>
    by_cases hex : ∃ w, w < C.n ∧ s.pc w ≠ .exited ∧ (s.pc w = .acquire → 0 < s.sem)
    · obtain ⟨w, hw, h1, h2⟩ := hex
      obtain ⟨a, _, h3, h4⟩ := can_act h (by rw [hst]; exact hw) h1 h2
      exact .inr ⟨a, h3, h4⟩
    · have hall : ∀ w, w < C.n → s.pc w = .exited ∨ (s.pc w = .acquire ∧ s.sem = 0) := by
        intro w hw
        by_cases h1 : s.pc w = .exited
        · exact .inl h1
        · by_cases h2 : s.pc w = .acquire
          · refine .inr ⟨h2, ?_⟩
            by_contra hc
            exact hex ⟨w, hw, h1, fun _ => by omega⟩
          · exact absurd ⟨w, hw, h1, fun k => absurd k h2⟩ hex
      cases hs : s.stop with
      | false =>
        exfalso
        have hacq : ∀ w, w < C.n → s.pc w = .acquire := fun w hw =>
          (hall w hw).elim (fun k => absurd k ((h.pool.run hs).live w hw).1) (·.1)
        have hn := h.permit hC hst hacq
        have := hall 0 hC.workers
        rcases this with k | k
        · rw [hacq 0 hC.workers] at k; cases k
        · omega
      | true =>
        left
        refine ⟨rfl, rfl, fun w hw => ?_⟩
        rcases hall w hw with k | ⟨k, k0⟩
        · exact k
        · exfalso
          rcases h.pool.stop hs with ⟨x, hx, k1, _⟩ | ⟨_, k2⟩
          · rcases hall x hx with k | k
            · rw [k1] at k; cases k
            · rw [k1] at k; cases k.1
          · have h1 := (total_pos (n := C.n) (f := fun w => if s.pc w = .acquire then (1 : Int) else 0)
              (fun w _ => by split <;> omega)).2 w hw
            rw [k2, k0, if_pos k] at h1
            omega

/-! ## The steps that the scheduler makes on its own -/

/-- A bound for the steps of a thread until it gets a permit, ends, waits for a reaction to end or for the next tag. -/
def Pc.rank (C : Config) (next : Nat) : Pc → Int
  | .check => 8
  | .read => 7
  | .dec _ => 6
  | .take _ => 5
  | .clear _ _ => 4
  | .done _ => 9
  | .wait => 5
  | .reset => 4
  | .loop => if next = C.maxLevel + 1 then 1 else 3
  | .dist => 2
  | .notify => 9 * C.n + 10
  | .release m => 9 * m + 9
  | .boot => 1
  | .events => 3
  | .fetch .boot _ => 3
  | .fetch (.running _) _ => 2
  | .fetch .events _ => 5
  | .store .boot _ _ => 2
  | .store (.running _) _ _ => 1
  | .store .events _ _ => 4
  | .signal => 9 * C.n + 10
  | .halt => 9 * C.n + 9
  | .tag => - ((9 * C.n + 9) * (C.maxLevel + 1))
  | _ => 0

def measure (C : Config) (s : State) : Int :=
  total (fun w => (s.pc w).rank C s.next) (C.n + 1) + 9 * s.sem + (9 * C.n + 9) * (C.maxLevel + 1 - s.next)

theorem Who.fetch_rank (C : Config) (n : Nat) (who : Who) (r i : Nat) :
    (Pc.fetch who r).rank C n = (Pc.store who r i).rank C n + 1 ∧ (Pc.store who r i).rank C n = who.pc.rank C n + 1 := by
  cases who <;> exact ⟨rfl, rfl⟩

theorem Pc.rank_next {p : Pc} (h : p ≠ .loop) (m n : Nat) : p.rank C m = p.rank C n := by
  cases p with
  | loop => exact absurd rfl h
  | fetch who r => cases who <;> rfl
  | store who r i => cases who <;> rfl
  | _ => rfl

theorem measure_step {p : Pc} (hw : w < C.n + 1) (e1 : s'.pc = put s.pc w p)
    (hl : s'.next = s.next ∨ ∀ x, x ≠ w → s.pc x ≠ .loop) :
    measure C s' = measure C s - (s.pc w).rank C s.next + p.rank C s'.next + 9 * (s'.sem - s.sem : Int) +
      (9 * C.n + 9) * (s.next - s'.next : Int) := by
  have h1 : total (fun x => (s'.pc x).rank C s'.next) (C.n + 1) =
      total (fun x => (s.pc x).rank C s.next) (C.n + 1) - (s.pc w).rank C s.next + p.rank C s'.next := by
    have h2 : total (fun x => (s'.pc x).rank C s'.next) (C.n + 1) =
        total (fun x => put (fun x => (s.pc x).rank C s.next) w (p.rank C s'.next) x) (C.n + 1) := by
      refine total_congr fun x hx => ?_
      rw [e1]
      by_cases hxw : x = w
      · subst hxw; rw [put_same, put_same]
      · rw [put_other _ _ hxw, put_other _ _ hxw]
        rcases hl with hl | hl
        · rw [hl]
        · exact Pc.rank_next (hl x hxw) _ _
    rw [h2, total_put (fun x : Int => x) (fun x => (s.pc x).rank C s.next) (p.rank C s'.next) hw]
  unfold measure
  rw [h1]
  have : (9 * (C.n : Int) + 9) * (C.maxLevel + 1 - s'.next) =
      (9 * C.n + 9) * (C.maxLevel + 1 - s.next) + (9 * C.n + 9) * (s.next - s'.next : Int) := by
    rw [← Int.mul_add]; congr 1; omega
  omega

/-- A step that the scheduler makes on its own. -/
theorem measure_go (hC : C.Ok) (h : Inv C s) (hturn : if s.started then w < C.n else w = C.n)
    (he : exec C s (.go w) = some s') : measure C s' + 1 ≤ measure C s := by
  have hstep := exec_step (a := .go w) ⟨hturn, trivial⟩ he
  change Step C s w s' at hstep
  have hp := h.pool
  have hw : w < C.n + 1 := by split at hturn <;> omega
  have running : ∀ {p : Pc}, s.pc w = p → p ≠ .check → p ≠ .acquire → p ≠ .exited → p ≠ .halt → s.stop = false := by
    intro p e h1 h2 h3 h4
    cases hs : s.stop with
    | false => rfl
    | true =>
      exfalso
      have hst : s.started = true := by
        cases hst : s.started with
        | true => rfl
        | false => have := (hp.early hst).2.2; rw [hs] at this; cases this
      rw [hst] at hturn
      rcases hp.stop_pc hs hturn with k | k | k | k <;> rw [e] at k <;> contradiction
  have worker : ∀ {p : Pc}, s.pc w = p → p.booting = false → s.started = true ∧ w < C.n := by
    intro p e hb
    cases hst : s.started with
    | true => rw [hst] at hturn; exact ⟨rfl, hturn⟩
    | false =>
      rw [hst] at hturn
      have := (hp.early hst).2.1
      rw [← (show w = C.n from hturn), e, hb] at this; cases this
  have noloop : ∀ {p : Pc}, s.pc w = p → p.charge = true → p.booting = false → s.stop = false →
      ∀ x, x ≠ w → s.pc x ≠ .loop := by
    intro p e hc hb hs x hx
    obtain ⟨hst, hw⟩ := worker e hb
    rcases hp.others hs hst hw (by rw [e]; exact hc) x hx with k | k <;> rw [k] <;> simp
  have move : ∀ {s' : State} {p q : Pc}, s.pc w = q → s'.pc = put s.pc w p → s'.next = s.next → s'.sem = s.sem →
      p.rank C s.next + 1 ≤ q.rank C s.next → measure C s' + 1 ≤ measure C s := by
    intro s' p q e e1 e2 e3 hr
    rw [measure_step hw e1 (.inl e2), e, e2, e3]
    have : (9 * (C.n : Int) + 9) * (s.next - s.next : Int) = 0 := by rw [Int.sub_self, Int.mul_zero]
    omega
  have n0 := hC.workers
  cases hstep with
  | bootEnd e => exact move e rfl rfl rfl (show (0 : Int) + 1 ≤ 1 by omega)
  | checkStop e => exact move e rfl rfl rfl (show (0 : Int) + 1 ≤ 8 by omega)
  | check e => exact move e rfl rfl rfl (show (7 : Int) + 1 ≤ 8 by omega)
  | readFault e h0 =>
    exact absurd h0 ((h.no_error (running e (by simp) (by simp) (by simp) (by simp)) hturn).1 e)
  | read e => exact move e rfl rfl rfl (show (6 : Int) + 1 ≤ 7 by omega)
  | decTake l e => exact move e rfl rfl rfl (show (5 : Int) + 1 ≤ 6 by omega)
  | decWait l e => exact move e rfl rfl rfl (show (5 : Int) + 1 ≤ 6 by omega)
  | take i e => exact move e rfl rfl rfl (show (4 : Int) + 1 ≤ 5 by omega)
  | clearNone i e =>
    exact absurd e ((h.no_error (running e (by simp) (by simp) (by simp) (by simp)) hturn).2.2.2 i)
  | clear i r e => exact move e rfl rfl rfl (show (0 : Int) + 1 ≤ 4 by omega)
  | done r e => exact move e rfl rfl rfl (show (8 : Int) + 1 ≤ 9 by omega)
  | doneFault r e h0 =>
    rw [(h.no_error (running e (by simp) (by simp) (by simp) (by simp)) hturn).2.2.1 r e] at h0; cases h0
  | fetch who r e => exact move e rfl rfl rfl (Int.le_of_eq (Who.fetch_rank C s.next who r _).1.symm)
  | store who r i e => exact move e rfl rfl rfl (Int.le_of_eq (Who.fetch_rank C s.next who r i).2.symm)
  | waitLast e => exact move e rfl rfl rfl (show (4 : Int) + 1 ≤ 5 by omega)
  | wait e => exact move e rfl rfl rfl (show (0 : Int) + 1 ≤ 5 by omega)
  | acquire e k =>
    rw [measure_step (s := s) (s' := { s with sem := s.sem - 1, pc := put s.pc w .check }) (p := .check) hw rfl (.inl rfl), e]
    have : (9 * (C.n : Int) + 9) * (s.next - s.next : Int) = 0 := by rw [Int.sub_self, Int.mul_zero]
    show measure C s - 0 + 8 + 9 * (((s.sem - 1 : Nat) : Int) - s.sem) + (9 * (C.n : Int) + 9) * (s.next - s.next : Int) + 1 ≤ _
    omega
  | resetFault e h0 =>
    exact absurd h0 ((h.no_error (running e (by simp) (by simp) (by simp) (by simp)) hturn).2.1 e)
  | reset e => exact move e rfl rfl rfl (by unfold Pc.rank; dsimp only; split <;> omega)
  | loopTag e hn =>
    have hs := running e (by simp) (by simp) (by simp) (by simp)
    rw [measure_step (s := s) (p := .tag) hw rfl (.inr (noloop e rfl rfl hs)), e]
    show measure C s - (if s.next = C.maxLevel + 1 then 1 else 3) + - ((9 * C.n + 9) * (C.maxLevel + 1)) +
      9 * ((s.sem : Int) - s.sem) + (9 * (C.n : Int) + 9) * (s.next - (0 : Nat) : Int) + 1 ≤ _
    rw [if_pos hn, hn]
    have : (9 * (C.n : Int) + 9) * (((C.maxLevel + 1 : Nat) : Int) - (0 : Nat) : Int) = (9 * C.n + 9) * (C.maxLevel + 1) := by
      congr 1
    omega
  | loopDist e hn =>
    refine move e rfl rfl rfl ?_
    show (2 : Int) + 1 ≤ if s.next = C.maxLevel + 1 then 1 else 3
    rw [if_neg hn]; omega
  | events e => exact move e rfl rfl rfl (show (2 : Int) + 1 ≤ 3 by omega)
  | distFound r e hn hr =>
    have hs := running e (by simp) (by simp) (by simp) (by simp)
    rw [measure_step (s := s) (p := .notify) hw rfl (.inr (noloop e rfl rfl hs)), e]
    show measure C s - 2 + (9 * C.n + 10) + 9 * ((s.sem : Int) - s.sem) +
      (9 * (C.n : Int) + 9) * (s.next - ((s.next + 1 : Nat) : Int) : Int) + 1 ≤ _
    have : (9 * (C.n : Int) + 9) * (s.next - ((s.next + 1 : Nat) : Int) : Int) = - (9 * C.n + 9) := by
      rw [show (s.next - ((s.next + 1 : Nat) : Int) : Int) = -1 by omega]; omega
    omega
  | distSkip e hn hr =>
    have hs := running e (by simp) (by simp) (by simp) (by simp)
    rw [measure_step (s := s) (p := .dist) hw rfl (.inr (noloop e rfl rfl hs)), e]
    show measure C s - 2 + 2 + 9 * ((s.sem : Int) - s.sem) +
      (9 * (C.n : Int) + 9) * (s.next - ((s.next + 1 : Nat) : Int) : Int) + 1 ≤ _
    have : (9 * (C.n : Int) + 9) * (s.next - ((s.next + 1 : Nat) : Int) : Int) = - (9 * C.n + 9) := by
      rw [show (s.next - ((s.next + 1 : Nat) : Int) : Int) = -1 by omega]; omega
    omega
  | distEnd e hn =>
    have hs := running e (by simp) (by simp) (by simp) (by simp)
    obtain ⟨loc, base, P, B⟩ := h.data hs
    have := B.range
    refine move e rfl rfl rfl ?_
    show (if s.next = C.maxLevel + 1 then (1 : Int) else 3) + 1 ≤ 2
    rw [if_pos (by omega)]; omega
  | notify k e hk h1 =>
    have hs := running e (by simp) (by simp) (by simp) (by simp)
    have hi := (hp.run hs).all w (worker e rfl).2 (by rw [e]; rfl)
    have := toAwaken_le s.idle (s.idx (s.next - 1))
    refine move e rfl rfl rfl ?_
    show 9 * ((k - 1 : Nat) : Int) + 9 + 1 ≤ 9 * C.n + 10
    omega
  | notifyOne k e => exact move e rfl rfl rfl (show (8 : Int) + 1 ≤ 9 * C.n + 10 by omega)
  | release m e =>
    rw [measure_step (s := s) (s' := { s with sem := s.sem + m, pc := put s.pc w .check }) (p := .check) hw rfl (.inl rfl), e]
    have : (9 * (C.n : Int) + 9) * (s.next - s.next : Int) = 0 := by rw [Int.sub_self, Int.mul_zero]
    show measure C s - (9 * m + 9) + 8 + 9 * (((s.sem + m : Nat) : Int) - s.sem) +
      (9 * (C.n : Int) + 9) * (s.next - s.next : Int) + 1 ≤ _
    omega
  | signal e => exact move e rfl rfl rfl (show (9 * C.n + 9 : Int) + 1 ≤ 9 * C.n + 10 by omega)
  | halt e =>
    rw [measure_step (s := s) (s' := { s with sem := s.sem + (C.n - 1), pc := put s.pc w .check }) (p := .check) hw rfl (.inl rfl), e]
    have : (9 * (C.n : Int) + 9) * (s.next - s.next : Int) = 0 := by rw [Int.sub_self, Int.mul_zero]
    show measure C s - (9 * C.n + 9) + 8 + 9 * (((s.sem + (C.n - 1) : Nat) : Int) - s.sem) +
      (9 * (C.n : Int) + 9) * (s.next - s.next : Int) + 1 ≤ _
    omega
  | triggerAgain who r e =>
    exfalso
    unfold exec at he
    dsimp only at he
    rw [e] at he
    cases who with
    | running r' => cases he
    | boot => have := congrArg State.hist (Option.some.inj he); exact absurd (show s.hist.length = s.hist.length + 1 from congrArg List.length this) (by omega)
    | events => have := congrArg State.hist (Option.some.inj he); exact absurd (show s.hist.length = s.hist.length + 1 from congrArg List.length this) (by omega)
  | triggerNew who r e =>
    exfalso
    unfold exec at he
    dsimp only at he
    rw [e] at he
    cases who with
    | running r' => cases he
    | boot => have := congrArg State.hist (Option.some.inj he); exact absurd (show s.hist.length = s.hist.length + 1 from congrArg List.length this) (by omega)
    | events => have := congrArg State.hist (Option.some.inj he); exact absurd (show s.hist.length = s.hist.length + 1 from congrArg List.length this) (by omega)
  | finish r e => unfold exec at he; dsimp only at he; rw [e] at he; cases he
  | advance e => unfold exec at he; dsimp only at he; rw [e] at he; cases he
  | retry e => unfold exec at he; dsimp only at he; rw [e] at he; cases he
  | stop e => unfold exec at he; dsimp only at he; rw [e] at he; cases he

theorem Reach.range (h : Reach C s) : s.next ≤ C.maxLevel + 1 := by
  induction h with
  | init => show 1 ≤ C.maxLevel + 1; omega
  | step a hr ha he ih =>
    rename_i s s'
    have hstep := exec_step ha he
    cases hstep with
    | loopTag => exact Nat.zero_le _
    | distFound r _ hn _ => show s.next + 1 ≤ _; omega
    | distSkip _ hn _ => show s.next + 1 ≤ _; omega
    | _ => exact ih

theorem total_le_const {f : Nat → Int} {c : Int} : ∀ {n : Nat}, (∀ w, w < n → f w ≤ c) → total f n ≤ c * n
  | 0, _ => by unfold total; omega
  | n + 1, h => by
    have := total_le_const (n := n) (f := f) (c := c) fun w hw => h w (by omega)
    have := h n (by omega)
    have e : c * ((n + 1 : Nat) : Int) = c * (n : Int) + c := by rw [Int.natCast_add, Int.mul_add]; omega
    unfold total
    omega

theorem Pc.rank_pos {p : Pc} (h : p ≠ .tag) (n : Nat) : 0 ≤ p.rank C n := by
  cases p with
  | tag => exact absurd rfl h
  | fetch who r => cases who <;> unfold Pc.rank <;> dsimp only <;> omega
  | store who r i => cases who <;> unfold Pc.rank <;> dsimp only <;> omega
  | loop => unfold Pc.rank; dsimp only; split <;> omega
  | _ => unfold Pc.rank; dsimp only; omega

theorem Pc.rank_le {p : Pc} (h : ∀ m, p = .release m → m ≤ C.n) (n : Nat) : p.rank C n ≤ 9 * C.n + 10 := by
  cases p with
  | tag =>
    have : (0 : Int) ≤ (9 * C.n + 9) * (C.maxLevel + 1) := Int.mul_nonneg (by omega) (by omega)
    unfold Pc.rank; dsimp only; omega
  | release m => have := h m rfl; unfold Pc.rank; dsimp only; omega
  | fetch who r => cases who <;> unfold Pc.rank <;> dsimp only <;> omega
  | store who r i => cases who <;> unfold Pc.rank <;> dsimp only <;> omega
  | loop => unfold Pc.rank; dsimp only; split <;> omega
  | _ => unfold Pc.rank; dsimp only; omega

theorem Reach.measure_pos (hC : C.Ok) (h : Reach C s) : 0 ≤ measure C s := by
  have hi := h.inv hC
  have hr := h.range
  have hl : (0 : Int) ≤ (9 * C.n + 9) * (C.maxLevel + 1 - s.next) := Int.mul_nonneg (by omega) (by omega)
  by_cases ht : ∃ w, s.pc w = .tag
  · obtain ⟨w, e⟩ := ht
    have hwn : w < C.n := by
      rcases Nat.lt_trichotomy w C.n with k | k | k
      · exact k
      · subst k
        cases hst : s.started with
        | true => rw [hi.pool.main hst] at e; cases e
        | false => have := (hi.pool.early hst).2.1; rw [e] at this; cases this
      · rw [hi.pool.beyond w k] at e; cases e
    have hs : s.stop = false := by
      cases hs : s.stop with
      | false => rfl
      | true => rcases hi.pool.stop_pc hs hwn with k | k | k | k <;> rw [e] at k <;> cases k
    have hst : s.started = true := by
      cases hst : s.started with
      | true => rfl
      | false => have := (hi.pool.early hst).1 w hwn; rw [e] at this; cases this
    obtain ⟨loc, base, P, B⟩ := hi.data hs
    have h1 := (B.top w (by rw [e]; rfl)).1
    have h2 := B.fine w
    rw [e] at h2
    replace h2 : base = 0 := h2
    have hn : s.next = 0 := by omega
    have ho := hi.pool.others hs hst hwn (by rw [e]; rfl)
    have h3 := total_put (fun p : Pc => p.rank C s.next) s.pc .exited (n := C.n + 1) (w := w) (by omega)
    have h4 := (total_pos (n := C.n + 1) (f := fun x => (put s.pc w .exited x).rank C s.next) (fun x _ => by
      by_cases hx : x = w
      · subst hx; rw [put_same]; exact Int.le_refl 0
      · rw [put_other _ _ hx]
        rcases ho x hx with k | k <;> rw [k] <;> exact Int.le_refl 0)).1
    rw [h3, e] at h4
    replace h4 : 0 ≤ total (fun x => (s.pc x).rank C s.next) (C.n + 1) - - ((9 * C.n + 9) * (C.maxLevel + 1)) + 0 := h4
    unfold measure
    have : (9 * (C.n : Int) + 9) * (C.maxLevel + 1 - s.next) = (9 * C.n + 9) * (C.maxLevel + 1) := by
      rw [hn]; congr 1
    omega
  · have h4 := (total_pos (n := C.n + 1) (f := fun x => (s.pc x).rank C s.next) (fun x _ =>
      Pc.rank_pos (fun k => ht ⟨x, k⟩) _)).1
    unfold measure
    omega

/-- How many steps the scheduler makes on its own, at most. -/
def bound (C : Config) : Nat := (9 * C.n + 10) * (C.n + 1) + 9 * C.n + (9 * C.n + 9) * (C.maxLevel + 1)

theorem Reach.measure_le (hC : C.Ok) (h : Reach C s) : measure C s ≤ bound C := by
  have hi := h.inv hC
  have hsem : s.sem ≤ C.n ∧ ∀ w m, s.pc w = .release m → m ≤ C.n := by
    cases hs : s.stop with
    | false =>
      have hr := hi.pool.run hs
      have h1 := hr.sum
      have h2 := total_le (n := C.n) (f := fun w => (s.pc w).weight) fun w _ => Pc.weight_le _
      refine ⟨by omega, fun w m e => ?_⟩
      have hwn : w < C.n := by
        rcases Nat.lt_trichotomy w C.n with k | k | k
        · exact k
        · subst k
          cases hst : s.started with
          | true => rw [hi.pool.main hst] at e; cases e
          | false => have := (hi.pool.early hst).2.1; rw [e] at this; cases this
        · rw [hi.pool.beyond w k] at e; cases e
      have h3 := total_put Pc.weight s.pc .exited hwn
      have h4 := total_le (n := C.n) (f := fun x => (put s.pc w .exited x).weight) fun w _ => Pc.weight_le _
      rw [h3, e] at h4
      replace h4 : total (fun x => (s.pc x).weight) C.n - - (m : Int) + 0 ≤ C.n := h4
      omega
    | true =>
      have hst := h.started_turn hC hs
      refine ⟨?_, fun w m e => ?_⟩
      · rcases hi.pool.stop hs with ⟨w, hw, _, k, _⟩ | ⟨_, k⟩
        · omega
        · have := total_le (n := C.n) (f := fun w => if s.pc w = .acquire then (1 : Int) else 0) fun w _ => by split <;> omega
          omega
      · exfalso
        rcases Nat.lt_trichotomy w C.n with k | k | k
        · rcases hi.pool.stop_pc hs k with k | k | k | k <;> rw [e] at k <;> cases k
        · subst k; rw [hi.pool.main hst] at e; cases e
        · rw [hi.pool.beyond w k] at e; cases e
  have h1 := total_le_const (n := C.n + 1) (f := fun w => (s.pc w).rank C s.next) (c := 9 * C.n + 10)
    (fun w _ => Pc.rank_le (hsem.2 w) _)
  have h2 : (9 * (C.n : Int) + 9) * (C.maxLevel + 1 - s.next) ≤ (9 * C.n + 9) * (C.maxLevel + 1) :=
    Int.mul_le_mul_of_nonneg_left (by omega) (by omega)
  have h3 : (bound C : Int) = (9 * C.n + 10) * ((C.n + 1 : Nat) : Int) + 9 * C.n + (9 * C.n + 9) * (C.maxLevel + 1) := by
    unfold bound
    rw [Int.natCast_add, Int.natCast_add, Int.natCast_mul, Int.natCast_mul, Int.natCast_mul]
    rfl
  have := hsem.1
  rw [h3]
  unfold measure
  omega

/-- Steps that the scheduler makes on its own: nobody triggers a reaction, no reaction ends, and nothing is decided about the
tag. -/
inductive OwnSteps (C : Config) : State → Nat → State → Prop
  | none (s : State) : OwnSteps C s 0 s
  | more {s s' s'' : State} {k : Nat} (w : Nat) : Act.allowed C s (.go w) → exec C s (.go w) = some s' →
      OwnSteps C s' k s'' → OwnSteps C s (k + 1) s''

theorem OwnSteps.reach {k : Nat} (h : OwnSteps C s k s') (hr : Reach C s) : Reach C s' := by
  induction h with
  | none => exact hr
  | more w ha he _ ih => exact ih (.step _ hr ha he)

theorem OwnSteps.measure (hC : C.Ok) {k : Nat} (h : OwnSteps C s k s') (hr : Reach C s) :
    measure C s' + k ≤ measure C s := by
  induction h with
  | none => omega
  | more w ha he _ ih =>
    have h1 := ih (.step _ hr ha he)
    have h2 := measure_go hC (hr.inv hC) ha.1 he
    omega

/-- No thread can make a step of its own. -/
def Settled (C : Config) (s : State) : Prop := ∀ w, Act.allowed C s (.go w) → exec C s (.go w) = none

theorem settles (hC : C.Ok) : ∀ (m : Nat) {s : State}, Reach C s → measure C s ≤ m → ∃ k s', OwnSteps C s k s' ∧ Settled C s'
  | 0, s, hr, hm => ⟨0, s, .none s, fun w ha => by
      cases he : exec C s (.go w) with
      | none => rfl
      | some s' =>
        have h1 := measure_go hC (hr.inv hC) ha.1 he
        have h2 := (Reach.step _ hr ha he).measure_pos hC
        omega⟩
  | m + 1, s, hr, hm => by
    by_cases hset : Settled C s
    · exact ⟨0, s, .none s, hset⟩
    · obtain ⟨w, hw⟩ := Classical.not_forall.1 hset
      obtain ⟨ha, hne⟩ := Classical.not_imp.1 hw
      cases he : exec C s (.go w) with
      | none => exact absurd he hne
      | some s1 =>
        have h1 := measure_go hC (hr.inv hC) ha.1 he
        obtain ⟨k, s', h2, h3⟩ := settles hC m (.step _ hr ha he) (by omega)
        exact ⟨k + 1, s', .more w ha he h2, h3⟩

/-- When no thread can make a step of its own, a reaction is executing, or the next tag is awaited, or the workers have
left. -/
theorem settled_cases (hC : C.Ok) (hr : Reach C s) (h : Settled C s) :
    (∃ w r, w < C.n ∧ s.pc w = .run r) ∨
    ((∃ w, w < C.n ∧ s.pc w = .tag) ∧ s.stop = false ∧ ∀ r, s.queued r = false) ∨
    (s.stop = true ∧ ∀ w, w < C.n → s.pc w = .exited) := by
  have hi := hr.inv hC
  rcases hi.progress hC with ⟨_, k1, k2⟩ | ⟨a, ha, s', he⟩
  · exact .inr (.inr ⟨k1, k2⟩)
  · have hno : ∀ w, w = a.thread → ∀ p, s.pc w = p → p = .boot ∨ p = .events → False := by
      intro w hw p e hp
      subst hw
      have := h a.thread ⟨ha.1, trivial⟩
      unfold exec at this
      dsimp only at this
      rw [e] at this
      rcases hp with hp | hp <;> rw [hp] at this <;> cases this
    have hwk : ∀ w p, w = a.thread → s.pc w = p → p.booting = false → s.started = true ∧ w < C.n := by
      intro w p hw e hb
      subst hw
      have hturn := ha.1
      cases hst : s.started with
      | true => rw [hst] at hturn; exact ⟨rfl, hturn⟩
      | false =>
        rw [hst] at hturn
        have := (hi.pool.early hst).2.1
        rw [← (show a.thread = C.n from hturn), e, hb] at this; cases this
    have htag : ∀ w, w = a.thread → s.pc w = .tag → (∃ w, w < C.n ∧ s.pc w = .tag) ∧ s.stop = false ∧ ∀ r, s.queued r = false := by
      intro w hw e
      obtain ⟨hst, hwn⟩ := hwk w _ hw e rfl
      have hs : s.stop = false := by
        cases hs : s.stop with
        | false => rfl
        | true => rcases hi.pool.stop_pc hs hwn with k | k | k | k <;> rw [e] at k <;> cases k
      exact ⟨⟨w, hwn, e⟩, hs, ((hr.ledger hC).1 hs).over w (by rw [e]; rfl)⟩
    cases a with
    | go w => rw [h w ha] at he; cases he
    | trigger w r =>
      unfold exec at he
      dsimp only at he
      split at he
      · rename_i e; exact (hno w rfl _ e (.inl rfl)).elim
      · rename_i r' e; exact .inl ⟨w, r', (hwk w _ rfl e rfl).2, e⟩
      · rename_i e; exact (hno w rfl _ e (.inr rfl)).elim
      · cases he
    | finish w =>
      unfold exec at he
      dsimp only at he
      split at he
      · rename_i r e; exact .inl ⟨w, r, (hwk w _ rfl e rfl).2, e⟩
      · cases he
    | advance w =>
      unfold exec at he
      dsimp only at he
      split at he
      · rename_i e; exact .inr (.inl (htag w rfl e))
      · cases he
    | retry w =>
      unfold exec at he
      dsimp only at he
      split at he
      · rename_i e; exact .inr (.inl (htag w rfl e))
      · cases he
    | stop w =>
      unfold exec at he
      dsimp only at he
      split at he
      · rename_i e; exact .inr (.inl (htag w rfl e))
      · cases he

end

end ReactorC.Np
