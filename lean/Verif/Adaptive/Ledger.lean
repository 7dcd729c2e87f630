import Verif.Adaptive.Progress
import Mathlib.Data.List.Nodup
import Mathlib.Data.List.Perm.Subperm

/-!
# Each step is a step of the reduced scheduler
-/

set_option linter.unusedVariables false
set_option linter.unusedSimpArgs false

namespace ReactorC.Adaptive

open Np (Ev Who put starts thisTag)

def stage : Loc → Stage
  | .idle => .idle
  | .slot _ _ => .waiting
  | .with _ .fetching => .waiting
  | .with _ .took => .waiting
  | .with _ .running => .running
  | .with _ .ended => .ended

/-- The state of the reduced scheduler. -/
def absOf (s : State) (loc : Nat → Loc) : Abs := ⟨fun r => stage (loc r), s.hist, decide (Ev.stop ∈ s.hist)⟩

structure Inv (C : Config) (s : State) (loc : Nat → Loc) : Prop where
  data : Data C s loc
  prog : Progress C s loc
  abs : Abs.Reach C.level (absOf s loc)

section
variable {C : Config} {s s' : State} {w : Nat} {loc loc' : Nat → Loc}

theorem stage_put (loc : Nat → Loc) (r : Nat) (L : Loc) :
    (fun x => stage (put loc r L x)) = put (fun x => stage (loc x)) r (stage L) := by
  funext x; unfold put; split <;> rfl

theorem abs_same (h : Abs.Reach C.level (absOf s loc)) (hh : s'.hist = s.hist) (hl : ∀ r, stage (loc' r) = stage (loc r)) :
    Abs.Reach C.level (absOf s' loc') := by
  have : absOf s' loc' = absOf s loc := by
    unfold absOf; rw [hh]; congr; funext r; exact hl r
  rw [this]; exact h

theorem stage_move {r : Nat} {L : Loc} (h : stage L = stage (loc r)) (x : Nat) : stage (put loc r L x) = stage (loc x) := by
  unfold put; split
  · rename_i e; rw [e, h]
  · rfl

theorem plain_of {p : Pc} (h1 : p.active = false) (h2 : p.top = false) (h3 : p.booting = false) : p.plain = true := by
  cases p with
  | fetch who _ => cases who <;> first | (cases h1; done) | (cases h2; done) | (cases h3; done)
  | store who _ _ _ => cases who <;> first | (cases h1; done) | (cases h2; done) | (cases h3; done)
  | _ => first | rfl | (cases h1; done) | (cases h2; done) | (cases h3; done)

/-- While a thread goes on to the next level, the others have nothing to do with reactions. -/
theorem Ctl.others_plain (hk : Ctl C s) (hc : Crew C s) (hst : s.started = true) (hw : w < C.n) (ht : (s.pc w).top = true)
    {t : Nat} (hne : t ≠ w) : (s.pc t).plain = true := by
  rcases Nat.lt_trichotomy t C.n with k | rfl | k
  · refine plain_of ?_ ?_ (hc.not_booting hst hk t)
    · have := (hk.alone w hw ht t k).1
      unfold awake at this; rw [Bool.or_eq_false_iff] at this; exact this.1
    · by_contra k'
      simp only [Bool.not_eq_false] at k'
      exact hne ((hk.alone w hw ht t k).2 k')
  · have := hc.main
    rw [hst] at this
    simp only [if_true] at this
    rw [this]; rfl
  · rw [hc.beyond t k]; rfl

theorem Data.running (h : Data C s loc) {t r : Nat} (ht : (s.pc t).Has (s.arr s.cur) r .running) :
    loc r = .with t .running ∧ C.level r = s.cur := by
  have := (h.p.held r t .running).2 ht
  exact ⟨this, h.l.here r t _ this (by simp)⟩

/-- While a thread works on the level, reactions are inserted only into higher levels. -/
theorem Data.store_level (h : Data C s loc) (hk : Ctl C s) (hc : Crew C s) (hst : s.started = true) (hw : w < C.n)
    (ha : (s.pc w).active = true) : ∀ t who r v i, s.pc t = .store who r v i → C.level r ≠ s.cur := by
  intro t who r v i k
  cases who with
  | running r' =>
    have h1 := (h.running (t := t) (r := r') (by rw [k]; simp [Pc.Has])).2
    have h2 := h.l.above t
    rw [k] at h2
    have h3 : C.level r' < C.level r := h2
    omega
  | boot =>
    have := hc.not_booting hst hk t
    rw [k] at this; cases this
  | events =>
    have := hk.none_top hc hw (awake_of_active ha) t
    rw [k] at this; cases this

theorem length_filter_ge {p : Nat → Bool} {l : List Nat} {k : Nat} (f : Nat → Nat) (hf : ∀ i, i < k → f i ∈ l ∧ p (f i) = true)
    (hi : ∀ i j, i < k → j < k → f i = f j → i = j) : k ≤ (l.filter p).length := by
  have h1 : ((List.range k).map f).Nodup := by
    rw [List.nodup_map_iff_inj_on List.nodup_range]
    intro i hi' j hj' e
    exact hi i j (List.mem_range.1 hi') (List.mem_range.1 hj') e
  have h2 : (List.range k).map f ⊆ l.filter p := by
    intro x hx
    obtain ⟨i, h1, rfl⟩ := List.mem_map.1 hx
    exact List.mem_filter.2 (hf i (List.mem_range.1 h1))
  have := (List.subperm_of_subset h1 h2).length_le
  simpa using this

/-- The arrays are large enough. -/
theorem Data.lt_cap (h : Data C s loc) {l v i : Nat} (hi : (i : Int) < s.cnt l v) : i < C.cap l ∧ v < C.maxw l := by
  obtain ⟨r, hr1, hr2⟩ := h.p.full l v i hi
  have hm := h.p.prog r (by rw [hr2]; simp)
  have hcap := cap_ne hm
  rw [hr1] at hcap
  have hv := h.slot_lt hr2
  rw [hr1] at hv
  refine ⟨?_, by have := (h.n.nw l hcap).2; omega⟩
  have hall : ∀ j, j < i + 1 → ∃ r, C.level r = l ∧ loc r = .slot v j := fun j hj => h.p.full l v j (by omega)
  choose! f hf using hall
  refine length_filter_ge f (fun j hj => ⟨h.p.prog _ (by rw [(hf j hj).2]; simp), by simpa using (hf j hj).1⟩) ?_
  intro j j' hj hj' e
  have h1 := (hf j hj).2
  have h2 := (hf j' hj').2
  rw [e, h2] at h1
  injection h1 with _ h1
  exact h1.symm

/-- A step of a working thread that has nothing to do with reactions. -/
theorem Inv.active (h : Inv C s loc) (hk : Ctl C s) (hc : Crew C s) (hst : s.started = true) (hw : w < C.n) {p : Pc}
    (ha : (s.pc w).active = true) (hpc : s'.pc = put s.pc w p) (hol : (s.pc w).plain = true) (hpl : p.plain = true) (hp : p.top = false)
    (hpb : p.booting = false) (hq : s'.queued = s.queued) (harr : s'.arr = s.arr) (hnw : s'.nw = s.nw)
    (hcur : s'.cur = s.cur) (hnum : s'.num = s.num) (hsig : s'.sig = s.sig)
    (hstop : s'.stop = s.stop) (hstd : s'.started = s.started) (hcnt : s'.cnt = s.cnt)
    (hfirst : w = 0 → First s') (hnear : Near C s' w) (hhist : s'.hist = s.hist) (hfault : s'.fault = false) :
    ∃ loc', Inv C s' loc' := by
  refine ⟨loc, h.data.move hpc hol hpl ?_ hq harr hcnt hcur hnw hnum, ?_, abs_same h.abs hhist fun _ => rfl⟩
  · intro k; rw [not_opening hp hpb] at k; cases k
  · exact h.prog.active hk hc hst hw ha hpc hp hpb hcur hnum hsig hstop hstd (fun v k => by rw [hcnt, hcur]; exact k)
      hfirst hnear (by rw [hhist]; exact id) hfault

/-- A step of a thread that falls asleep or wakes up. -/
theorem Inv.sleeper (h : Inv C s loc) (hst : s.started = true) (hw : w < C.n) {p : Pc}
    (ho : (s.pc w).top = false) (hob : (s.pc w).booting = false) (hol : (s.pc w).plain = true) (hpl : p.plain = true)
    (hpc : s'.pc = put s.pc w p) (hp : p.top = false)
    (hpb : p.booting = false) (hq : s'.queued = s.queued) (harr : s'.arr = s.arr) (hnw : s'.nw = s.nw)
    (hcur : s'.cur = s.cur) (hnum : s'.num = s.num) (hsig : ∀ x, x ≠ w → s'.sig x = s.sig x)
    (hstop : s'.stop = s.stop) (hstd : s'.started = s.started) (hcnt : s'.cnt = s.cnt)
    (hfirst : w = 0 → First s → First s') (hnear : Near C s' w) (hhist : s'.hist = s.hist) (hfault : s'.fault = false) :
    ∃ loc', Inv C s' loc' := by
  refine ⟨loc, h.data.move hpc hol hpl ?_ hq harr hcnt hcur hnw hnum, ?_, abs_same h.abs hhist fun _ => rfl⟩
  · intro k; rw [not_opening hp hpb] at k; cases k
  · exact h.prog.sleeper hst hw ho hob hpc hp hpb hcur hnum hsig hstop hstd hcnt hfirst hnear hhist hfault

/-- A step of the thread that goes on to the next level that has nothing to do with reactions. -/
theorem Inv.top (h : Inv C s loc) (hk : Ctl C s) (hc : Crew C s) (hst : s.started = true) (hw : w < C.n) {p : Pc}
    (ht : (s.pc w).top = true) (hpc : s'.pc = put s.pc w p) (hol : (s.pc w).plain = true) (hpl : p.plain = true)
    (hpo : p.opening = false) (hpb : p.booting = false) (hq : s'.queued = s.queued) (harr : s'.arr = s.arr) (hnw : s'.nw = s.nw)
    (hcur : s'.cur = s.cur) (hnum : s'.num = s.num) (hcnt : s'.cnt = s.cnt) (hstd : s'.started = s.started)
    (hfirst : ¬ Fresh C s' → First s') (hrest : p = .adv → ∀ v, s'.cnt s'.cur v ≤ 0)
    (hempty : (p = .close ∨ p = .tag ∨ p = .signal) → ∀ r, loc r = .idle)
    (hhalt : s'.stop = true → ∀ r, loc r = .idle) (hended : .stop ∈ s.hist → s'.stop = true)
    (hpn : Near C s' w) (hhist : s'.hist = s.hist) (hfault : s'.fault = false) : ∃ loc', Inv C s' loc' := by
  refine ⟨loc, h.data.move hpc hol hpl ?_ hq harr hcnt hcur hnw hnum, ?_, abs_same h.abs hhist fun _ => rfl⟩
  · intro k; rw [hpo] at k; cases k
  · refine h.prog.top hk hc hst hw ht hpc hpb hstd hfirst hrest hempty hhalt ?_ ?_ hpn ?_ hfault
    · rw [hhist]; exact fun k => .inl (hended k)
    · intro k; rw [hpo] at k; cases k
    · rw [hcur]; exact h.prog.cur

theorem fresh_of (hw : w < C.n) {p : Pc} (hpc : s'.pc = put s.pc w p) (ht : p.top = true) (hne : p ≠ .adv) : Fresh C s' :=
  ⟨w, hw, by rw [hpc, put_same]; exact ⟨ht, hne⟩⟩

/-- The thread that goes on to the next level: the end of the run has been found only where it stops. -/
theorem Progress.stop_of_top (h : Progress C s loc) (hk : Ctl C s) (hw : w < C.n) (ht : (s.pc w).top = true)
    (hne : s.pc w ≠ .signal) (hm : .stop ∈ s.hist) : s.stop = true := by
  rcases h.ended hm with k | ⟨t, k1, k2⟩
  · exact k
  · have := (hk.alone w hw ht t k1).2 (by rw [k2]; rfl)
    subst this; exact absurd k2 hne

theorem Ctl.halt_pc (hk : Ctl C s) (hw : w < C.n) (ht : (s.pc w).top = true) (hs : s.stop = true) : (s.pc w).Halting C.n := by
  obtain ⟨x, hx, k⟩ := hk.halt hs
  have : (s.pc x).top = true := by rcases k with k | k | k <;> rw [k] <;> rfl
  have := (hk.alone w hw ht x hx).2 this
  subst this; exact k

theorem sum_zero {f : Nat → Int} (h0 : ∀ v, 0 ≤ f v) : ∀ l : List Nat, 0 ≤ (l.map f).sum ∧
    ((l.map f).sum = 0 → ∀ v, v ∈ l → f v = 0)
  | [] => ⟨by simp, by simp⟩
  | a :: l => by
    obtain ⟨h1, h2⟩ := sum_zero h0 l
    have h3 := h0 a
    simp only [List.map_cons, List.sum_cons]
    refine ⟨by omega, fun h v hv => ?_⟩
    rcases List.mem_cons.1 hv with rfl | hv
    · omega
    · exact h2 (by omega) v hv

/-- With no reactions left in the sum, there are none at all. -/
theorem Data.total_zero (h : Data C s loc) (hplain : ∀ t, (s.pc t).plain = true) (ht : s.total = 0) (v : Nat) : s.cnt s.cur v ≤ 0 := by
  rcases Nat.lt_or_ge v s.num with k | k
  · have := (sum_zero (f := s.cnt s.cur) (fun u => by
      by_contra hneg
      obtain ⟨t, sn, e⟩ := h.n.neg u (by omega)
      have := hplain t
      rw [e] at this; cases this) (List.range s.num)).2 ht v (List.mem_range.2 k)
    omega
  · exact h.beyond k

theorem first_of_rest (hn : 0 < C.n) (hall : ∀ v, s'.cnt s'.cur v ≤ 0) (hpc : s'.pc = put s.pc w .adv)
    (ha : 0 ≠ w → (s.pc 0).active = false) : First s' := by
  unfold First
  by_cases e : 0 = w
  · subst e; rw [hpc, put_same]; trivial
  · have := ha e
    rw [hpc, put_ne _ _ e]
    cases hp : s.pc 0 <;> first
      | trivial
      | exact hall
      | exact fun _ => hall
      | (rw [hp] at this; cases this; done)

/-- When the thread that goes on has found the level empty and it is the last one, all reactions are idle. -/
theorem Data.all_idle (h : Data C s loc) (hC : C.Ok) (hplain : ∀ t, (s.pc t).plain = true) (hzero : ∀ v, s.cnt s.cur v ≤ 0)
    (r : Nat) : loc r = .idle ∨ s.cur < C.level r ∧ C.level r ≤ C.maxLevel := by
  by_cases hr : loc r = .idle
  · exact .inl hr
  · right
    have h1 := h.l.low r hr
    have h2 := hC.levels r (h.p.prog r hr)
    refine ⟨?_, h2⟩
    by_contra k
    have e : C.level r = s.cur := by omega
    cases hl : loc r with
    | idle => exact hr hl
    | slot v i =>
      have := (h.p.slot r v i hl).2.1
      rw [e] at this
      have := hzero v
      omega
    | «with» t k => exact Pc.plain_has (hplain t) ((h.p.held r t k).1 hl)

end

end ReactorC.Adaptive
