import Verif.Adaptive.Steps
import Verif.Adaptive.Abstract

/-!
# A level ends only when its reactions have ended

The first worker takes part in every level unless it has found no reaction in it; so when nobody is left, the level has no
reactions any more.
-/

set_option linter.unusedVariables false
set_option linter.unusedSimpArgs false

namespace ReactorC.Adaptive

open Np (Ev Who put starts thisTag)

/-- A thread goes on to the next level and has not found out yet whether there are reactions in it. -/
def Fresh (C : Config) (s : State) : Prop := ∃ t, t < C.n ∧ (s.pc t).top = true ∧ s.pc t ≠ .adv

/-- What the first worker has seen of the current level. -/
def First (s : State) : Prop :=
  match s.pc 0 with
  | .get _ v => (v = 0 ∨ v < s.num) ∧ ∀ u, u < v → s.cnt s.cur u ≤ 0
  | .zero _ v | .scan _ v => (v = 0 ∨ v < s.num) ∧ ∀ u, u ≤ v → s.cnt s.cur u ≤ 0
  | .look _ | .lock _ | .test _ | .check _ | .dec _ | .sleep _ | .doze _ => ∀ u, s.cnt s.cur u ≤ 0
  | .asleep _ => s.sig 0 = false → ∀ u, s.cnt s.cur u ≤ 0
  | _ => True

/-- What is in range, and what a worker that gives up has seen of its own reactions. -/
def Near (C : Config) (s : State) (x : Nat) : Prop :=
  match s.pc x with
  | .get _ v => v < C.n
  | .took v i => i < C.cap s.cur ∧ v < C.maxw s.cur
  | .check _ => s.cnt s.cur x ≤ 0
  | _ => True

structure Progress (C : Config) (s : State) (loc : Nat → Loc) : Prop where
  first : ¬ Fresh C s → First s
  rest : ∀ t, s.pc t = .adv → ∀ v, s.cnt s.cur v ≤ 0
  empty : ∀ t, (s.pc t = .close ∨ s.pc t = .tag ∨ s.pc t = .signal) → ∀ r, loc r = .idle
  halted : s.stop = true → ∀ r, loc r = .idle
  ended : .stop ∈ s.hist → s.stop = true ∨ ∃ t, t < C.n ∧ s.pc t = .signal
  calm : ∀ t, (s.pc t).opening = true → s.pc t ≠ .tag → ∀ r, starts r (thisTag s.hist) = 0
  near : ∀ x, x < C.n → Near C s x
  boot : s.started = false → ∀ x, x < C.n → s.pc x = .snap
  cur : s.cur ≤ C.maxLevel
  fault : s.fault = false

section
variable {C : Config} {s s' : State} {w : Nat} {loc loc' : Nat → Loc}

theorem awake_of_active {x : Nat} (h : (s.pc x).active = true) : awake s x = true := by
  unfold awake; rw [h]; rfl

theorem First.congr (h : First s) (hpc : s'.pc 0 = s.pc 0) (hsig : s'.sig 0 = s.sig 0) (hnum : s'.num = s.num)
    (hcnt : ∀ v, s.cnt s.cur v ≤ 0 → s'.cnt s'.cur v ≤ 0) : First s' := by
  unfold First at h ⊢
  rw [hpc, hsig, hnum]
  cases hp : s.pc 0 <;> rw [hp] at h <;>
    first
    | trivial
    | exact ⟨h.1, fun u hu => hcnt u (h.2 u hu)⟩
    | exact fun u => hcnt u (h u)
    | exact fun k u => hcnt u (h k u)

theorem Near.congr {x : Nat} (h : Near C s x) (hpc : s'.pc x = s.pc x) (hcur : s'.cur = s.cur)
    (hcnt : ∀ v, s.cnt s.cur v ≤ 0 → s'.cnt s'.cur v ≤ 0) : Near C s' x := by
  unfold Near at h ⊢
  rw [hpc]
  cases hp : s.pc x <;> rw [hp] at h <;>
    first
    | trivial
    | exact h
    | (rw [hcur]; exact h)
    | exact hcnt _ h

theorem not_opening {p : Pc} (h1 : p.top = false) (h2 : p.booting = false) : p.opening = false := by
  cases p with
  | fetch who _ => cases who <;> first | rfl | (cases h1; done) | (cases h2; done)
  | store who _ _ _ => cases who <;> first | rfl | (cases h1; done) | (cases h2; done)
  | _ => first | rfl | (cases h1; done) | (cases h2; done)

theorem Crew.not_booting (h : Crew C s) (hst : s.started = true) (hc : Ctl C s) (t : Nat) : (s.pc t).booting = false := by
  rcases Nat.lt_trichotomy t C.n with k | rfl | k
  · have := (hc.thr t k).2
    cases hp : s.pc t with
    | fetch who _ => rw [hp] at this; cases who <;> first | rfl | exact this.elim
    | store who _ _ _ => rw [hp] at this; cases who <;> first | rfl | exact this.elim
    | boot => rw [hp] at this; exact this.elim
    | _ => rfl
  · have := h.main
    rw [hst] at this
    simp only [if_true] at this
    rw [this]; rfl
  · rw [h.beyond t k]; rfl

theorem Crew.top_lt (h : Crew C s) {t : Nat} (ht : (s.pc t).top = true) : t < C.n := by
  by_contra k
  rcases Nat.lt_or_ge C.n t with k' | k'
  · rw [h.beyond t k'] at ht; cases ht
  · have e : t = C.n := by omega
    subst e
    have := h.main
    split at this
    · rw [this] at ht; cases ht
    · cases hp : s.pc C.n with
      | fetch who _ => rw [hp] at this ht; cases who <;> first | (cases ht; done) | (cases this; done)
      | store who _ _ _ => rw [hp] at this ht; cases who <;> first | (cases ht; done) | (cases this; done)
      | _ => rw [hp] at this ht; first | (cases ht; done) | (cases this; done)

/-- Nobody goes on to the next level while a thread is awake. -/
theorem Ctl.none_top (h : Ctl C s) (hc : Crew C s) (hw : w < C.n) (ha : awake s w = true) (t : Nat) : (s.pc t).top = false := by
  by_contra k
  simp only [Bool.not_eq_false] at k
  have := (h.alone t (hc.top_lt k) k w hw).1
  rw [ha] at this; cases this

theorem Ctl.stop_false (h : Ctl C s) (hc : Crew C s) (hw : w < C.n) (ha : awake s w = true) : s.stop = false := by
  by_contra k
  simp only [Bool.not_eq_false] at k
  obtain ⟨x, hx, e⟩ := h.halt k
  have := h.none_top hc hw ha x
  rcases e with e | e | e <;> rw [e] at this <;> cases this

theorem Progress.no_stop (h : Progress C s loc) (hk : Ctl C s) (hc : Crew C s) (hw : w < C.n) (ha : awake s w = true) :
    .stop ∉ s.hist := by
  intro k
  rcases h.ended k with k | ⟨t, _, k⟩
  · rw [hk.stop_false hc hw ha] at k; cases k
  · have := hk.none_top hc hw ha t
    rw [k] at this; cases this

theorem Progress.first' (h : Progress C s loc) (hk : Ctl C s) (hc : Crew C s) (hw : w < C.n) (ha : awake s w = true) :
    First s := by
  refine h.first ?_
  rintro ⟨t, _, k, _⟩
  rw [hk.none_top hc hw ha t] at k; cases k

/-- A step of a thread that works on the level. -/
theorem Progress.active (h : Progress C s loc) (hk : Ctl C s) (hc : Crew C s) (hst : s.started = true) (hw : w < C.n) {p : Pc}
    (ha : (s.pc w).active = true) (hpc : s'.pc = put s.pc w p) (hp : p.top = false) (hpb : p.booting = false)
    (hcur : s'.cur = s.cur) (hnum : s'.num = s.num) (hsig : s'.sig = s.sig)
    (hstop : s'.stop = s.stop) (hstd : s'.started = s.started) (hcnt : ∀ v, s.cnt s.cur v ≤ 0 → s'.cnt s'.cur v ≤ 0)
    (hfirst : w = 0 → First s') (hnear : Near C s' w) (hhist : .stop ∈ s'.hist → .stop ∈ s.hist) (hfault : s'.fault = false) :
    Progress C s' loc' := by
  have haw := awake_of_active ha
  have hpx : ∀ x, x ≠ w → s'.pc x = s.pc x := fun x hx => by rw [hpc, put_ne _ _ hx]
  have hpw : s'.pc w = p := by rw [hpc, put_same]
  have htop : ∀ t, (s'.pc t).top = false := by
    intro t
    by_cases e : t = w
    · subst e; rw [hpw]; exact hp
    · rw [hpx t e]; exact hk.none_top hc hw haw t
  have hboot : ∀ t, (s'.pc t).booting = false := by
    intro t
    by_cases e : t = w
    · subst e; rw [hpw]; exact hpb
    · rw [hpx t e]; exact hc.not_booting hst hk t
  refine ⟨fun _ => ?_, ?_, ?_, ?_, ?_, ?_, ?_, ?_, ?_, hfault⟩
  · by_cases e : w = 0
    · exact hfirst e
    · exact (h.first' hk hc hw haw).congr (hpx 0 (Ne.symm e)) (by rw [hsig]) hnum hcnt
  · intro t k
    have := htop t
    rw [k] at this; cases this
  · intro t k
    have := htop t
    rcases k with k | k | k <;> rw [k] at this <;> cases this
  · intro k
    rw [hstop, hk.stop_false hc hw haw] at k; cases k
  · intro k
    exact absurd (hhist k) (h.no_stop hk hc hw haw)
  · intro t k
    rw [not_opening (htop t) (hboot t)] at k; cases k
  · intro x hx
    by_cases e : x = w
    · subst e; exact hnear
    · exact (h.near x hx).congr (hpx x e) hcur hcnt
  · intro k; rw [hstd, hst] at k; cases k
  · rw [hcur]; exact h.cur

/-- The last thread gives up: the level has no reactions any more. -/
theorem Progress.last (h : Progress C s loc) (hk : Ctl C s) (hk' : Ctl C s') (hc : Crew C s) (hc' : Crew C s')
    (hst : s.started = true) (hw : w < C.n) {sn : Nat}
    (ha : s.pc w = .dec sn) (hpc : s'.pc = put s.pc w .adv)
    (hcur : s'.cur = s.cur) (hnum : s'.num = s.num) (hsig : s'.sig = s.sig)
    (hstop : s'.stop = s.stop) (hstd : s'.started = s.started) (hcnt : s'.cnt = s.cnt)
    (hhist : s'.hist = s.hist) (hfault : s'.fault = false) :
    Progress C s' loc' := by
  have haw : awake s w = true := awake_of_active (by rw [ha]; rfl)
  have hpx : ∀ x, x ≠ w → s'.pc x = s.pc x := fun x hx => by rw [hpc, put_ne _ _ hx]
  have hpw : s'.pc w = .adv := by rw [hpc, put_same]
  have hal := hk'.alone w hw (by rw [hpw]; rfl)
  have hf := h.first' hk hc hw haw
  have hpos : 0 < C.n := by omega
  have hall : ∀ v, s.cnt s.cur v ≤ 0 := by
    by_cases e : w = 0
    · subst e; unfold First at hf; rw [ha] at hf; exact hf
    · have h0 := hpx 0 (Ne.symm e)
      obtain ⟨h1, h2⟩ := hal 0 hpos
      have h3 : (s'.pc 0).top = false := by
        by_contra k; simp only [Bool.not_eq_false] at k; exact e (h2 k).symm
      have h4 : (s'.pc 0).active = false := by
        unfold awake at h1; rw [Bool.or_eq_false_iff] at h1; exact h1.1
      have h5 : s.sig 0 = false := by
        unfold awake at h1; rw [Bool.or_eq_false_iff, hsig] at h1; exact h1.2
      have h6 := (hk'.thr 0 hpos).2
      rw [h0] at h3 h4 h6
      unfold First at hf
      cases hp : s.pc 0 with
      | sleep _ => rw [hp] at hf; exact hf
      | doze _ => rw [hp] at hf; exact hf
      | asleep _ => rw [hp] at hf; exact hf h5
      | fetch who _ => rw [hp] at h3 h4 h6; cases who <;> first | (cases h3; done) | (cases h4; done) | exact h6.elim
      | store who _ _ _ => rw [hp] at h3 h4 h6; cases who <;> first | (cases h3; done) | (cases h4; done) | exact h6.elim
      | _ => rw [hp] at h3 h4 h6; first | (cases h3; done) | (cases h4; done) | exact h6.elim
  have htop : ∀ t, t ≠ w → (s'.pc t).top = false := by
    intro t e
    rw [hpx t e]; exact hk.none_top hc hw haw t
  refine ⟨fun _ => ?_, ?_, ?_, ?_, ?_, ?_, ?_, ?_, ?_, hfault⟩
  · by_cases e : w = 0
    · subst e; unfold First; rw [hpw]; trivial
    · exact hf.congr (hpx 0 (Ne.symm e)) (by rw [hsig]) hnum (fun v k => by rw [hcnt, hcur]; exact k)
  · intro t k v
    rw [hcnt, hcur]; exact hall v
  · intro t k
    by_cases e : t = w
    · subst e; rw [hpw] at k; rcases k with k | k | k <;> cases k
    · have := htop t e
      rcases k with k | k | k <;> rw [k] at this <;> cases this
  · intro k
    rw [hstop, hk.stop_false hc hw haw] at k; cases k
  · intro k
    rw [hhist] at k
    exact absurd k (h.no_stop hk hc hw haw)
  · intro t k
    by_cases e : t = w
    · subst e; rw [hpw] at k; cases k
    · rw [not_opening (htop t e) (by rw [hpx t e]; exact hc.not_booting hst hk t)] at k; cases k
  · intro x hx
    by_cases e : x = w
    · subst e; unfold Near; rw [hpw]; trivial
    · exact (h.near x hx).congr (hpx x e) hcur (fun v k => by rw [hcnt, hcur]; exact k)
  · intro k; rw [hstd, hst] at k; cases k
  · rw [hcur]; exact h.cur

/-- A thread that has nothing to do with the level. -/
theorem near_of_not_active {x : Nat} (h : (s.pc x).active = false) : Near C s x := by
  unfold Near
  cases hp : s.pc x <;> first | trivial | (rw [hp] at h; cases h; done)

/-- A step of the thread that goes on to the next level. -/
theorem Progress.top (h : Progress C s loc) (hk : Ctl C s) (hc : Crew C s) (hst : s.started = true) (hw : w < C.n) {p : Pc}
    (ht : (s.pc w).top = true) (hpc : s'.pc = put s.pc w p) (hpb : p.booting = false)
    (hstd : s'.started = s.started) (hfirst : ¬ Fresh C s' → First s') (hrest : p = .adv → ∀ v, s'.cnt s'.cur v ≤ 0)
    (hempty : (p = .close ∨ p = .tag ∨ p = .signal) → ∀ r, loc' r = .idle)
    (hhalt : s'.stop = true → ∀ r, loc' r = .idle) (hended : .stop ∈ s'.hist → s'.stop = true ∨ p = .signal)
    (hcalm : p.opening = true → p ≠ .tag → ∀ r, starts r (thisTag s'.hist) = 0)
    (hpn : Near C s' w) (hcur : s'.cur ≤ C.maxLevel) (hfault : s'.fault = false) :
    Progress C s' loc' := by
  have hpx : ∀ x, x ≠ w → s'.pc x = s.pc x := fun x hx => by rw [hpc, put_ne _ _ hx]
  have hpw : s'.pc w = p := by rw [hpc, put_same]
  have htop : ∀ t, t ≠ w → (s'.pc t).top = false := by
    intro t e
    rw [hpx t e]
    by_contra k
    simp only [Bool.not_eq_false] at k
    exact e ((hk.alone w hw ht t (hc.top_lt k)).2 k)
  refine ⟨hfirst, ?_, ?_, hhalt, ?_, ?_, ?_, ?_, hcur, hfault⟩
  · intro t k
    by_cases e : t = w
    · subst e; rw [hpw] at k; exact hrest k
    · have := htop t e
      rw [k] at this; cases this
  · intro t k
    by_cases e : t = w
    · subst e; rw [hpw] at k; exact hempty k
    · have := htop t e
      rcases k with k | k | k <;> rw [k] at this <;> cases this
  · intro k
    exact (hended k).imp id fun e => ⟨w, hw, by rw [hpw, e]⟩
  · intro t k k'
    by_cases e : t = w
    · subst e; rw [hpw] at k k'; exact hcalm k k'
    · rw [not_opening (htop t e) (by rw [hpx t e]; exact hc.not_booting hst hk t)] at k; cases k
  · intro x hx
    by_cases e : x = w
    · subst e; exact hpn
    · refine near_of_not_active ?_
      rw [hpx x e]
      have := (hk.alone w hw ht x hx).1
      unfold awake at this; rw [Bool.or_eq_false_iff] at this; exact this.1
  · intro k; rw [hstd, hst] at k; cases k

/-- A step of a thread that falls asleep or is woken up. -/
theorem Progress.sleeper (h : Progress C s loc) (hst : s.started = true) (hw : w < C.n) {p : Pc}
    (ho : (s.pc w).top = false) (hob : (s.pc w).booting = false) (hpc : s'.pc = put s.pc w p) (hp : p.top = false)
    (hpb : p.booting = false) (hcur : s'.cur = s.cur) (hnum : s'.num = s.num) (hsig : ∀ x, x ≠ w → s'.sig x = s.sig x)
    (hstop : s'.stop = s.stop) (hstd : s'.started = s.started) (hcnt : s'.cnt = s.cnt)
    (hfirst : w = 0 → First s → First s') (hnear : Near C s' w) (hhist : s'.hist = s.hist) (hfault : s'.fault = false) :
    Progress C s' loc := by
  have hpx : ∀ x, x ≠ w → s'.pc x = s.pc x := fun x hx => by rw [hpc, put_ne _ _ hx]
  have hpw : s'.pc w = p := by rw [hpc, put_same]
  have hcnt' : ∀ v, s.cnt s.cur v ≤ 0 → s'.cnt s'.cur v ≤ 0 := fun v k => by rw [hcnt, hcur]; exact k
  refine ⟨fun k => ?_, ?_, ?_, ?_, ?_, ?_, ?_, ?_, ?_, hfault⟩
  · have hs : First s := h.first fun ⟨t, k1, k2, k3⟩ => k ⟨t, k1, by
      have : t ≠ w := by rintro rfl; rw [ho] at k2; cases k2
      rw [hpx t this]; exact ⟨k2, k3⟩⟩
    by_cases e : w = 0
    · exact hfirst e hs
    · exact hs.congr (hpx 0 (Ne.symm e)) (hsig 0 (Ne.symm e)) hnum hcnt'
  · intro t k v
    have : t ≠ w := by rintro rfl; rw [hpw] at k; rw [k] at hp; cases hp
    rw [hpx t this] at k
    exact hcnt' v (h.rest t k v)
  · intro t k
    have : t ≠ w := by
      rintro rfl; rw [hpw] at k; rcases k with k | k | k <;> rw [k] at hp <;> cases hp
    rw [hpx t this] at k
    exact h.empty t k
  · intro k; rw [hstop] at k; exact h.halted k
  · intro k
    rw [hhist] at k
    rw [hstop]
    refine (h.ended k).imp id fun ⟨t, k1, k2⟩ => ⟨t, k1, ?_⟩
    have : t ≠ w := by rintro rfl; rw [k2] at ho; cases ho
    rw [hpx t this]; exact k2
  · intro t k k'
    rw [hhist]
    have : t ≠ w := by
      rintro rfl; rw [hpw, not_opening hp hpb] at k; cases k
    rw [hpx t this] at k k'
    exact h.calm t k k'
  · intro x hx
    by_cases e : x = w
    · subst e; exact hnear
    · exact (h.near x hx).congr (hpx x e) hcur hcnt'
  · intro k; rw [hstd, hst] at k; cases k
  · rw [hcur]; exact h.cur

end

end ReactorC.Adaptive
