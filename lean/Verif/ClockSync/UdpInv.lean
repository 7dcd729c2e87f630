import Verif.ClockSync.Udp

namespace ReactorC.ClockSync.Udp
open ReactorC.ClockSync

theorem put_same {α : Type} (f : Nat → α) (i : Nat) (a : α) : put f i a i = a := by simp [put]

theorem put_other {α : Type} (f : Nat → α) (i : Nat) (a : α) {j : Nat} (h : j ≠ i) : put f i a j = f j := by simp [put, h]

/-! ## The arithmetic of corrections -/

/-- What an estimate contributes to the correction. -/
def share (p : Params) (x : Int) : Int := (x.tdiv p.A).tdiv p.E

variable {p : Params}

theorem tdiv_nonneg_le {x : Int} {k : Nat} (hk : 0 < k) (h : 0 ≤ x) : 0 ≤ x.tdiv k ∧ x.tdiv k * k ≤ x := by
  rw [Int.tdiv_eq_ediv_of_nonneg h]
  refine ⟨Int.ediv_nonneg h (by omega), ?_⟩
  exact Int.ediv_mul_le _ (by omega)

theorem tdiv_nonneg_le' {x : Int} {k : Nat} (hk : 0 < k) (h : 0 ≤ x) : x.tdiv k ≤ x := by
  have h1 := tdiv_nonneg_le hk h
  have : x.tdiv k * 1 ≤ x.tdiv k * k := Int.mul_le_mul_of_nonneg_left (by omega) h1.1
  omega

theorem share_nonneg (hA : 0 < p.A) (hE : 0 < p.E) {x : Int} (h : 0 ≤ x) {n : Nat} (hn : n ≤ p.E) :
    0 ≤ share p x ∧ (n : Int) * share p x ≤ x := by
  have h1 := tdiv_nonneg_le hA h
  have h2 := tdiv_nonneg_le hE h1.1
  have h3 := tdiv_nonneg_le' hA h
  refine ⟨h2.1, ?_⟩
  have : (n : Int) * share p x ≤ p.E * share p x := Int.mul_le_mul_of_nonneg_right (by omega) h2.1
  have h4 : share p x * p.E ≤ x.tdiv p.A := h2.2
  rw [Int.mul_comm] at h4
  omega

theorem share_neg (x : Int) : share p (-x) = -share p x := by
  unfold share
  rw [Int.neg_tdiv, Int.neg_tdiv]

theorem share_nonpos (hA : 0 < p.A) (hE : 0 < p.E) {x : Int} (h : x ≤ 0) {n : Nat} (hn : n ≤ p.E) :
    share p x ≤ 0 ∧ x ≤ (n : Int) * share p x := by
  have h1 := share_nonneg hA hE (x := -x) (by omega) hn
  rw [share_neg, Int.mul_neg] at h1
  omega

theorem share_mono (hA : 0 < p.A) (hE : 0 < p.E) {x y : Int} (h : x ≤ y) : share p x ≤ share p y :=
  Int.tdiv_le_tdiv (by omega) (Int.tdiv_le_tdiv (by omega) h)

/-- A correction of at most `p.E` shares does not enlarge the error beyond what the network causes. -/
theorem corrected (hA : 0 < p.A) (hE : 0 < p.E) {b δ h : Int} {n : Nat} (hn : n ≤ p.E)
    (h1 : (n : Int) * share p (b - δ) ≤ h) (h2 : h ≤ (n : Int) * share p (b + δ)) {M : Int} (hM : |b| ≤ M) (hδM : δ ≤ M) : |b - h| ≤ M := by
  rw [abs_le] at hM ⊢
  constructor
  · rcases Int.le_total 0 (b + δ) with k | k
    · have := (share_nonneg hA hE k hn).2; omega
    · have := (share_nonpos hA hE k hn).1
      have : (n : Int) * share p (b + δ) ≤ 0 := Int.mul_nonpos_of_nonneg_of_nonpos (by omega) this
      omega
  · rcases Int.le_total (b - δ) 0 with k | k
    · have := (share_nonpos hA hE k hn).2; omega
    · have := (share_nonneg hA hE k hn).1
      have : 0 ≤ (n : Int) * share p (b - δ) := Int.mul_nonneg (by omega) this
      omega

/-! ## The statistics of a federate -/

/-- The corrections collected so far are those of a clock that is `e - s.offset` behind; the error is at most `M`. -/
structure StatOk (p : Params) (e δ M : Int) (s : Stat) : Prop where
  index : s.sampleIndex < p.E
  received : (s.sampleIndex : Int) ≤ s.received
  lower : (s.sampleIndex : Int) * share p (e - s.offset - δ) ≤ s.history
  upper : s.history ≤ (s.sampleIndex : Int) * share p (e - s.offset + δ)
  error : |e - s.offset| ≤ M

theorem statOk_T4 (hA : 0 < p.A) (hE : 0 < p.E) {e δ M : Int} (hδM : δ ≤ M) (h0 : 0 ≤ δ) {s : Stat} (h : StatOk p e δ M s) {t4 r4 : Int} {l : Option (Int × Int)} {d : Bool}
    (he : (e - s.offset) - δ ≤ estimate s t4 ∧ estimate s t4 ≤ (e - s.offset) + δ) : StatOk p e δ M (handle_T4 p t4 r4 (.udp l) d s) := by
  obtain ⟨i1, i2, i3, i4, i5⟩ := h
  cases l with
  | none => exact ⟨i1, by simp only [handle_T4]; omega, i3, i4, i5⟩
  | some pr =>
    obtain ⟨t5, r5⟩ := pr
    simp only [handle_T4]
    split
    · exact ⟨i1, by simp only; omega, i3, i4, i5⟩
    · have e1 := share_mono hA hE he.1
      have e2 := share_mono hA hE he.2
      have k1 : ((s.sampleIndex + 1 : Nat) : Int) * share p (e - s.offset - δ) ≤ s.history + share p (estimate s t4) := by
        push_cast; rw [Int.add_mul, Int.one_mul]; omega
      have k2 : s.history + share p (estimate s t4) ≤ ((s.sampleIndex + 1 : Nat) : Int) * share p (e - s.offset + δ) := by
        push_cast; rw [Int.add_mul, Int.one_mul]; omega
      have ee : estimate { s with received := s.received + 1 } t4 = estimate s t4 := rfl
      have k3 := corrected hA hE (n := s.sampleIndex + 1) (by omega) k1 k2 i5 hδM
      simp only [finish, update_socket_stat, ee]
      split
      · split
        · exact ⟨hE, by simp [reset_socket_stat], by simp [reset_socket_stat], by simp [reset_socket_stat], i5⟩
        · refine ⟨hE, by simp [reset_socket_stat], by simp [reset_socket_stat], by simp [reset_socket_stat], ?_⟩
          simp only [reset_socket_stat]
          have : e - (s.offset + (s.history + share p (estimate s t4))) = (e - s.offset) - (s.history + share p (estimate s t4)) := by omega
          unfold share at this k3
          rw [this]; exact k3
      · rename_i hr
        refine ⟨?_, ?_, ?_, ?_, i5⟩
        · dsimp only at hr ⊢; omega
        · dsimp only at hr ⊢; push_cast; omega
        · exact k1
        · exact k2

/-- The error of an estimate is at most half of the largest delay. -/
theorem estimate_bounds {s : Stat} {t4 b D δ out back : Int} (hD : D ≤ 2 * δ) (h1 : 0 ≤ out) (h2 : out ≤ D) (h3 : 0 ≤ back) (h4 : back ≤ D)
    (e1 : s.T2 = s.T1 + out - b) (e2 : t4 = s.T2 + s.localDelay + b + back) : b - δ ≤ estimate s t4 ∧ estimate s t4 ≤ b + δ := by
  unfold estimate
  have : (t4 - s.T1) - s.localDelay = out + back := by omega
  rw [this, Int.tdiv_eq_ediv_of_nonneg (by omega)]
  omega

/-! ## The invariant -/

/-- An exchange whose T3 has been sent at `t3` (of the clock of the RTI), by a federate whose clock is `b` behind. -/
def Sent (D b : Int) (s : Stat) (t3 : Int) : Prop := (∃ out, 0 ≤ out ∧ out ≤ D ∧ s.T2 = s.T1 + out - b) ∧ t3 = s.T2 + s.localDelay + b

/-- An exchange whose T4 has been sent at `t4`. -/
def Ready (D b : Int) (s : Stat) (t4 : Int) : Prop := ∃ t3, Sent D b s t3 ∧ t3 ≤ t4 ∧ t4 ≤ t3 + D

/-- Of one federate: `turn`: the RTI waits for it; `t3`: when the T3 that is on its way was sent. -/
structure FI (p : Params) (D δ e M now : Int) (x : Fed) (l : List Msg) (turn : Prop) (t3 : Option Int) (lg : List (Exchange × Int)) : Prop where
  shape : ∃ a b c, l.Sublist [.T4 a, .probe b, .T1 c]
  sent : ∀ t, t3 = some t → turn ∧ l = [] ∧ x.waiting = false ∧ x.replying = none ∧ x.probing = none ∧ t ≤ now ∧ Sent D (e - x.stat.offset) x.stat t
  t1 : ∀ t, .T1 t ∈ l → turn ∧ t3 = none ∧ t ≤ now ∧ x.replying = none
  rep : ∀ a b, x.replying = some (a, b) → turn ∧ t3 = none ∧ l = [] ∧ x.waiting = true ∧ x.probing = none ∧
    ∃ out, 0 ≤ out ∧ out ≤ D ∧ b = a + out - (e - x.stat.offset)
  t4 : ∀ t, .T4 t ∈ l → x.waiting = false ∧ x.replying = none ∧ x.probing = none ∧ Ready D (e - x.stat.offset) x.stat t
  prb : ∀ a b, x.probing = some (a, b) → x.waiting = false ∧ x.replying = none ∧ Ready D (e - x.stat.offset) x.stat a
  mid : ∀ t, .probe t ∈ l → x.waiting = false ∧ x.replying = none
  stat : StatOk p e δ M x.stat
  log : ∀ y ∈ lg, ∃ out back, 0 ≤ out ∧ out ≤ D ∧ 0 ≤ back ∧ back ≤ D ∧ y.1.Real y.2 out back

variable {D δ e M now : Int} {x : Fed} {l : List Msg} {turn : Prop} {t3 : Option Int} {lg : List (Exchange × Int)}

theorem FI.mono (h : FI p D δ e M now x l turn t3 lg) {now' : Int} (k : now ≤ now') : FI p D δ e M now' x l turn t3 lg := by
  obtain ⟨h1, h2, h3, h4, h5, h6, h9, h7, h8⟩ := h
  refine ⟨h1, fun t e => ?_, fun t e => ?_, h4, h5, h6, h9, h7, h8⟩
  · obtain ⟨a1, a2, a3, a4, a5, a6, a7⟩ := h2 t e
    exact ⟨a1, a2, a3, a4, a5, by omega, a7⟩
  · obtain ⟨a1, a2, a3, a4⟩ := h3 t e
    exact ⟨a1, a2, by omega, a4⟩

/-- When it is not the turn of the federate, nothing else of the state of the RTI matters. -/
theorem FI.idle (h : FI p D δ e M now x l turn t3 lg) (k : ¬ turn) (turn' : Prop) : FI p D δ e M now x l turn' none lg := by
  obtain ⟨h1, h2, h3, h4, h5, h6, h9, h7, h8⟩ := h
  exact ⟨h1, fun t e => (by cases e), fun t e => absurd (h3 t e).1 k, fun a b e => absurd (h4 a b e).1 k, h5, h6, h9, h7, h8⟩

theorem FI.iff (h : FI p D δ e M now x l turn t3 lg) {turn' : Prop} (k : turn ↔ turn') : FI p D δ e M now x l turn' t3 lg := by
  have : turn = turn' := propext k
  exact this ▸ h

/-- Datagrams are lost. -/
theorem FI.lose (h : FI p D δ e M now x l turn t3 lg) {l' : List Msg} (k : l'.Sublist l) : FI p D δ e M now x l' turn t3 lg := by
  obtain ⟨⟨a, b, c, h1⟩, h2, h3, h4, h5, h6, h9, h7, h8⟩ := h
  refine ⟨⟨a, b, c, k.trans h1⟩, fun t e => ?_, fun t e => h3 t (k.subset e), fun a b e => ?_, fun t e => h5 t (k.subset e), h6, fun t e => h9 t (k.subset e), h7, h8⟩
  · obtain ⟨a1, a2, a3⟩ := h2 t e
    exact ⟨a1, List.sublist_nil.1 (a2 ▸ k), a3⟩
  · obtain ⟨a1, a2, a3, a4⟩ := h4 a b e
    exact ⟨a1, a2, List.sublist_nil.1 (a3 ▸ k), a4⟩

theorem FI.loseT3 (h : FI p D δ e M now x l turn t3 lg) : FI p D δ e M now x l turn none lg := by
  obtain ⟨h1, h2, h3, h4, h5, h6, h9, h7, h8⟩ := h
  refine ⟨h1, fun t e => (by cases e), fun t e => ?_, fun a b e => ?_, h5, h6, h9, h7, h8⟩
  · obtain ⟨a1, _, a3⟩ := h3 t e; exact ⟨a1, rfl, a3⟩
  · obtain ⟨a1, _, a3⟩ := h4 a b e; exact ⟨a1, rfl, a3⟩

/-- The RTI sends T1. -/
theorem FI.sendT1 (h : FI p D δ e M now x l turn none lg) (k : ¬ turn) {turn' : Prop} (k' : turn') : FI p D δ e M now x (l ++ [.T1 now]) turn' none lg := by
  obtain ⟨⟨a, b, c, h1⟩, h2, h3, h4, h5, h6, h9, h7, h8⟩ := h
  have h1' : l.Sublist [.T4 a, .probe b] := by
    rw [show [Msg.T4 a, .probe b, .T1 c] = [.T4 a, .probe b] ++ [.T1 c] from rfl, List.sublist_append_iff] at h1
    obtain ⟨l1, l2, e1, e2, e3⟩ := h1
    cases l2 with
    | nil => rw [e1, List.append_nil]; exact e2
    | cons m l3 =>
      have hm := List.mem_singleton.1 (e3.subset (List.mem_cons_self ..))
      exact absurd (h3 c (by rw [e1]; simp [hm])).1 k
  refine ⟨⟨a, b, now, h1'.append (List.Sublist.refl _)⟩, fun t e => (by cases e), fun t e => ?_, fun a b e => absurd (h4 a b e).1 k, fun t e => h5 t (by simpa using e), h6, fun t e => h9 t (by simpa using e), h7, h8⟩
  rcases List.mem_append.1 e with q | q
  · exact absurd (h3 t q).1 k
  · have := List.mem_singleton.1 q
    cases this
    refine ⟨k', rfl, Int.le_refl _, ?_⟩
    cases hr : x.replying with
    | none => rfl
    | some ab => exact absurd (h4 ab.1 ab.2 hr).1 k

/-- The RTI receives T3. -/
theorem FI.recvT3 {t t5 : Int} (h : FI p D δ e M now x l turn (some t) lg) (k : now ≤ t + D) (turn' : Prop) :
    FI p D δ e M now x (l ++ [.T4 now, .probe t5]) turn' none lg := by
  obtain ⟨h1, h2, h3, h4, h5, h6, h9, h7, h8⟩ := h
  obtain ⟨a1, a2, a3, a4, a5, a6, a7⟩ := h2 t rfl
  subst a2
  refine ⟨⟨now, t5, 0, ?_⟩, fun t e => (by cases e), fun t e => ?_, fun a b e => ?_, fun t' e => ?_, h6, fun t e => ⟨a3, a4⟩, h7, h8⟩
  · simp
  · simp at e
  · rw [a4] at e; cases e
  · simp at e; subst e
    exact ⟨a3, a4, a5, t, a7, a6, k⟩

/-- The federate receives something. -/
theorem FI.head {m : Msg} (h : FI p D δ e M now x (m :: l) turn t3 lg) : FI p D δ e M now x l turn t3 lg := h.lose (List.sublist_cons_self _ _)

theorem FI.replying (h : FI p D δ e M now x (.T1 t :: l) turn t3 lg) {b : Int} (k : now ≤ t + D) (hb : b = now - (e - x.stat.offset)) (hw : x.waiting = true)
    (hp : x.probing = none) : FI p D δ e M now { x with replying := some (t, b) } l turn t3 lg := by
  obtain ⟨⟨a1, a2, a3, h1⟩, h2, h3, h4, h5, h6, h9, h7, h8⟩ := h
  obtain ⟨q1, q2, q3, q4⟩ := h3 t (List.mem_cons_self ..)
  have hl : l = [] := by
    cases h1 with
    | cons _ h1 => cases h1 with
      | cons _ h1 => cases h1 with
        | cons _ h1 => cases h1
        | cons_cons _ h1 => exact List.sublist_nil.1 h1
  subst hl
  refine ⟨⟨0, 0, 0, by simp⟩, fun t e => (by rw [q2] at e; cases e), fun t e => (by cases e), fun a b' e => ?_, fun t e => (by cases e), fun a b e => ?_, fun t e => (by cases e), h7, h8⟩
  · cases e
    exact ⟨q1, q2, rfl, hw, hp, now - t, by omega, by omega, by dsimp only; omega⟩
  · dsimp only at e; rw [hp] at e; cases e

theorem FI.probing (h : FI p D δ e M now x (.T4 t :: l) turn t3 lg) {b : Int} : FI p D δ e M now { x with probing := some (t, b) } l turn t3 lg := by
  obtain ⟨⟨a1, a2, a3, h1⟩, h2, h3, h4, h5, h6, h9, h7, h8⟩ := h
  obtain ⟨q1, q2, q3, q4⟩ := h5 t (List.mem_cons_self ..)
  have hl : ∃ b c, l.Sublist [.probe b, .T1 c] := by
    cases h1 with
    | cons _ h1 => cases h1 with
      | cons _ h1 => cases h1 with
        | cons _ h1 => cases h1
    | cons_cons _ h1 => exact ⟨_, _, h1⟩
  obtain ⟨b', c', hl⟩ := hl
  refine ⟨⟨0, b', c', hl.trans (List.sublist_cons_self _ _)⟩, fun t e => ?_, fun t e => h3 t (List.mem_cons_of_mem _ e), fun a b' e => ?_, fun t e => ?_, fun a b e => ?_, fun t e => h9 t (List.mem_cons_of_mem _ e), h7, h8⟩
  · cases (h2 t e).2.1
  · dsimp only at e; rw [q2] at e; cases e
  · have := hl.subset e; simp at this
  · cases e; exact ⟨q1, q2, q4⟩

theorem FI.skip {m : Msg} (h : FI p D δ e M now x (m :: l) turn t3 lg) (hm : ∀ t, m ≠ .T4 t) (hw : x.waiting = false) (hp : x.probing = none) :
    FI p D δ e M now { x with waiting := true } l turn t3 lg := by
  obtain ⟨⟨a1, a2, a3, h1⟩, h2, h3, h4, h5, h6, h9, h7, h8⟩ := h
  have hl : ∃ c, l.Sublist [.T1 c] := by
    cases h1 with
    | cons _ h1 => cases h1 with
      | cons _ h1 => exact ⟨_, (List.sublist_cons_self _ _).trans h1⟩
      | cons_cons _ h1 => exact ⟨_, h1⟩
    | cons_cons _ h1 => exact absurd rfl (hm _)
  obtain ⟨c', hl⟩ := hl
  refine ⟨⟨0, 0, c', hl.trans ((List.sublist_cons_self _ _).trans (List.sublist_cons_self _ _))⟩, fun t e => ?_, fun t e => h3 t (List.mem_cons_of_mem _ e), fun a b' e => ?_,
    fun t e => ?_, fun a b e => ?_, fun t e => ?_, h7, h8⟩
  · cases (h2 t e).2.1
  · have := (h4 a b' e).2.2.2.1; rw [hw] at this; cases this
  · have := hl.subset e; simp at this
  · dsimp only at e; rw [hp] at e; cases e
  · have := hl.subset e; simp at this

theorem FI.ends {m : Msg} (hA : 0 < p.A) (hE : 0 < p.E) (hδM : δ ≤ M) (h0 : 0 ≤ δ) (hD : D ≤ 2 * δ) (h : FI p D δ e M now x (m :: l) turn t3 lg) {a r : Int} (hp : x.probing = some (a, r))
    (lk : Option (Int × Int)) (d : Bool) {lg' : List (Exchange × Int)}
    (hlg : lg' = (exchange x.stat a r (.udp lk) d, e - x.stat.offset) :: lg ∨ lg' = lg) :
    FI p D δ e M now { x with waiting := true, probing := none, stat := handle_T4 p a r (.udp lk) d x.stat } l turn t3 lg' := by
  obtain ⟨h1, h2, h3, h4, h5, h6, h9, h7, h8⟩ := h
  obtain ⟨w, rp, t, ⟨⟨out, o1, o2, o3⟩, s2⟩, g1, g2⟩ := h6 a r hp
  have est := estimate_bounds (t4 := a) hD o1 o2 (back := a - t) (by omega) (by omega) o3 (by omega)
  obtain ⟨a1, a2, a3, h1⟩ := h1
  have hl : ∃ c, l.Sublist [.T1 c] := by
    cases h1 with
    | cons _ h1 => cases h1 with
      | cons _ h1 => exact ⟨_, (List.sublist_cons_self _ _).trans h1⟩
      | cons_cons _ h1 => exact ⟨_, h1⟩
    | cons_cons _ h1 =>
      have := (h5 _ (List.mem_cons_self ..)).2.2.1
      rw [hp] at this; cases this
  obtain ⟨c', hl⟩ := hl
  refine ⟨⟨a1, a2, a3, (List.sublist_cons_self _ _).trans h1⟩, fun t e => ?_, fun t e => h3 t (List.mem_cons_of_mem _ e), fun a b' e => ?_,
    fun t e => ?_, fun a b e => (by cases e), fun t e => ?_, statOk_T4 hA hE hδM h0 h7 est, fun y hy => ?_⟩
  · cases (h2 t e).2.1
  · dsimp only at e; rw [rp] at e; cases e
  · have := (h5 t (List.mem_cons_of_mem _ e)).2.2.1; rw [hp] at this; cases this
  · have := hl.subset e; simp at this
  · rcases hlg with q | q
    · rw [q] at hy
      rcases List.mem_cons.1 hy with q | q
      · subst q
        exact ⟨out, a - t, o1, o2, by omega, by omega, o1, by omega, o3, by simp only [exchange]; omega⟩
      · exact h8 y q
    · rw [q] at hy; exact h8 y hy

theorem statOk_T1 {s : Stat} (h : StatOk p e δ M s) (a b : Int) (t : Option Int) : StatOk p e δ M (handle_T1 a b t s) := by
  obtain ⟨i1, i2, i3, i4, i5⟩ := h
  cases t <;> exact ⟨i1, i2, i3, i4, i5⟩

theorem FI.reply (h : FI p D δ e M now x l turn t3 lg) {a b : Int} (hr : x.replying = some (a, b)) :
    FI p D δ e M now { x with waiting := false, replying := none, stat := handle_T1 a b (some (now - (e - x.stat.offset))) x.stat } l turn (some now) lg := by
  obtain ⟨h1, h2, h3, h4, h5, h6, h9, h7, h8⟩ := h
  obtain ⟨q1, q2, q3, q4, q5, out, o1, o2, o3⟩ := h4 a b hr
  subst q3
  refine ⟨⟨0, 0, 0, by simp⟩, fun t e => ?_, fun t e => (by cases e), fun a b' e => (by cases e), fun t e => (by cases e), fun a b e => ?_, fun t e => (by cases e), ?_, h8⟩
  · cases e
    exact ⟨q1, rfl, rfl, rfl, q5, Int.le_refl _, ⟨out, o1, o2, by simp only [handle_T1]; omega⟩, by simp only [handle_T1]; omega⟩
  · dsimp only at e; rw [q5] at e; cases e
  · exact statOk_T1 h7 a b (some _)

theorem FI.replyFails (h : FI p D δ e M now x l turn t3 lg) {a b : Int} (hr : x.replying = some (a, b)) :
    FI p D δ e M now { x with waiting := true, replying := none, stat := handle_T1 a b none x.stat } l turn t3 lg := by
  obtain ⟨h1, h2, h3, h4, h5, h6, h9, h7, h8⟩ := h
  obtain ⟨q1, q2, q3, q4, q5, out, o1, o2, o3⟩ := h4 a b hr
  subst q3
  refine ⟨⟨0, 0, 0, by simp⟩, fun t e => (by rw [q2] at e; cases e), fun t e => (by cases e), fun a b' e => (by cases e), fun t e => (by cases e), fun a b e => ?_,
    fun t e => (by cases e), statOk_T1 h7 a b none, h8⟩
  dsimp only at e; rw [q5] at e; cases e

/-! ## All of them -/

def t3of (s : State) (f : Nat) : Option Int := if f = s.cur then s.up.head?.map (·.2) else none

structure Inv (C : Config) (δ : Int) (M : Nat → Int) (s : State) : Prop where
  up : s.up = [] ∨ ∃ t, s.up = [(s.cur, t)] ∧ s.left ≠ none
  fed : ∀ f, FI C.p C.D δ (C.error f) (M f) s.now (s.fed f) (s.down f) (f = s.cur ∧ s.left ≠ none) (t3of s f) (s.log f)

theorem inv_step {C : Config} (hA : 0 < C.p.A) (hE : 0 < C.p.E) {δ : Int} {M : Nat → Int} (hM : ∀ f, δ ≤ M f) (h0 : 0 ≤ δ) (hD : C.D ≤ 2 * δ) {s s' : State}
    (h : Inv C δ M s) (st : Step C s s') : Inv C δ M s' := by
  have hup := h.up
  have hf := h.fed
  cases st with
  | tick k => exact ⟨hup, fun f => (hf f).mono k⟩
  | sleep k1 k2 k3 =>
    have hu : s.up = [] := by
      rcases hup with q | ⟨t, _, q⟩
      · exact q
      · exact absurd k1 q
    refine ⟨.inl hu, fun f => ?_⟩
    have : t3of { s with round := s.round + 1, cur := 0, any := false } f = none := by unfold t3of; simp [hu]
    rw [this]
    exact (hf f).idle (fun q => q.2 k1) _
  | sendT1 k1 k2 =>
    have hu : s.up = [] := by
      rcases hup with q | ⟨t, _, q⟩
      · exact q
      · exact absurd k1 q
    refine ⟨.inl hu, fun f => ?_⟩
    have ht : ∀ g, t3of s g = none := by intro g; unfold t3of; simp [hu]
    have ht' : t3of { s with down := put s.down s.cur (s.down s.cur ++ [.T1 s.now]), left := some 5 } f = none := by unfold t3of; simp [hu]
    rw [ht']
    by_cases c : f = s.cur
    · subst c
      dsimp only
      rw [put_same]
      have := hf s.cur
      rw [ht] at this
      exact this.sendT1 (fun q => q.2 k1) ⟨rfl, by simp⟩
    · dsimp only
      rw [put_other _ _ _ c]
      exact (hf f).idle (fun q => c q.1) _
  | @recvT3 k t5 sent rest k1 k2 k3 k4 =>
    have hu : rest = [] := by
      rcases hup with q | ⟨t, q, _⟩
      · rw [q] at k2; cases k2
      · rw [q] at k2; cases k2; rfl
    subst hu
    refine ⟨.inl rfl, fun f => ?_⟩
    have ht' : ∀ s', s'.up = [] → t3of s' f = none := by intro s' q; unfold t3of; simp [q]
    rw [ht' _ rfl]
    by_cases c : f = s.cur
    · subst c
      dsimp only
      rw [put_same]
      have := hf s.cur
      have ht : t3of s s.cur = some sent := by unfold t3of; simp [k2]
      rw [ht] at this
      exact this.recvT3 k3 _
    · dsimp only
      rw [put_other _ _ _ c]
      exact (hf f).idle (fun q => c q.1) _
  | recvOther k1 k2 k3 =>
    rcases hup with q | ⟨t, q, _⟩
    · rw [q] at k2; cases k2
    · rw [q] at k2; cases k2; exact absurd rfl k3
  | @receive f m rest dev k1 k2 k3 k4 =>
    have hff := hf f
    rw [k2] at hff
    have other : ∀ {x : Fed} {lg : List (Exchange × Int)} {down' fed' log'},
        down' = put s.down f rest → fed' = put s.fed f x → log' = put s.log f lg →
        FI C.p C.D δ (C.error f) (M f) s.now x rest (f = s.cur ∧ s.left ≠ none) (t3of s f) lg →
        Inv C δ M { s with down := down', fed := fed', log := log' } := by
      intro x lg down' fed' log' e1 e2 e3 hx
      subst e1 e2 e3
      refine ⟨hup, fun g => ?_⟩
      by_cases c : g = f
      · subst c
        dsimp only
        rw [put_same, put_same, put_same]
        exact hx
      · dsimp only
        rw [put_other _ _ _ c, put_other _ _ _ c, put_other _ _ _ c]
        exact hf g
    have putid : ∀ {α : Type} (g : Nat → α), g = put g f (g f) := by
      intro α g; funext j; unfold put; split
      · rename_i q; rw [q]
      · rfl
    unfold receive
    dsimp only
    split
    · rename_i t4 r4 hp
      unfold endExchange
      dsimp only
      cases m with
      | probe t5 =>
        dsimp only
        split
        · exact other rfl rfl rfl (hff.ends hA hE (hM f) h0 hD hp (some _) dev (.inl rfl))
        · exact other rfl rfl (putid _) (hff.ends hA hE (hM f) h0 hD hp (some _) dev (.inr rfl))
      | T1 t =>
        have : counts C.p t4 r4 (.udp none) = false := by simp [counts]
        simp only [this, Bool.false_eq_true, if_false]
        exact other rfl rfl (putid _) (hff.ends hA hE (hM f) h0 hD hp none dev (.inr rfl))
      | T4 t =>
        have : counts C.p t4 r4 (.udp none) = false := by simp [counts]
        simp only [this, Bool.false_eq_true, if_false]
        exact other rfl rfl (putid _) (hff.ends hA hE (hM f) h0 hD hp none dev (.inr rfl))
    · rename_i hp
      split
      · rename_i hw
        split
        · rename_i t
          exact other rfl rfl (putid _) (hff.replying k4 rfl hw hp)
        · exact other rfl (putid _) (putid _) hff.head
      · rename_i hw
        have hw : (s.fed f).waiting = false := by simpa using hw
        split
        · rename_i t
          exact other rfl rfl (putid _) hff.probing
        · rename_i hm
          exact other rfl rfl (putid _) (hff.skip hm hw hp)
  | @reply f t1 t2 k =>
    have hff := hf f
    obtain ⟨q1, q2, q3, q4, q5, _⟩ := hff.rep t1 t2 k
    obtain ⟨rfl, q1⟩ := q1
    have hu : s.up = [] := by
      unfold t3of at q2
      rcases hup with q | ⟨t, q, _⟩
      · exact q
      · rw [q] at q2; simp at q2
    refine ⟨.inr ⟨s.now, by simp [hu], q1⟩, fun g => ?_⟩
    by_cases c : g = s.cur
    · subst c
      dsimp only
      rw [put_same]
      generalize hq : t3of _ s.cur = q
      have : q = some s.now := by rw [← hq]; unfold t3of; simp [hu]
      subst this
      exact hff.reply k
    · dsimp only
      rw [put_other _ _ _ c]
      generalize hq : t3of _ g = q
      have : q = none := by rw [← hq]; unfold t3of; simp [c]
      subst this
      exact ((hf g).idle (fun q => c q.1) _)
  | @replyFails f t1 t2 k =>
    refine ⟨hup, fun g => ?_⟩
    by_cases c : g = f
    · subst c
      dsimp only
      rw [put_same]
      exact (hf g).replyFails k
    · dsimp only
      rw [put_other _ _ _ c]
      exact hf g
  | @loseDown f i k =>
    refine ⟨hup, fun g => ?_⟩
    by_cases c : g = f
    · subst c
      dsimp only
      rw [put_same]
      exact (hf g).lose (List.eraseIdx_sublist ..)
    · dsimp only
      rw [put_other _ _ _ c]
      exact hf g
  | @loseUp i k =>
    have hu : s.up.eraseIdx i = [] := by
      rcases hup with q | ⟨t, q, _⟩
      · rw [q] at k; simp at k
      · rw [q] at k ⊢
        have : i = 0 := by simp at k; exact k
        subst this; rfl
    refine ⟨.inl hu, fun g => ?_⟩
    have ht : ∀ s', s'.up = [] → t3of s' g = none := by intro s' q; unfold t3of; simp [q]
    rw [ht _ hu]
    exact (hf g).loseT3

theorem inv_init (C : Config) (hE : 0 < C.p.E) {δ : Int} {M : Nat → Int} (now : Int) (offset : Nat → Int) (hM : ∀ f, |C.error f - offset f| ≤ M f) :
    Inv C δ M (init now offset) := by
  refine ⟨.inl rfl, fun f => ⟨⟨0, 0, 0, by simp [init]⟩, fun t e => ?_, fun t e => (by cases e), fun a b e => (by cases e), fun t e => (by cases e), fun a b e => (by cases e), fun t e => (by cases e), ?_, fun y hy => by cases hy⟩⟩
  · have : t3of (init now offset) f = none := by unfold t3of; split <;> rfl
    rw [this] at e; cases e
  · exact ⟨hE, by simp [init, ClockSync.init], by simp [init, ClockSync.init], by simp [init, ClockSync.init], hM f⟩

theorem reach_inv {C : Config} (hA : 0 < C.p.A) (hE : 0 < C.p.E) {δ : Int} {M : Nat → Int} (hM : ∀ f, δ ≤ M f) (h0 : 0 ≤ δ) (hD : C.D ≤ 2 * δ) {now : Int} {offset : Nat → Int}
    (hO : ∀ f, |C.error f - offset f| ≤ M f) {s : State} (h : Reach C now offset s) : Inv C δ M s := by
  induction h with
  | init => exact inv_init C hE now offset hO
  | step _ st ih => exact inv_step hA hE hM h0 hD ih st

end ReactorC.ClockSync.Udp
