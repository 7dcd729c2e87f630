import Verif.ClockSync.Model
import Mathlib.Algebra.BigOperators.Group.List.Basic
import Mathlib.Tactic.Common
import Mathlib.Tactic.Ring
import Mathlib.Tactic.Linarith

/-! # C40: clock synchronisation -/

namespace ReactorC.ClockSync

/-! ## Specification -/

/-- One complete exchange of messages: T1 is sent at RTI time `t1` and received at federate time `t2`; the reply is
sent at federate time `t3`; T4 is sent at RTI time `t4` and received at federate time `r4`. -/
structure Exchange where
  t1 : Int
  t2 : Int
  t3 : Int
  t4 : Int
  r4 : Int
  link : Link
  deviant : Bool
deriving DecidableEq, Repr

/-- The messages of an exchange. -/
def Exchange.inputs (x : Exchange) : List Input :=
  [.T1 x.t1 x.t2 (some x.t3), .T4 x.t4 x.r4 x.link x.deviant]

/-- The round trip: the RTI's waiting time less the time the federate took to reply. -/
def Exchange.roundTrip (x : Exchange) : Int := (x.t4 - x.t1) - (x.t3 - x.t2)

/-- The estimate of how far the federate's clock is behind: half the round trip, less the observed difference. -/
def Exchange.error (x : Exchange) : Int := Int.tdiv x.roundTrip 2 - (x.t2 - x.t1)

/-- The exchange is one of a clock that is `behind` the RTI's, over a network that takes `out` for T1 and `back` for
T3: the physics of an exchange. -/
structure Exchange.Real (x : Exchange) (behind out back : Int) : Prop where
  out_nonneg : 0 ≤ out
  back_nonneg : 0 ≤ back
  t2 : x.t2 = x.t1 + out - behind
  t4 : x.t4 = (x.t3 + behind) + back

/-- The exchange is used: over TCP always, over UDP if the coded probe arrived and is within the guard band. -/
def Exchange.Used (p : Params) (x : Exchange) : Prop :=
  x.link = .tcp ∨ ∃ t5 r5, x.link = .udp (some (t5, r5)) ∧ (((x.r4 - r5) - (x.t4 - t5)).natAbs : Int) < p.G

/-- What an exchange contributes: the error, attenuated if it is over UDP. -/
def Exchange.adjustment (p : Params) (x : Exchange) : Int :=
  match x.link with
  | .tcp => x.error
  | .udp _ => Int.tdiv x.error p.A

/-- The federate's correction after the exchanges. -/
def runAll (p : Params) (s : Stat) (xs : List Exchange) : Stat := run p s (xs.flatMap Exchange.inputs)

/-! ## The estimate -/

/-- C40.  Over a network that is as fast one way as the other, the estimate is exact. -/
theorem C40_exact_if_symmetric (x : Exchange) (behind delay : Int) (h : x.Real behind delay delay) :
    x.error = behind := by
  unfold Exchange.error Exchange.roundTrip
  rw [h.t4, h.t2]
  have : x.t3 + behind + delay - x.t1 - (x.t3 - (x.t1 + delay - behind)) = 2 * delay := by ring
  rw [this, Int.mul_tdiv_cancel_left delay (by omega)]
  omega

/-- C40.  In any case it is off by at most half the round trip (rounded up), which is the sum of the delays. -/
theorem C40_error_at_most_half_round_trip (x : Exchange) (behind out back : Int) (h : x.Real behind out back) :
    x.roundTrip = out + back ∧ 2 * |x.error - behind| ≤ x.roundTrip + 1 := by
  have hr : x.roundTrip = out + back := by
    unfold Exchange.roundTrip; rw [h.t4, h.t2]; ring
  refine ⟨hr, ?_⟩
  have h1 := h.out_nonneg
  have h2 := h.back_nonneg
  unfold Exchange.error
  rw [hr, h.t2, Int.tdiv_eq_ediv_of_nonneg (by omega)]
  rw [abs_eq_max_neg]
  omega

/-- A clock 1000 behind, over a network taking 30 and 50. -/
example : (⟨0, -970, -960, 90, -900, .tcp, false⟩ : Exchange).Real 1000 30 50 :=
  ⟨by decide, by decide, by decide, by decide⟩
example : (⟨0, -970, -960, 90, -900, .tcp, false⟩ : Exchange).error = 1010 := by decide

/-! ## The code -/

theorem estimate_eq (x : Exchange) (s : Stat) (r : Int) :
    estimate { handle_T1 x.t1 x.t2 (some x.t3) s with received := r } x.t4 = x.error := by
  simp [estimate, handle_T1, Exchange.error, Exchange.roundTrip]

theorem used_run (p : Params) (s : Stat) (x : Exchange) (h : x.Used p) :
    run p s x.inputs = finish p (x.adjustment p) x.deviant
      { handle_T1 x.t1 x.t2 (some x.t3) s with received := s.received + 1 } := by
  rcases h with h | ⟨t5, r5, h, hg⟩
  · simp only [run, Exchange.inputs, List.foldl, handle, handle_T4, h, Exchange.adjustment]
    rw [show (handle_T1 x.t1 x.t2 (some x.t3) s).received = s.received from rfl, estimate_eq]
  · simp only [run, Exchange.inputs, List.foldl, handle, handle_T4, h, Exchange.adjustment]
    rw [show (handle_T1 x.t1 x.t2 (some x.t3) s).received = s.received from rfl, estimate_eq]
    rw [if_neg]
    omega

theorem run_append (p : Params) (s : Stat) (a b : List Input) : run p s (a ++ b) = run p (run p s a) b := by
  simp [run, List.foldl_append]

/-- Exchanges that do not fill the window. -/
theorem runAll_short (p : Params) (xs : List Exchange) (s : Stat) (hu : ∀ x ∈ xs, x.Used p)
    (hlen : s.received + xs.length < p.E) :
    (runAll p s xs).received = s.received + xs.length ∧ (runAll p s xs).offset = s.offset ∧
    (runAll p s xs).history = s.history + (xs.map (fun x => (x.adjustment p).tdiv p.E)).sum := by
  induction xs generalizing s with
  | nil => simp [runAll, run]
  | cons x xs ih =>
    simp only [runAll, List.flatMap_cons, run_append] at ih ⊢
    have h1 := used_run p s x (hu x (by simp))
    simp only [List.length_cons] at hlen
    have h2 : run p s x.inputs =
        { handle_T1 x.t1 x.t2 (some x.t3) s with
          received := s.received + 1
          overrun := s.overrun || decide (p.E ≤ s.sampleIndex)
          sampleIndex := s.sampleIndex + 1
          history := s.history + (x.adjustment p).tdiv p.E } := by
      rw [h1]
      simp only [finish, update_socket_stat, handle_T1]
      have hc : ¬ (p.E : Int) ≤ s.received + 1 := by push_cast at hlen; omega
      exact if_neg hc
    obtain ⟨h3, h4, h5⟩ := ih (run p s x.inputs) (fun y hy => hu y (by simp [hy])) (by rw [h2]; push_cast; push_cast at hlen; omega)
    rw [h2] at h3 h4 h5
    rw [h2, h3, h4, h5]
    refine ⟨?_, rfl, ?_⟩
    · simp; omega
    · simp; omega

/-! ## Properties of the correction -/

/-- C40.  A full window of used exchanges, begun after a reset and with a small enough deviation at its end, changes the
clock's offset by the sum of the exchanges' contributions, each divided by the size of the window, and begins a new
window. -/
theorem C40_window_correction (p : Params) (xs : List Exchange) (last : Exchange) (s : Stat)
    (used : ∀ x ∈ xs ++ [last], x.Used p) (fresh : s.received = 0 ∧ s.history = 0)
    (full : (xs ++ [last]).length = p.E) (calm : last.deviant = false) :
    (runAll p s (xs ++ [last])).offset = s.offset + ((xs ++ [last]).map (fun x => (x.adjustment p).tdiv p.E)).sum ∧
    (runAll p s (xs ++ [last])).received = 0 ∧ (runAll p s (xs ++ [last])).history = 0 := by
  simp only [List.length_append, List.length_cons, List.length_nil] at full
  obtain ⟨h1, h2, h3⟩ := runAll_short p xs s (fun x hx => used x (by simp [hx])) (by rw [fresh.1]; omega)
  have h4 : runAll p s (xs ++ [last]) = run p (runAll p s xs) last.inputs := by
    simp [runAll, run_append]
  rw [h4, used_run p _ last (used last (by simp))]
  simp only [finish, update_socket_stat, handle_T1]
  have hc : (p.E : Int) ≤ (runAll p s xs).received + 1 := by rw [h1, fresh.1]; omega
  simp only [if_pos hc, calm, Bool.false_eq_true, if_false]
  simp only [reset_socket_stat, h2, h3, fresh.2]
  refine ⟨?_, trivial, trivial⟩
  simp only [List.map_append, List.sum_append, List.map_cons, List.map_nil, List.sum_cons, List.sum_nil]
  simp

theorem tdiv_bound (a : Int) (n : Nat) (hn : 0 < n) : |a - n * a.tdiv n| ≤ n - 1 := by
  have h1 := Int.mul_tdiv_add_tmod a n
  have h3 : a - n * a.tdiv n = a.tmod n := by omega
  rw [h3]
  have h2 := Int.tmod_lt_of_pos a (b := (n : Int)) (by omega)
  have h4 := Int.lt_tmod_of_pos a (b := (n : Int)) (by omega)
  rw [abs_le]
  omega

/-- C40.  That change differs from the average contribution only by truncation: multiplied by the size `E` of the
window, it differs from the sum of the contributions by at most `E * (E - 1)`. -/
theorem C40_average_up_to_truncation (p : Params) (xs : List Exchange) (full : xs.length = p.E) :
    |(xs.map (·.adjustment p)).sum - p.E * (xs.map (fun x => (x.adjustment p).tdiv p.E)).sum| ≤ p.E * (p.E - 1) := by
  have key : ∀ ys : List Exchange, 0 < p.E →
      |(ys.map (·.adjustment p)).sum - p.E * (ys.map (fun x => (x.adjustment p).tdiv p.E)).sum| ≤
        ys.length * (p.E - 1) := by
    intro ys hE
    induction ys with
    | nil => simp
    | cons y ys ih =>
      have hb := tdiv_bound (y.adjustment p) p.E hE
      simp only [List.map_cons, List.sum_cons, List.length_cons]
      push_cast
      rw [abs_le] at *
      constructor <;> linarith [ih.1, ih.2, hb.1, hb.2]
  cases hE : p.E with
  | zero =>
    rw [hE] at full
    have := List.length_eq_zero_iff.1 full
    subst this
    simp
  | succ n =>
    have := key xs (by omega)
    rw [full, hE] at this
    exact this

/-- C40.  The initial synchronisation, over TCP and a symmetric network, of a clock that is off by `behind` leaves it
off by less than the number of exchanges (in nanoseconds). -/
theorem C40_initial_synchronisation (p : Params) (xs : List Exchange) (last : Exchange) (behind : Int)
    (tcp : ∀ x ∈ xs ++ [last], x.link = .tcp) (real : ∀ x ∈ xs ++ [last], ∃ delay, x.Real behind delay delay)
    (full : (xs ++ [last]).length = p.E) (calm : last.deviant = false) :
    |behind - (runAll p init (xs ++ [last])).offset| < p.E := by
  have hw := C40_window_correction p xs last init (fun x hx => Or.inl (tcp x hx)) ⟨rfl, rfl⟩ full calm
  rw [hw.1]
  have hadj : ∀ x ∈ xs ++ [last], (x.adjustment p).tdiv p.E = behind.tdiv p.E := by
    intro x hx
    obtain ⟨d, hd⟩ := real x hx
    simp only [Exchange.adjustment, tcp x hx]
    rw [C40_exact_if_symmetric x behind d hd]
  rw [List.map_congr_left hadj]
  simp only [List.map_const', List.sum_replicate, full, nsmul_eq_mul]
  have hE : 0 < p.E := by rw [← full]; simp
  have := tdiv_bound behind p.E hE
  show |behind - (0 + _)| < _
  rw [zero_add]
  exact lt_of_le_of_lt this (by omega)

/-- C40.  Over UDP and a symmetric network a window of exchanges moves the clock in the right direction and does not
overshoot: the correction is between zero and the error divided by the attenuation. -/
theorem C40_runtime_correction_bounded (p : Params) (xs : List Exchange) (last : Exchange) (s : Stat) (behind : Int)
    (ahead : 0 ≤ behind) (used : ∀ x ∈ xs ++ [last], x.Used p)
    (udp : ∀ x ∈ xs ++ [last], ∃ probe, x.link = .udp probe)
    (real : ∀ x ∈ xs ++ [last], ∃ delay, x.Real behind delay delay)
    (fresh : s.received = 0 ∧ s.history = 0) (full : (xs ++ [last]).length = p.E) (calm : last.deviant = false) :
    0 ≤ (runAll p s (xs ++ [last])).offset - s.offset ∧
    (runAll p s (xs ++ [last])).offset - s.offset ≤ behind / p.A ∧
    behind / p.A < (runAll p s (xs ++ [last])).offset - s.offset + p.E := by
  have hw := C40_window_correction p xs last s used fresh full calm
  rw [hw.1]
  have hadj : ∀ x ∈ xs ++ [last], (x.adjustment p).tdiv p.E = (behind / p.A) / p.E := by
    intro x hx
    obtain ⟨d, hd⟩ := real x hx
    obtain ⟨pr, hpr⟩ := udp x hx
    simp only [Exchange.adjustment, hpr]
    rw [C40_exact_if_symmetric x behind d hd, Int.tdiv_eq_ediv_of_nonneg ahead, Int.tdiv_eq_ediv_of_nonneg]
    exact Int.ediv_nonneg ahead (Int.natCast_nonneg _)
  rw [List.map_congr_left hadj]
  simp only [List.map_const', List.sum_replicate, full, nsmul_eq_mul]
  have hE : 0 < p.E := by rw [← full]; simp
  have h1 : 0 ≤ behind / (p.A : Int) := Int.ediv_nonneg ahead (by omega)
  have h2 := Int.mul_ediv_add_emod (behind / p.A) p.E
  have h3 := Int.emod_nonneg (behind / p.A) (b := (p.E : Int)) (by omega)
  have h4 := Int.emod_lt_of_pos (behind / p.A) (b := (p.E : Int)) (by omega)
  have h5 : 0 ≤ (p.E : Int) * (behind / p.A / p.E) := by
    have := Int.ediv_nonneg h1 (b := (p.E : Int)) (by omega)
    positivity
  omega

/-- C40.  Whatever messages arrive, the array of samples is never overrun. -/
theorem C40_samples_not_overrun (p : Params) (hE : 0 < p.E) (l : List Input) : (run p init l).overrun = false := by
  have key : ∀ (l : List Input) (s : Stat), s.overrun = false → s.sampleIndex < p.E →
      ((s.sampleIndex : Int) ≤ s.received) → (run p s l).overrun = false := by
    intro l
    induction l with
    | nil => intro s h _ _; exact h
    | cons i l ih =>
      intro s h1 h2 h3
      have hfin : ∀ (s' : Stat) (a : Int) (d : Bool), s'.overrun = false → s'.sampleIndex < p.E →
          (s'.sampleIndex : Int) + 1 ≤ s'.received →
          (finish p a d s').overrun = false ∧ (finish p a d s').sampleIndex < p.E ∧
            ((finish p a d s').sampleIndex : Int) ≤ (finish p a d s').received := by
        intro s' a d g1 g2 g3
        simp only [finish, update_socket_stat, g1]
        split
        · split
          · simp [reset_socket_stat]; omega
          · simp [reset_socket_stat]; omega
        · refine ⟨by simp; omega, ?_, ?_⟩
          · dsimp only at *; omega
          · dsimp only; push_cast; omega
      show (run p (handle p s i) l).overrun = false
      suffices hs : (handle p s i).overrun = false ∧ (handle p s i).sampleIndex < p.E ∧
          ((handle p s i).sampleIndex : Int) ≤ (handle p s i).received from ih _ hs.1 hs.2.1 hs.2.2
      cases i with
      | T1 t1 t2 t3 => cases t3 <;> exact ⟨h1, h2, h3⟩
      | T4 t4 r4 link d =>
        simp only [handle, handle_T4]
        cases link with
        | tcp => exact hfin _ _ _ h1 h2 (by dsimp only; omega)
        | udp probe =>
          cases probe with
          | none => exact ⟨h1, h2, by dsimp only; omega⟩
          | some pr =>
            obtain ⟨t5, r5⟩ := pr
            dsimp only
            split
            · exact ⟨h1, h2, by dsimp only; omega⟩
            · exact hfin _ _ _ h1 h2 (by dsimp only; omega)
  exact key l init rfl hE (by decide)

/-- Ten symmetric exchanges over TCP of a clock 1234 behind leave it 4 behind. -/
def demoParams : Params := ⟨10, 10, 100000⟩
def demoExchange : Exchange := ⟨0, -1204, -1194, 70, -1100, .tcp, false⟩

example : demoExchange.Real 1234 30 30 := ⟨by decide, by decide, by decide, by decide⟩
example : (runAll demoParams init (List.replicate 9 demoExchange ++ [demoExchange])).offset = 1230 := by decide +kernel

/-- A used exchange over UDP. -/
example : (⟨0, -1204, -1194, 70, -1100, .udp (some (80, -1090)), false⟩ : Exchange).Used demoParams :=
  Or.inr ⟨80, -1090, rfl, by decide⟩

/-- C40.  An exchange whose coded probe took longer or shorter than T4 by at least the guard band, so that the network
was disturbed, leaves no trace: neither the correction, nor the clock, nor the number of samples changes. -/
theorem C40_disturbed_exchange_discarded (p : Params) (s : Stat) (t4 r4 t5 r5 : Int) (deviant : Bool)
    (h : p.G ≤ (r5 - r4) - (t5 - t4) ∨ (r5 - r4) - (t5 - t4) ≤ -p.G) :
    handle_T4 p t4 r4 (.udp (some (t5, r5))) deviant s = s := by
  have hc : p.G ≤ ((r5 - r4) - (t5 - t4)).natAbs := by omega
  unfold handle_T4
  simp only [if_pos hc, Int.add_sub_cancel]

example : handle_T4 demoParams 70 0 (.udp (some (80, -200000))) false init = init :=
  C40_disturbed_exchange_discarded _ _ _ _ _ _ _ (.inr (by decide))

/-- C40.  A lost coded probe biases the correction: it is counted as received but contributes nothing.  Here nine
probes are lost, and the single used exchange of the window, of a clock 1234 behind, is applied with a tenth of its
(attenuated) weight: 12 rather than 123. -/
theorem C40_lost_probe_biases : (runAll demoParams init
    (List.replicate 9 { demoExchange with link := .udp none } ++
      [{ demoExchange with link := .udp (some (80, -1090)) }])).offset = 12 ∧
    (runAll demoParams init [{ demoExchange with link := .udp none }]).received = 1 := by decide +kernel

end ReactorC.ClockSync
