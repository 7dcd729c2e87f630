import Verif.ClockSync.UdpInv

/-! # C78: clock synchronization during the execution -/

namespace ReactorC.ClockSync.Udp
open ReactorC.ClockSync

/-! ## What losses do not spoil -/

/-- C78.  Over a network that loses datagrams (and delivers the others in order), whatever is lost and whenever: each exchange from which a federate has computed a correction
is a real one.  T1, T3 and T4 belong together, and T1 and T3 took between nothing and `D`. -/
theorem C78_exchanges_are_real_partial {C : Config} (hA : 0 < C.p.A) (hE : 0 < C.p.E) (hD : 0 ≤ C.D) {now : Int} {offset : Nat → Int} {s : State} (h : Reach C now offset s) {f : Nat}
    {x : Exchange} {b : Int} (hx : (x, b) ∈ s.log f) : ∃ out back, out ≤ C.D ∧ back ≤ C.D ∧ x.Real b out back := by
  have := (reach_inv hA hE (δ := C.D) (M := fun f => |C.error f - offset f| + C.D) (fun f => by have := abs_nonneg (C.error f - offset f); omega) hD (by omega) (fun f => by omega) h).fed f
  obtain ⟨out, back, h1, h2, h3, h4, h5⟩ := this.log (x, b) hx
  exact ⟨out, back, h2, h4, h5⟩

/-- C78.  So the clocks stay synchronized: the error of the clock of a federate never becomes larger than it was at the beginning, or than half the largest delay if that is larger. -/
theorem C78_clock_error_bounded_partial {C : Config} (hA : 0 < C.p.A) (hE : 0 < C.p.E) {δ : Int} (h0 : 0 ≤ δ) (hD : C.D ≤ 2 * δ) {now : Int} {offset : Nat → Int} {s : State}
    (h : Reach C now offset s) (f : Nat) : |behind C s f| ≤ max |C.error f - offset f| δ :=
  ((reach_inv hA hE (M := fun f => max |C.error f - offset f| δ) (fun f => le_max_right _ _) h0 hD (fun f => le_max_left _ _) h).fed f).stat.error

/-- C78.  The initial synchronization, over TCP with delays of at most `D ≤ 2 δ`, leaves an error below `δ + E`. -/
theorem C78_initial_synchronization (p : Params) (xs : List Exchange) (last : Exchange) (b D δ : Int) (tcp : ∀ x ∈ xs ++ [last], x.link = .tcp)
    (real : ∀ x ∈ xs ++ [last], ∃ out back, out ≤ D ∧ back ≤ D ∧ x.Real b out back) (hD : D ≤ 2 * δ) (full : (xs ++ [last]).length = p.E) (calm : last.deviant = false) :
    |b - (runAll p ClockSync.init (xs ++ [last])).offset| < δ + p.E := by
  have hw := C40_window_correction p xs last ClockSync.init (fun x hx => Or.inl (tcp x hx)) ⟨rfl, rfl⟩ full calm
  rw [hw.1]
  have hav := C40_average_up_to_truncation p (xs ++ [last]) full
  generalize hS : ((xs ++ [last]).map (fun x => (x.adjustment p).tdiv p.E)).sum = S at *
  have key : ∀ ys : List Exchange, (∀ x ∈ ys, x ∈ xs ++ [last]) → ys.length * (b - δ) ≤ (ys.map (·.adjustment p)).sum ∧ (ys.map (·.adjustment p)).sum ≤ ys.length * (b + δ) := by
    intro ys
    induction ys with
    | nil => simp
    | cons y ys ih =>
      intro hy
      have ih := ih (fun x hx => hy x (List.mem_cons_of_mem _ hx))
      obtain ⟨out, back, o1, o2, o3⟩ := real y (hy y (List.mem_cons_self ..))
      have e : y.adjustment p = y.error := by simp [Exchange.adjustment, tcp y (hy y (List.mem_cons_self ..))]
      have e2 : b - δ ≤ y.error ∧ y.error ≤ b + δ := by
        have h1 := o3.out_nonneg
        have h2 := o3.back_nonneg
        have hr : y.roundTrip = out + back := by
          unfold Exchange.roundTrip; rw [o3.t4, o3.t2]; ring
        unfold Exchange.error
        rw [hr, o3.t2, Int.tdiv_eq_ediv_of_nonneg (by omega)]
        omega
      simp only [List.map_cons, List.sum_cons, List.length_cons, e]
      push_cast
      constructor <;> linarith [ih.1, ih.2, e2.1, e2.2]
  have k := key _ (fun x hx => hx)
  rw [full] at k
  have hE : 0 < p.E := by rw [← full]; simp
  show |b - (0 + S)| < _
  rw [abs_le] at hav
  rw [abs_lt]
  have hE' : (0 : Int) < p.E := by omega
  constructor
  · have : (p.E : Int) * S ≤ p.E * (b + δ + (p.E - 1)) := by linarith [hav.1, k.2]
    have := le_of_mul_le_mul_left this hE'
    omega
  · have : (p.E : Int) * (b - δ - (p.E - 1)) ≤ p.E * S := by linarith [hav.2, k.1]
    have := le_of_mul_le_mul_left this hE'
    omega

/-- C78.  When the RTI reads a reply, it is the one it waits for. -/
theorem C78_no_stale_replies {C : Config} (hA : 0 < C.p.A) (hE : 0 < C.p.E) (hD : 0 ≤ C.D) {now : Int} {offset : Nat → Int} {s : State} (h : Reach C now offset s) :
    s.up.length ≤ 1 ∧ ∀ m ∈ s.up, m.1 = s.cur ∧ s.left ≠ none := by
  rcases (reach_inv hA hE (δ := C.D) (M := fun f => |C.error f - offset f| + C.D) (fun f => by have := abs_nonneg (C.error f - offset f); omega) hD (by omega) (fun f => by omega) h).up
    with q | ⟨t, q, hl⟩
  · rw [q]; simp
  · rw [q]; simp [hl]

/-! ## What they do spoil -/

/-- The steps from a state on. -/
inductive Later (C : Config) (s : State) : State → Prop
  | refl : Later C s s
  | step {s' s''} : Later C s s' → Step C s' s'' → Later C s s''

/-- The RTI waits for a T3 that will not come. -/
structure Stuck (f : Nat) (s : State) : Prop where
  cur : s.cur = f
  left : s.left ≠ none
  up : s.up = []
  t1 : ∀ t, .T1 t ∉ s.down f
  rep : (s.fed f).replying = none

/-- The federate will take the next T1 for something else. -/
structure Swallow (f : Nat) (s : State) : Prop where
  mid : (s.fed f).waiting = false
  probe : ∀ t, .probe t ∉ s.down f
  t3 : t3of s f = none

def Doomed (n f r : Nat) (s : State) : Prop :=
  f < n ∧ ((Stuck f s ∧ s.round ≤ r + 1) ∨ (Swallow f s ∧ (s.round ≤ r ∨ (s.round ≤ r + 1 ∧ s.cur ≤ f))))

variable {C : Config} {δ : Int} {M : Nat → Int} {s s' : State}

theorem Inv.up_nil (h : Inv C δ M s) {f : Nat} (hf : s.cur = f) (ht : t3of s f = none) : s.up = [] := by
  subst hf
  rcases h.up with q | ⟨t, q, _⟩
  · exact q
  · unfold t3of at ht; rw [q] at ht; simp at ht

theorem stuck_step (h : Inv C δ M s) {f : Nat} (d : Stuck f s) (st : Step C s s') : Stuck f s' ∧ s'.round = s.round := by
  obtain ⟨d1, d2, d3, d4, d5⟩ := d
  cases st with
  | tick k => exact ⟨⟨d1, d2, d3, d4, d5⟩, rfl⟩
  | sleep k1 => exact absurd k1 d2
  | sendT1 k1 => exact absurd k1 d2
  | recvT3 k1 k2 => rw [d3] at k2; cases k2
  | recvOther k1 k2 => rw [d3] at k2; cases k2
  | @receive g m rest dev k1 k2 k3 k4 =>
    have hd : ∀ t, .T1 t ∉ put s.down g rest f := by
      intro t q
      by_cases c : f = g
      · subst c; rw [put_same] at q; exact d4 t (by rw [k2]; exact List.mem_cons_of_mem _ q)
      · rw [put_other _ _ _ c] at q; exact d4 t q
    have hm : f = g → ∀ t, m ≠ .T1 t := by
      intro c t q; subst c; exact d4 t (by rw [k2, q]; exact List.mem_cons_self ..)
    unfold receive
    dsimp only
    have keep : ∀ x : Fed, (f = g → x.replying = none) → (put s.fed g x f).replying = none := by
      intro x hx
      by_cases c : f = g
      · subst c; rw [put_same]; exact hx rfl
      · rw [put_other _ _ _ c]; exact d5
    split
    · exact ⟨⟨d1, d2, d3, hd, keep _ (fun _ => k3)⟩, rfl⟩
    · split
      · split
        · rename_i t
          refine ⟨⟨d1, d2, d3, hd, keep _ (fun c => absurd rfl (hm c t))⟩, rfl⟩
        · exact ⟨⟨d1, d2, d3, hd, d5⟩, rfl⟩
      · split
        · exact ⟨⟨d1, d2, d3, hd, keep _ (fun _ => k3)⟩, rfl⟩
        · exact ⟨⟨d1, d2, d3, hd, keep _ (fun _ => k3)⟩, rfl⟩
  | @reply g t1 t2 k =>
    have := ((h.fed g).rep _ _ k).1.1
    rw [this, d1, d5] at k; cases k
  | @replyFails g t1 t2 k =>
    have := ((h.fed g).rep _ _ k).1.1
    rw [this, d1, d5] at k; cases k
  | @loseDown g i k =>
    refine ⟨⟨d1, d2, d3, fun t q => ?_, d5⟩, rfl⟩
    by_cases c : f = g
    · subst c; dsimp only at q; rw [put_same] at q; exact d4 t (List.mem_of_mem_eraseIdx q)
    · dsimp only at q; rw [put_other _ _ _ c] at q; exact d4 t q
  | @loseUp i k => rw [d3] at k; simp at k

theorem swallow_step (h : Inv C δ M s) {f r : Nat} (hf : f < C.n) (d : Swallow f s) (hr : s.round ≤ r ∨ (s.round ≤ r + 1 ∧ s.cur ≤ f)) (st : Step C s s') : Doomed C.n f r s' := by
  obtain ⟨d1, d2, d3⟩ := d
  have nr : (s.fed f).replying = none := by
    cases q : (s.fed f).replying with
    | none => rfl
    | some ab => have := ((h.fed f).rep ab.1 ab.2 q).2.2.2.1; rw [d1] at this; cases this
  refine ⟨hf, ?_⟩
  cases st with
  | tick k => exact .inr ⟨⟨d1, d2, d3⟩, hr⟩
  | sleep k1 k2 k3 =>
    have hu : s.up = [] := by
      rcases h.up with q | ⟨t, _, q⟩
      · exact q
      · exact absurd k1 q
    refine .inr ⟨⟨d1, d2, by unfold t3of; simp [hu]⟩, .inr ⟨?_, Nat.zero_le _⟩⟩
    dsimp only
    rcases hr with q | ⟨_, q⟩ <;> omega
  | sendT1 k1 k2 =>
    refine .inr ⟨⟨d1, fun t q => ?_, d3⟩, hr⟩
    by_cases c : f = s.cur
    · subst c; dsimp only at q; rw [put_same] at q; exact d2 t (by simpa using q)
    · dsimp only at q; rw [put_other _ _ _ c] at q; exact d2 t q
  | @recvT3 k t5 sent rest k1 k2 k3 k4 =>
    have c : f ≠ s.cur := by
      intro c; rw [h.up_nil c.symm d3] at k2; cases k2
    have hu : rest = [] := by
      rcases h.up with q | ⟨t, q, _⟩
      · rw [q] at k2; cases k2
      · rw [q] at k2; cases k2; rfl
    subst hu
    refine .inr ⟨⟨d1, fun t q => ?_, by unfold t3of; simp⟩, ?_⟩
    · dsimp only at q; rw [put_other _ _ _ c] at q; exact d2 t q
    · rcases hr with q | ⟨q1, q2⟩
      · exact .inl q
      · exact .inr ⟨q1, by dsimp only; omega⟩
  | recvOther k1 k2 k3 =>
    rcases h.up with q | ⟨t, q, _⟩
    · rw [q] at k2; cases k2
    · rw [q] at k2; cases k2; exact absurd rfl k3
  | @receive g m rest dev k1 k2 k3 k4 =>
    by_cases c : f = g
    · subst c
      have hfi := h.fed f
      rw [k2] at hfi
      unfold receive
      dsimp only
      -- the T1 is read as something else
      have stuck : ∀ t fed' log', m = .T1 t → (fed' f).replying = none → Stuck f { s with down := put s.down f rest, fed := fed', log := log' } := by
        intro t fed' log' hm hn
        subst hm
        obtain ⟨⟨q1, q2⟩, q3, _⟩ := hfi.t1 t (List.mem_cons_self ..)
        refine ⟨q1.symm, q2, h.up_nil q1.symm d3, fun t' q => ?_, hn⟩
        dsimp only at q
        rw [put_same] at q
        obtain ⟨a1, a2, a3, h1⟩ := hfi.shape
        cases h1 with
        | cons _ h1 => cases h1 with
          | cons _ h1 => cases h1 with
            | cons _ h1 => cases h1
            | cons_cons _ h1 => rw [List.sublist_nil.1 h1] at q; cases q
      have hround : ∀ t, m = .T1 t → s.round ≤ r + 1 := by
        intro t _; omega
      have noprobe : ∀ t, m ≠ .probe t := by
        intro t q; exact d2 t (by rw [k2, q]; exact List.mem_cons_self ..)
      split
      · rename_i t4 r4 hp
        cases m with
        | T1 t => exact .inl ⟨stuck t _ _ rfl (by rw [put_same]; exact nr), by show s.round ≤ r + 1; omega⟩
        | T4 t => have := (hfi.t4 t (List.mem_cons_self ..)).2.2.1; rw [hp] at this; cases this
        | probe t => exact absurd rfl (noprobe t)
      · rw [if_neg (by rw [d1]; decide)]
        split
        · refine .inr ⟨⟨by dsimp only; rw [put_same]; exact d1, fun t q => ?_, d3⟩, hr⟩
          dsimp only at q; rw [put_same] at q
          exact d2 t (by rw [k2]; exact List.mem_cons_of_mem _ q)
        · rename_i hm
          cases m with
          | T1 t => exact .inl ⟨stuck t _ _ rfl (by rw [put_same]; exact nr), by show s.round ≤ r + 1; omega⟩
          | T4 t => exact absurd rfl (hm t)
          | probe t => exact absurd rfl (noprobe t)
    · have hd : ∀ t, .probe t ∉ put s.down g rest f := by
        intro t q; rw [put_other _ _ _ c] at q; exact d2 t q
      have keep : ∀ x : Fed, (put s.fed g x f).waiting = false := by
        intro x; rw [put_other _ _ _ c]; exact d1
      unfold receive
      dsimp only
      split
      · exact .inr ⟨⟨keep _, hd, d3⟩, hr⟩
      · split
        · split
          · exact .inr ⟨⟨keep _, hd, d3⟩, hr⟩
          · exact .inr ⟨⟨d1, hd, d3⟩, hr⟩
        · split
          · exact .inr ⟨⟨keep _, hd, d3⟩, hr⟩
          · exact .inr ⟨⟨keep _, hd, d3⟩, hr⟩
  | @reply g t1 t2 k =>
    have c : f ≠ g := by intro c; subst c; rw [nr] at k; cases k
    have hg := ((h.fed g).rep _ _ k).1.1
    refine .inr ⟨⟨by dsimp only; rw [put_other _ _ _ c]; exact d1, d2, ?_⟩, hr⟩
    unfold t3of
    rw [if_neg]
    show f ≠ s.cur
    omega
  | @replyFails g t1 t2 k =>
    have c : f ≠ g := by intro c; subst c; rw [nr] at k; cases k
    exact .inr ⟨⟨by dsimp only; rw [put_other _ _ _ c]; exact d1, d2, d3⟩, hr⟩
  | @loseDown g i k =>
    refine .inr ⟨⟨d1, fun t q => ?_, d3⟩, hr⟩
    by_cases c : f = g
    · subst c; dsimp only at q; rw [put_same] at q; exact d2 t (List.mem_of_mem_eraseIdx q)
    · dsimp only at q; rw [put_other _ _ _ c] at q; exact d2 t q
  | @loseUp i k =>
    refine .inr ⟨⟨d1, d2, ?_⟩, hr⟩
    have hu : s.up.eraseIdx i = [] := by
      rcases h.up with q | ⟨t, q, _⟩
      · rw [q]; rfl
      · rw [q] at k ⊢
        have : i = 0 := by simp at k; exact k
        subst this; rfl
    unfold t3of; simp [hu]

theorem later_reach {now : Int} {offset : Nat → Int} (h : Reach C now offset s) (l : Later C s s') : Reach C now offset s' := by
  induction l with
  | refl => exact h
  | step _ st ih => exact .step ih st

theorem reach_inv' (hA : 0 < C.p.A) (hE : 0 < C.p.E) (hD : 0 ≤ C.D) {now : Int} {offset : Nat → Int} (h : Reach C now offset s) :
    Inv C C.D (fun f => |C.error f - offset f| + C.D) s :=
  reach_inv hA hE (fun f => by have := abs_nonneg (C.error f - offset f); omega) hD (by omega) (fun f => by omega) h

theorem stuck_later (hA : 0 < C.p.A) (hE : 0 < C.p.E) (hD : 0 ≤ C.D) {now : Int} {offset : Nat → Int} (h : Reach C now offset s) {f : Nat} (d : Stuck f s) (l : Later C s s') :
    Stuck f s' ∧ s'.round = s.round := by
  induction l with
  | refl => exact ⟨d, rfl⟩
  | step l' st ih =>
    obtain ⟨i1, i2⟩ := ih
    obtain ⟨j1, j2⟩ := stuck_step (reach_inv' hA hE hD (later_reach h l')) i1 st
    exact ⟨j1, j2.trans i2⟩

theorem doomed_later (hA : 0 < C.p.A) (hE : 0 < C.p.E) (hD : 0 ≤ C.D) {now : Int} {offset : Nat → Int} (h : Reach C now offset s) {f r : Nat} (d : Doomed C.n f r s) (l : Later C s s') :
    Doomed C.n f r s' := by
  induction l with
  | refl => exact d
  | step l' st ih =>
    have hi := reach_inv' hA hE hD (later_reach h l')
    obtain ⟨hf, ⟨i1, i2⟩ | ⟨i1, i2⟩⟩ := ih
    · obtain ⟨j1, j2⟩ := stuck_step hi i1 st
      exact ⟨hf, .inl ⟨j1, by omega⟩⟩
    · exact swallow_step hi hf i1 i2 st

/-- How many exchanges the federate may still complete without the RTI. -/
def pending (s : State) (g : Nat) : Nat := (s.down g).countP (fun m => match m with | .T4 _ => true | _ => false) + if (s.fed g).probing.isSome then 1 else 0

theorem pending_le (h : Inv C δ M s) (g : Nat) : pending s g ≤ 1 := by
  obtain ⟨a1, a2, a3, h1⟩ := (h.fed g).shape
  have h5 := (h.fed g).t4
  unfold pending
  generalize s.down g = l at *
  generalize (s.fed g).probing = p at *
  rcases h1 with _ | ⟨_, h1⟩ | ⟨_, h1⟩ <;> rcases h1 with _ | ⟨_, h1⟩ | ⟨_, h1⟩ <;> rcases h1 with _ | ⟨_, h1⟩ | ⟨_, h1⟩ <;> cases h1 <;>
    cases p <;> simp at h5 ⊢

theorem stuck_log {f : Nat} (d : Stuck f s) (st : Step C s s') (g : Nat) : (s'.log g).length + pending s' g ≤ (s.log g).length + pending s g := by
  obtain ⟨d1, d2, d3, d4, d5⟩ := d
  cases st with
  | tick k => exact Nat.le_refl _
  | sleep k1 => exact absurd k1 d2
  | sendT1 k1 => exact absurd k1 d2
  | recvT3 k1 k2 => rw [d3] at k2; cases k2
  | recvOther k1 k2 => rw [d3] at k2; cases k2
  | @receive j m rest dev k1 k2 k3 k4 =>
    unfold pending receive endExchange
    by_cases c : g = j
    · subst c
      cases m <;> cases hp : (s.fed g).probing <;> cases hw : (s.fed g).waiting <;> simp [hp, hw, put_same, k2, counts] <;> try omega
      all_goals split <;> simp [put_same] <;> omega
    · cases m <;> cases hp : (s.fed j).probing <;> cases hw : (s.fed j).waiting <;> simp [hp, hw, put_other _ _ _ c, counts]
      all_goals split <;> simp [put_other _ _ _ c]
  | @reply j t1 t2 k =>
    unfold pending
    by_cases c : g = j
    · subst c; simp [put_same]
    · simp [put_other _ _ _ c]
  | @replyFails j t1 t2 k =>
    unfold pending
    by_cases c : g = j
    · subst c; simp [put_same]
    · simp [put_other _ _ _ c]
  | @loseDown j i k =>
    unfold pending
    by_cases c : g = j
    · subst c; simp only [put_same]
      have := (List.eraseIdx_sublist (s.down g) i).countP_le (p := fun m => match m with | .T4 _ => true | _ => false)
      omega
    · simp [put_other _ _ _ c]
  | @loseUp i k => exact Nat.le_refl _

theorem stuck_log_later (hA : 0 < C.p.A) (hE : 0 < C.p.E) (hD : 0 ≤ C.D) {now : Int} {offset : Nat → Int} (h : Reach C now offset s) {f : Nat} (d : Stuck f s) (l : Later C s s') (g : Nat) :
    (s'.log g).length ≤ (s.log g).length + 1 := by
  have key : (s'.log g).length + pending s' g ≤ (s.log g).length + pending s g := by
    induction l with
    | refl => exact Nat.le_refl _
    | step l' st ih => exact Nat.le_trans (stuck_log (stuck_later hA hE hD h d l').1 st g) ih
  have := pending_le (reach_inv' hA hE hD h) g
  omega

/-- C78.  The first failure: when a T1 is lost, the RTI waits for its reply for ever, and synchronizes no clocks any more, of whatever federate:
there is no further round, and each federate computes at most one more correction, from messages that it had been sent before. -/
theorem C78_lost_T1_ends_synchronization (hA : 0 < C.p.A) (hE : 0 < C.p.E) (hD : 0 ≤ C.D) {now : Int} {offset : Nat → Int} (h : Reach C now offset s) {f i : Nat} {t : Int}
    (ht : (s.down f)[i]? = some (.T1 t)) {s' : State} (l : Later C { s with down := put s.down f ((s.down f).eraseIdx i) } s') :
    s'.round = s.round ∧ s'.cur = f ∧ s'.left ≠ none ∧ s'.up = [] ∧ ∀ g, (s'.log g).length ≤ (s.log g).length + 1 := by
  have hi := reach_inv' hA hE hD h
  obtain ⟨hlt, hget⟩ := List.getElem?_eq_some_iff.1 ht
  have hmem : .T1 t ∈ s.down f := hget ▸ List.getElem_mem hlt
  obtain ⟨⟨q1, q2⟩, q3, q4, q5⟩ := (hi.fed f).t1 t hmem
  have hs : Stuck f { s with down := put s.down f ((s.down f).eraseIdx i) } := by
    refine ⟨q1.symm, q2, hi.up_nil q1.symm q3, fun t' q => ?_, q5⟩
    dsimp only at q
    rw [put_same] at q
    obtain ⟨a1, a2, a3, h1⟩ := (hi.fed f).shape
    generalize s.down f = l at *
    revert ht q
    rcases h1 with _ | ⟨_, h1⟩ | ⟨_, h1⟩ <;> rcases h1 with _ | ⟨_, h1⟩ | ⟨_, h1⟩ <;> rcases h1 with _ | ⟨_, h1⟩ | ⟨_, h1⟩ <;> cases h1 <;>
      rcases i with _ | _ | _ | i <;> simp
  obtain ⟨j1, j2⟩ := stuck_later hA hE hD (.step h (.loseDown hlt)) hs l
  have hlog := stuck_log_later hA hE hD (.step h (.loseDown hlt)) hs l
  exact ⟨j2, j1.cur, j1.left, j1.up, hlog⟩

/-- C78.  The same when the reply is lost. -/
theorem C78_lost_T3_ends_synchronization (hA : 0 < C.p.A) (hE : 0 < C.p.E) (hD : 0 ≤ C.D) {now : Int} {offset : Nat → Int} (h : Reach C now offset s) {i : Nat}
    (hl : i < s.up.length) {s' : State} (l : Later C { s with up := s.up.eraseIdx i } s') :
    s'.round = s.round ∧ s'.cur = s.cur ∧ s'.left ≠ none ∧ s'.up = [] ∧ ∀ g, (s'.log g).length ≤ (s.log g).length + 1 := by
  have hi := reach_inv' hA hE hD h
  rcases hi.up with q | ⟨t, q, hn⟩
  · rw [q] at hl; simp at hl
  · have hi0 : i = 0 := by rw [q] at hl; simp at hl; exact hl
    subst hi0
    have ht : t3of s s.cur = some t := by unfold t3of; simp [q]
    obtain ⟨q1, q2, q3, q4, q5, q6, q7⟩ := (hi.fed s.cur).sent t ht
    have hs : Stuck s.cur { s with up := s.up.eraseIdx 0 } := ⟨rfl, hn, by simp [q], fun t => by dsimp only; rw [q2]; simp, q4⟩
    obtain ⟨j1, j2⟩ := stuck_later hA hE hD (.step h (.loseUp hl)) hs l
    have hlog := stuck_log_later hA hE hD (.step h (.loseUp hl)) hs l
    exact ⟨j2, j1.cur, j1.left, j1.up, hlog⟩

/-- C78.  And when the probe is lost, the federate takes the next T1 for it, so that synchronization ends in the next round. -/
theorem C78_lost_probe_ends_synchronization (hA : 0 < C.p.A) (hE : 0 < C.p.E) (hD : 0 ≤ C.D) {now : Int} {offset : Nat → Int} (h : Reach C now offset s) {f i : Nat} {t : Int}
    (hf : f < C.n) (ht : (s.down f)[i]? = some (.probe t)) {s' : State} (l : Later C { s with down := put s.down f ((s.down f).eraseIdx i) } s') : s'.round ≤ s.round + 1 := by
  have hi := reach_inv' hA hE hD h
  obtain ⟨hlt, hget⟩ := List.getElem?_eq_some_iff.1 ht
  have hmem : .probe t ∈ s.down f := hget ▸ List.getElem_mem hlt
  obtain ⟨q1, q2⟩ := (hi.fed f).mid t hmem
  have h3 : t3of s f = none := by
    cases q : t3of s f with
    | none => rfl
    | some t' => have := ((hi.fed f).sent t' q).2.1; rw [this] at hmem; cases hmem
  have hs : Swallow f { s with down := put s.down f ((s.down f).eraseIdx i) } := by
    refine ⟨q1, fun t' q => ?_, h3⟩
    dsimp only at q
    rw [put_same] at q
    obtain ⟨a1, a2, a3, h1⟩ := (hi.fed f).shape
    generalize s.down f = l at *
    revert ht q
    rcases h1 with _ | ⟨_, h1⟩ | ⟨_, h1⟩ <;> rcases h1 with _ | ⟨_, h1⟩ | ⟨_, h1⟩ <;> rcases h1 with _ | ⟨_, h1⟩ | ⟨_, h1⟩ <;> cases h1 <;>
      rcases i with _ | _ | _ | i <;> simp
  obtain ⟨_, ⟨_, j⟩ | ⟨_, j⟩⟩ := doomed_later hA hE hD (r := s.round) (.step h (.loseDown hlt)) ⟨hf, .inr ⟨hs, .inl (Nat.le_refl _)⟩⟩ l
  · exact j
  · omega

/-! ## Runs -/

/-- The steps, as a function. -/
inductive Act
  | tick (t : Int)
  | sleep
  | sendT1
  | recvT3 (t5 : Int)
  | receive (f : Nat)
  | reply (f : Nat)
  | loseDown (f i : Nat)
  | loseUp (i : Nat)

def act (C : Config) (s : State) : Act → Option State
  | .tick t => if s.now ≤ t then some { s with now := t } else none
  | .sleep => if s.left = none ∧ s.cur = C.n ∧ s.any = true then some { s with round := s.round + 1, cur := 0, any := false } else none
  | .sendT1 => if s.left = none ∧ s.cur < C.n then some { s with down := put s.down s.cur (s.down s.cur ++ [.T1 s.now]), left := some 5 } else none
  | .recvT3 t5 =>
    match s.left, s.up with
    | some (k + 1), (g, sent) :: rest =>
      if g = s.cur ∧ s.now ≤ sent + C.D ∧ s.now ≤ t5 then
        some { s with
          up := rest
          down := put s.down s.cur (s.down s.cur ++ [.T4 s.now, .probe t5])
          left := none
          any := s.any || decide (0 < k)
          cur := s.cur + 1 }
      else none
    | _, _ => none
  | .receive f =>
    match s.down f with
    | m :: rest =>
      if f < C.n ∧ (s.fed f).replying = none ∧ (match m with | .T1 t => decide (s.now ≤ t + C.D) | _ => true) = true then
        some (receive C { s with down := put s.down f rest } f m false)
      else none
    | [] => none
  | .reply f =>
    match (s.fed f).replying with
    | some (t1, t2) => some { s with
        fed := put s.fed f { s.fed f with waiting := false, replying := none, stat := handle_T1 t1 t2 (some (clock C s f)) (s.fed f).stat }
        up := s.up ++ [(f, s.now)] }
    | none => none
  | .loseDown f i => if i < (s.down f).length then some { s with down := put s.down f ((s.down f).eraseIdx i) } else none
  | .loseUp i => if i < s.up.length then some { s with up := s.up.eraseIdx i } else none

theorem act_step {a : Act} (e : act C s a = some s') : Step C s s' := by
  cases a with
  | tick t => simp only [act] at e; split at e <;> cases e; exact .tick ‹_›
  | sleep => simp only [act] at e; split at e <;> cases e; rename_i h; exact .sleep h.1 h.2.1 h.2.2
  | sendT1 => simp only [act] at e; split at e <;> cases e; rename_i h; exact .sendT1 h.1 h.2
  | recvT3 t5 =>
    simp only [act] at e
    split at e
    · rename_i k g sent rest e1 e2
      split at e <;> cases e
      rename_i h
      obtain ⟨rfl, h2, h3⟩ := h
      exact .recvT3 e1 e2 h2 h3
    · cases e
  | receive f =>
    simp only [act] at e
    split at e
    · rename_i m rest e1
      rw [Option.ite_none_right_eq_some] at e
      obtain ⟨h, e⟩ := e
      cases e
      refine .receive false h.1 e1 h.2.1 ?_
      have := h.2.2
      cases m with
      | T1 t => simpa [inTime] using this
      | T4 t => trivial
      | probe t => trivial
    · cases e
  | reply f =>
    simp only [act] at e
    split at e <;> cases e
    exact .reply ‹_›
  | loseDown f i => simp only [act] at e; split at e <;> cases e; exact .loseDown ‹_›
  | loseUp i => simp only [act] at e; split at e <;> cases e; exact .loseUp ‹_›

def runs (C : Config) (s : State) : List Act → Option State
  | [] => some s
  | a :: l => (act C s a).bind fun s' => runs C s' l

theorem runs_later {l : List Act} {s s' : State} (e : runs C s l = some s') : Later C s s' := by
  have key : ∀ {l : List Act} {s0 s s' : State}, Later C s0 s → runs C s l = some s' → Later C s0 s' := by
    intro l
    induction l with
    | nil => intro s0 s s' h e; cases e; exact h
    | cons a l ih =>
      intro s0 s s' h e
      simp only [runs, Option.bind_eq_some_iff] at e
      obtain ⟨s1, e1, e2⟩ := e
      exact ih (.step h (act_step e1)) e2
  exact key .refl e

/-- Two federates, whose clocks are 1000 behind and 500 ahead; delays up to 100; a correction per exchange, of half the estimate. -/
def two : Config := ⟨2, ⟨1, 2, 20⟩, 100, fun f => if f = 0 then 1000 else -500⟩

/-- An exchange with federate `f`, from time `t` on; T1 takes 30 and T3 50. -/
def exchangeRun (f : Nat) (t : Int) : List Act :=
  [.tick t, .sendT1, .tick (t + 30), .receive f, .tick (t + 40), .reply f, .tick (t + 90), .recvT3 (t + 95), .tick (t + 120), .receive f, .tick (t + 125), .receive f]

/-- A round without losses: both clocks get closer.  The error of the estimate is half the difference of the delays. -/
example : (runs two (init 0 fun _ => 0) (exchangeRun 0 0 ++ exchangeRun 1 200 ++ [.sleep])).map
    (fun s => (s.round, (s.fed 0).stat.offset, (s.fed 1).stat.offset)) = some (1, 505, -245) := by decide +kernel
example : (runs two (init 0 fun _ => 0) (exchangeRun 0 0 ++ exchangeRun 1 200 ++ [.sleep])).map (fun s => (s.log 0, s.log 1)) =
    some ([(⟨0, -970, -960, 90, -880, .udp (some (95, -875)), false⟩, 1000)], [(⟨200, 730, 740, 290, 820, .udp (some (295, 825)), false⟩, -500)]) := by decide +kernel

theorem two_reach : ∃ s, Reach two 0 (fun _ => 0) s ∧ ⟨0, -970, -960, 90, -880, .udp (some (95, -875)), false⟩ ∈ (s.log 0).map Prod.fst := by
  cases e : runs two (init 0 fun _ => 0) (exchangeRun 0 0) with
  | none =>
    have : (runs two (init 0 fun _ => 0) (exchangeRun 0 0)).isSome = true := by decide +kernel
    rw [e] at this; cases this
  | some s =>
    have : (runs two (init 0 fun _ => 0) (exchangeRun 0 0)).map (fun s => (s.log 0).map Prod.fst) = some [⟨0, -970, -960, 90, -880, .udp (some (95, -875)), false⟩] := by decide +kernel
    rw [e] at this
    simp only [Option.map_some, Option.some.injEq] at this
    exact ⟨s, later_reach .init (runs_later e), by rw [this]; simp⟩

/-- When only a T4 is lost, the exchange is skipped, and in the next round all is well. -/
example : (runs two (init 0 fun _ => 0) ([.tick 0, .sendT1, .tick 30, .receive 0, .tick 40, .reply 0, .tick 90, .recvT3 95, .loseDown 0 0, .tick 125, .receive 0] ++
    exchangeRun 1 200 ++ [.sleep] ++ exchangeRun 0 1000)).map (fun s => (s.round, (s.fed 0).stat.offset, (s.log 0).length)) = some (1, 505, 1) := by decide +kernel

/-- When a T1 is lost: the hypothesis of the first failure. -/
example : (runs two (init 0 fun _ => 0) [.tick 0, .sendT1]).map (fun s => (s.down 0)[0]?) = some (some (.T1 0)) := by decide +kernel
/-- The reply, -/
example : (runs two (init 0 fun _ => 0) [.tick 0, .sendT1, .tick 30, .receive 0, .tick 40, .reply 0]).map (fun s => s.up) = some [(0, 40)] := by decide +kernel
/-- and the probe. -/
example : (runs two (init 0 fun _ => 0) [.tick 0, .sendT1, .tick 30, .receive 0, .tick 40, .reply 0, .tick 90, .recvT3 95]).map (fun s => (s.down 0)[1]?) = some (some (.probe 95)) := by decide +kernel
/-- With the probe lost, the next T1 is taken for it. -/
example : (runs two (init 0 fun _ => 0) ([.tick 0, .sendT1, .tick 30, .receive 0, .tick 40, .reply 0, .tick 90, .recvT3 95, .loseDown 0 1, .tick 120, .receive 0] ++
    exchangeRun 1 200 ++ [.sleep, .tick 1000, .sendT1, .tick 1030, .receive 0])).map (fun s => (s.round, s.left, s.up, s.down 0)) =
    some (1, some 5, [], []) := by decide +kernel

/-- A network that may also duplicate datagrams and change their order. -/
inductive Step' (C : Config) : State → State → Prop
  | step {s s' : State} : Step C s s' → Step' C s s'
  | shuffle {s : State} {f : Nat} {l : List Msg} : l ⊆ s.down f → Step' C s { s with down := put s.down f l }

inductive Reach' (C : Config) (now : Int) (offset : Nat → Int) : State → Prop
  | init : Reach' C now offset (init now offset)
  | step {s s' : State} : Reach' C now offset s → Step' C s s' → Reach' C now offset s'

theorem later_reach' {now : Int} {offset : Nat → Int} (h : Reach' C now offset s) (l : Later C s s') : Reach' C now offset s' := by
  induction l with
  | refl => exact h
  | step _ st ih => exact .step ih (.step st)

/-- A federate whose clock is right. -/
def one : Config := ⟨1, ⟨1, 2, 20⟩, 100, fun _ => 0⟩

/-- The first exchange, until T4 and the probe have been sent, twice. -/
def dup1 : Option State := runs one (init 0 fun _ => 0) [.sendT1, .tick 30, .receive 0, .tick 40, .reply 0, .tick 70, .recvT3 75]
def dup2 : Option State := dup1.bind fun s => runs one { s with down := put s.down 0 [.T4 70, .probe 75, .T4 70, .probe 75] }
  [.tick 100, .receive 0, .tick 105, .receive 0, .sleep, .tick 10000, .sendT1]
def dup3 : Option State := dup2.bind fun s => runs one { s with down := put s.down 0 [.T1 10000, .T4 70, .probe 75] } [.tick 10030, .receive 0, .tick 10040, .reply 0,
  .receive 0, .tick 10045, .receive 0]

/-- C78.  Why the network must neither duplicate datagrams nor change their order: the messages carry no number.  Here T4 and the probe of one round come a second time, after the
T1 of the next, and are taken for its T4 and probe; the probe passes the test of the guard band.  A clock that was right is now wrong by a quarter of the period (half, if it were not for the
attenuation), and the exchange is not real for any delays. -/
theorem C78_duplicates_spoil_the_clock : ∃ s, Reach' one 0 (fun _ => 0) s ∧ behind one s 0 = 2500 ∧
    ∃ x ∈ s.log 0, ∀ out back, ¬ x.1.Real x.2 out back := by
  cases e1 : dup1 with
  | none => have : dup1.isSome = true := by decide +kernel
            rw [e1] at this; cases this
  | some s1 =>
  cases e2 : dup2 with
  | none => have : dup2.isSome = true := by decide +kernel
            rw [e2] at this; cases this
  | some s2 =>
  cases e3 : dup3 with
  | none => have : dup3.isSome = true := by decide +kernel
            rw [e3] at this; cases this
  | some s3 =>
  have d1 : dup1.map (fun s => s.down 0) = some [.T4 70, .probe 75] := by decide +kernel
  have d2 : dup2.map (fun s => s.down 0) = some [.T4 70, .probe 75, .T1 10000] := by decide +kernel
  have d3 : dup3.map (fun s => (behind one s 0, s.log 0)) = some (2500, [(⟨10000, 10030, 10040, 70, 10040, .udp (some (75, 10045)), false⟩, 0), (⟨0, 30, 40, 70, 100, .udp (some (75, 105)), false⟩, 0)]) := by
    decide +kernel
  rw [e1] at d1; rw [e2] at d2; rw [e3] at d3
  simp only [Option.map_some, Option.some.injEq, Prod.mk.injEq] at d1 d2 d3
  have r1 : Reach' one 0 (fun _ => 0) s1 := later_reach' .init (runs_later e1)
  have r2 : Reach' one 0 (fun _ => 0) s2 := by
    unfold dup2 at e2; rw [e1] at e2
    exact later_reach' (.step r1 (.shuffle (by rw [d1]; simp))) (runs_later e2)
  have r3 : Reach' one 0 (fun _ => 0) s3 := by
    unfold dup3 at e3; rw [e2] at e3
    exact later_reach' (.step r2 (.shuffle (by rw [d2]; simp))) (runs_later e3)
  refine ⟨s3, r3, d3.1, _, by rw [d3.2]; exact List.mem_cons_self .., fun out back h => ?_⟩
  have h1 := h.out_nonneg
  have h2 := h.back_nonneg
  have h3 := h.t2
  have h4 := h.t4
  dsimp only at h3 h4
  omega

end ReactorC.ClockSync.Udp
