import Verif.Np.Live

/-!
# Workers do not idle while there is something to do
-/

set_option linter.unusedVariables false

namespace ReactorC.Np

/-- How many reactions are going to be asked for because of this thread. -/
def Pc.hungry : Pc → Int
  | .check | .read | .dec _ => 1
  | .release m => m + 1
  | _ => 0

theorem Pc.hungry_pos (p : Pc) : 0 ≤ p.hungry := by cases p <;> unfold Pc.hungry <;> dsimp only <;> omega

/-- If workers are idle, the others are going to ask for all the reactions that are left at this level. -/
def Eager (C : Config) (s : State) : Prop :=
  s.stop = false → s.started = true → (∀ w, w < C.n → (s.pc w).charge = false) → 0 < s.idle →
    s.idx (s.next - 1) ≤ total (fun w => (s.pc w).hungry) C.n + s.sem

section
variable {C : Config} {s s' : State} {w : Nat}

theorem Eager.still (E : Eager C s) (hturn : if s.started then w < C.n else w = C.n) {p q : Pc} (e : s.pc w = q)
    (hq : q.charge = false) (e1 : s'.pc = put s.pc w p) (e2 : s'.next = s.next) (e3 : s'.idle = s.idle)
    (e4 : s'.stop = s.stop) (e5 : s'.started = s.started)
    (hle : s.started = true → s'.idx (s.next - 1) - s'.sem - p.hungry ≤ s.idx (s.next - 1) - s.sem - q.hungry) : Eager C s' := by
  intro h1 h2 h3 h4
  rw [e5] at h2
  have hw : w < C.n := by rw [h2] at hturn; exact hturn
  have := E (by rw [← e4]; exact h1) h2 (fun x hx => by
    by_cases hxw : x = w
    · subst hxw; rw [e]; exact hq
    · have := h3 x hx
      rw [e1, put_other _ _ hxw] at this; exact this) (by rw [← e3]; exact h4)
  have hl := hle h2
  rw [e1, e2, total_put Pc.hungry s.pc p hw, e]
  omega

theorem Eager.busy (hturn : if s.started then w < C.n else w = C.n) {p : Pc} (e1 : s'.pc = put s.pc w p)
    (e5 : s'.started = s.started) (hp : p.charge = true) : Eager C s' := by
  intro h1 h2 h3 h4
  rw [e5] at h2
  have hw : w < C.n := by rw [h2] at hturn; exact hturn
  have := h3 w hw
  rw [e1, put_same, hp] at this; cases this

theorem Eager.step (h : Inv C s) (E : Eager C s) (hturn : if s.started then w < C.n else w = C.n)
    (hstep : Step C s w s') : Eager C s' := by
  have hp := h.pool
  have worker : s.started = true → w < C.n := fun k => by rw [k] at hturn; exact hturn
  have low : ∀ {p : Pc}, s.pc w = p → p ≠ .check → p ≠ .acquire → p ≠ .exited → p ≠ .halt → s.started = true → s.stop = false := by
    intro p e h1 h2 h3 h4 hst
    cases hs : s.stop with
    | false => rfl
    | true =>
      exfalso
      rcases hp.stop_pc hs (worker hst) with k | k | k | k <;> rw [e] at k <;> contradiction
  -- the index of the current level
  have based : ∀ {p : Pc}, s.pc w = p → p.charge = false → p ≠ .acquire → s.stop = false → s.started = true →
      ∃ loc base, Places C s loc ∧ Based C s base ∧ s.next - 1 = base := by
    intro p e h1 h2 hs hst
    obtain ⟨loc, base, P, B⟩ := h.data hs
    have ht := hp.no_top hs (worker hst) (by rw [e]; exact h2) (by rw [e]; exact h1)
    have := (B.cur fun x => (ht x).2).1
    exact ⟨loc, base, P, B, by omega⟩
  cases hstep with
  | bootEnd e =>
    intro h1 h2 h3 h4
    exfalso
    cases hst : s.started with
    | true =>
      have hl := ((hp.run h1).live w (worker hst)).2.2
      rw [e] at hl; cases hl
    | false =>
      obtain ⟨k1, k2, k3⟩ := hp.early hst
      have hs := (hp.run k3).sum
      rw [total_const (c := 0) (fun x hx => by rw [k1 x hx]; rfl)] at hs
      replace h4 : 0 < s.idle := h4
      omega
  | checkStop e hs => intro h1; rw [show s.stop = false from h1] at hs; cases hs
  | check e hs => exact E.still hturn e rfl rfl rfl rfl rfl rfl (fun _ => Int.le_refl _)
  | readFault e h0 => exact E
  | read e h0 => exact E.still hturn e rfl rfl rfl rfl rfl rfl (fun _ => Int.le_refl _)
  | decTake l e hl =>
    refine E.still hturn e rfl rfl rfl rfl rfl rfl (fun hst => ?_)
    obtain ⟨loc, base, P, B, hb⟩ := based e rfl (by simp) (low e (by simp) (by simp) (by simp) (by simp) hst) hst
    have hf := B.fine w
    rw [e] at hf
    have hf : l = base := hf
    show put s.idx l (s.idx l - 1) (s.next - 1) - s.sem - 0 ≤ s.idx (s.next - 1) - s.sem - 1
    rw [hb, hf, put_same]
    omega
  | decWait l e hl =>
    refine E.still hturn e rfl rfl rfl rfl rfl rfl (fun hst => ?_)
    obtain ⟨loc, base, P, B, hb⟩ := based e rfl (by simp) (low e (by simp) (by simp) (by simp) (by simp) hst) hst
    have hf := B.fine w
    rw [e] at hf
    have hf : l = base := hf
    show put s.idx l (s.idx l - 1) (s.next - 1) - s.sem - 0 ≤ s.idx (s.next - 1) - s.sem - 1
    rw [hb, hf, put_same]
    omega
  | take i e => exact E.still hturn e rfl rfl rfl rfl rfl rfl (fun _ => Int.le_refl _)
  | clearNone i e => exact E.still hturn e rfl rfl rfl rfl rfl rfl (fun _ => Int.le_refl _)
  | clear i r e => exact E.still hturn e rfl rfl rfl rfl rfl rfl (fun _ => Int.le_refl _)
  | done r e hq =>
    exact E.still hturn e rfl rfl rfl rfl rfl rfl (fun _ => by
      show s.idx (s.next - 1) - s.sem - 1 ≤ s.idx (s.next - 1) - s.sem - 0; omega)
  | doneFault r e h0 => exact E
  | fetch who r e =>
    cases who with
    | events => exact .busy hturn rfl rfl rfl
    | boot =>
      intro h1 h2
      have hl := ((hp.run h1).live w (worker h2)).2.2
      rw [e] at hl; cases hl
    | running r0 =>
      refine E.still hturn e rfl rfl rfl rfl rfl rfl (fun hst => ?_)
      obtain ⟨loc, base, P, B, hb⟩ := based e rfl (by simp) (low e (by simp) (by simp) (by simp) (by simp) hst) hst
      have hf := B.fine w
      rw [e] at hf
      have hf := (hf.1 r0 rfl).2
      show put s.idx (C.level r) (s.idx (C.level r) + 1) (s.next - 1) - s.sem - 0 ≤ s.idx (s.next - 1) - s.sem - 0
      rw [put_other _ _ (by omega)]
      omega
  | store who r i e =>
    cases who with
    | events => exact .busy hturn rfl rfl rfl
    | boot =>
      intro h1 h2
      have hl := ((hp.run h1).live w (worker h2)).2.2
      rw [e] at hl; cases hl
    | running r0 => exact E.still hturn e rfl rfl rfl rfl rfl rfl (fun _ => Int.le_refl _)
  | waitLast e hi => exact .busy hturn rfl rfl rfl
  | wait e hi =>
    intro h1 h2 h3 h4
    obtain ⟨loc, base, P, B, hb⟩ := based e rfl (by simp) h1 h2
    have hf := B.fine w
    rw [e] at hf
    have hf : s.idx base < 0 := hf
    have := (total_pos (n := C.n) (f := fun x => (put s.pc w .acquire x).hungry) (fun x _ => Pc.hungry_pos _)).1
    show s.idx (s.next - 1) ≤ total (fun x => (put s.pc w .acquire x).hungry) C.n + s.sem
    rw [hb]
    omega
  | acquire e hs =>
    exact E.still hturn e rfl rfl rfl rfl rfl rfl (fun _ => by
      show s.idx (s.next - 1) - ((s.sem - 1 : Nat) : Int) - 1 ≤ s.idx (s.next - 1) - s.sem - 0; omega)
  | resetFault e h0 => exact E
  | reset e h0 => exact .busy hturn rfl rfl rfl
  | loopTag e h0 => exact .busy hturn rfl rfl rfl
  | loopDist e h0 => exact .busy hturn rfl rfl rfl
  | events e => exact .busy hturn rfl rfl rfl
  | distFound r e h0 h1 => exact .busy hturn rfl rfl rfl
  | distSkip e h0 h1 => exact .busy hturn rfl rfl rfl
  | distEnd e h0 => exact .busy hturn rfl rfl rfl
  | notify k e hk hgt =>
    intro h1 h2 h3 h4
    have hw := worker h2
    obtain ⟨k1, k2, k3⟩ := (hp.run h1).alone hw (by rw [e]; rfl)
    replace h4 : 0 < s.idle - k := h4
    show s.idx (s.next - 1) ≤ total (fun x => (put s.pc w (.release (k - 1)) x).hungry) C.n + s.sem
    rw [total_put Pc.hungry s.pc _ hw, total_congr (g := fun _ => 0) (fun x hx => by
      by_cases hxw : x = w
      · subst hxw; rw [e]; rfl
      · rw [k3 x hx hxw]; rfl), total_const (c := 0) (fun _ _ => rfl), e]
    show s.idx (s.next - 1) ≤ 0 * C.n - 0 + (((k - 1 : Nat) : Int) + 1) + s.sem
    unfold toAwaken at hk
    split at hk <;> omega
  | notifyOne k e hk hgt =>
    intro h1 h2 h3 h4
    have hw := worker h2
    obtain ⟨k1, k2, k3⟩ := (hp.run h1).alone hw (by rw [e]; rfl)
    replace h4 : 0 < s.idle - k := h4
    show s.idx (s.next - 1) ≤ total (fun x => (put s.pc w .check x).hungry) C.n + s.sem
    rw [total_put Pc.hungry s.pc _ hw, total_congr (g := fun _ => 0) (fun x hx => by
      by_cases hxw : x = w
      · subst hxw; rw [e]; rfl
      · rw [k3 x hx hxw]; rfl), total_const (c := 0) (fun _ _ => rfl), e]
    show s.idx (s.next - 1) ≤ 0 * C.n - 0 + 1 + s.sem
    unfold toAwaken at hk
    split at hk <;> omega
  | release m e =>
    exact E.still hturn e rfl rfl rfl rfl rfl rfl (fun _ => by
      show s.idx (s.next - 1) - ((s.sem + m : Nat) : Int) - 1 ≤ s.idx (s.next - 1) - s.sem - (m + 1); omega)
  | signal e => intro h1; cases h1
  | halt e =>
    intro h1 h2
    exact absurd e ((hp.run h1).live w (worker h2)).2.1
  | triggerAgain who r e => exact E
  | triggerNew who r e =>
    cases who with
    | events => exact .busy hturn rfl rfl rfl
    | boot =>
      intro h1 h2
      have hl := ((hp.run h1).live w (worker h2)).2.2
      rw [e] at hl; cases hl
    | running r0 => exact E.still hturn e rfl rfl rfl rfl rfl rfl (fun _ => Int.le_refl _)
  | finish r e => exact E.still hturn e rfl rfl rfl rfl rfl rfl (fun _ => Int.le_refl _)
  | advance e => exact .busy hturn rfl rfl rfl
  | retry e => exact .busy hturn rfl rfl rfl
  | stop e => exact .busy hturn rfl rfl rfl

theorem Reach.eager (hC : C.Ok) (h : Reach C s) : Eager C s := by
  induction h with
  | init => intro _ h; cases h
  | step a hr ha he ih => exact ih.step (hr.inv hC) ha.1 (exec_step ha he)

/-- When the workers cannot go on by themselves and one of them waits, the reactions that are left have other levels than
those that execute. -/
theorem settled_wait (hC : C.Ok) (h : Reach C s) (hset : Settled C s) {x y r r' : Nat} (hx : x < C.n) (hxw : s.pc x = .acquire)
    (hy : y < C.n) (hr : s.pc y = .run r) (hq : s.queued r' = true) (hl : C.level r' = C.level r) :
    ∃ z, z < C.n ∧ s.pc z = .run r' := by
  have hi := h.inv hC
  have hst : s.started = true := by
    cases k : s.started with
    | true => rfl
    | false => have := (hi.pool.early k).1 x hx; rw [hxw] at this; cases this
  have hs : s.stop = false := by
    cases k : s.stop with
    | false => rfl
    | true => rcases hi.pool.stop_pc k hy with e | e | e | e <;> rw [hr] at e <;> cases e
  obtain ⟨loc, base, P, B⟩ := hi.data hs
  have hnt := hi.pool.no_top hs hy (by rw [hr]; simp) (by rw [hr]; rfl)
  have hpc : ∀ z, z < C.n → s.pc z = .acquire ∨ ∃ r, s.pc z = .run r := by
    intro z hz
    have hno : ∀ s', exec C s (.go z) ≠ some s' := by
      intro s' k
      have := hset z ⟨by rw [hst]; exact hz, trivial⟩
      rw [this] at k; cases k
    by_cases ha : s.pc z = .acquire
    · exact .inl ha
    · right
      obtain ⟨a, h1, h2, s', h3⟩ := can_act hi (w := z) (by rw [hst]; exact hz) ((hi.pool.run hs).live z hz).1 (fun k => absurd k ha)
      cases a with
      | go w => cases h1; exact absurd h3 (hno s')
      | trigger w r =>
        cases h1
        cases e : s.pc w with
        | run r => exact ⟨r, e⟩
        | boot => have := ((hi.pool.run hs).live w hz).2.2; rw [e] at this; cases this
        | events => have := (hnt w).1; rw [e] at this; cases this
        | _ => unfold exec at h3; dsimp only at h3; rw [e] at h3; cases h3
      | finish w =>
        cases h1
        cases e : s.pc w with
        | run r => exact ⟨r, e⟩
        | _ => unfold exec at h3; dsimp only at h3; rw [e] at h3; cases h3
      | advance w =>
        cases h1
        cases e : s.pc w with
        | tag => have := (hnt w).1; rw [e] at this; cases this
        | _ => unfold exec at h3; dsimp only at h3; rw [e] at h3; cases h3
      | retry w =>
        cases h1
        cases e : s.pc w with
        | tag => have := (hnt w).1; rw [e] at this; cases this
        | _ => unfold exec at h3; dsimp only at h3; rw [e] at h3; cases h3
      | stop w =>
        cases h1
        cases e : s.pc w with
        | tag => have := (hnt w).1; rw [e] at this; cases this
        | _ => unfold exec at h3; dsimp only at h3; rw [e] at h3; cases h3
  have hsem : s.sem = 0 := by
    by_contra k
    have := hset x ⟨by rw [hst]; exact hx, trivial⟩
    unfold exec at this
    dsimp only at this
    rw [hxw] at this
    dsimp only at this
    rw [if_pos (by omega)] at this
    cases this
  have hidle : 0 < s.idle := by
    have h1 := (total_pos (n := C.n) (f := fun w => (s.pc w).weight) (fun z hz => by
      rcases hpc z hz with k | ⟨r, k⟩ <;> rw [k]
      · exact Int.zero_le_ofNat 1
      · exact Int.le_refl _)).2 x hx
    have h2 := (hi.pool.run hs).sum
    rw [hxw] at h1
    have h1 : (1 : Int) ≤ total (fun w => (s.pc w).weight) C.n := h1
    omega
  have hE := h.eager hC hs hst (fun z _ => (hnt z).1) hidle
  rw [total_congr (g := fun _ => 0) (fun z hz => by
    rcases hpc z hz with k | ⟨r, k⟩ <;> rw [k] <;> rfl), total_const (c := 0) (fun _ _ => rfl)] at hE
  have hb := (B.cur fun z => (hnt z).2).1
  have hlev : C.level r = base := by have := B.fine y; rw [hr] at this; exact this
  rw [show s.next - 1 = base by omega] at hE
  have hn := (P.q r').1 hq
  cases hloc : loc r' with
  | none => exact absurd hloc hn
  | some l =>
    cases l with
    | slot i =>
      have := (P.slot r' i hloc).2
      rw [hl, hlev] at this
      omega
    | held z =>
      have hh := (P.held r' z).1 hloc
      rcases Nat.lt_or_ge z C.n with hz | hz
      · rcases hpc z hz with k | ⟨r1, k⟩
        · rw [k] at hh; exact hh.elim
        · rw [k] at hh
          have : r' = r1 := hh
          subst this
          exact ⟨z, hz, k⟩
      · exfalso
        have : s.pc z = .exited := by
          rcases Nat.lt_or_ge C.n z with k | k
          · exact hi.pool.beyond z k
          · rw [show z = C.n by omega]; exact hi.pool.main hst
        rw [this] at hh; exact hh

end

end ReactorC.Np
