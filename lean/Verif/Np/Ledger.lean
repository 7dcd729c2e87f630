import Verif.Np.Inv
import Verif.Np.Good

/-!
# The record of what happened agrees with the state of the scheduler
-/

set_option linter.unusedVariables false

namespace ReactorC.Np

/-- The reaction that a thread executes, and whether it has finished it. -/
def Pc.doing : Pc → Option (Nat × Bool)
  | .run r | .fetch (.running r) _ | .store (.running r) _ _ => some (r, false)
  | .done r => some (r, true)
  | _ => none

/-- The first reactions of a tag are triggered. -/
def Pc.opening : Pc → Bool
  | .boot | .events => true
  | .fetch .boot _ | .store .boot _ _ | .fetch .events _ | .store .events _ _ => true
  | _ => false

/-- Nothing is left to do at this tag. -/
def Pc.over : Pc → Bool
  | .tag | .signal => true
  | _ => false

theorem Pc.doing_holds {p : Pc} {r : Nat} {f : Bool} (h : p.doing = some (r, f)) (a : Nat → Option Nat) : p.Holds a r := by
  cases p with
  | run r' => cases h; exact rfl
  | done r' => cases h; exact rfl
  | fetch who r' => cases who <;> cases h; exact .inr rfl
  | store who r' i => cases who <;> cases h; exact .inr rfl
  | _ => cases h

theorem Pc.opening_cases {p : Pc} (h : p.opening = true) : p.booting = true ∨ p.top = true := by
  cases p with
  | boot => exact .inl rfl
  | events => exact .inr rfl
  | fetch who r => cases who <;> first | exact .inl rfl | exact .inr rfl | cases h
  | store who r i => cases who <;> first | exact .inl rfl | exact .inr rfl | cases h
  | _ => cases h

theorem Who.pc_doing (who : Who) (r : Nat) : who.pc.doing = (Pc.fetch who r).doing := by cases who <;> rfl
theorem Who.store_doing (who : Who) (r i : Nat) : (Pc.store who r i).doing = (Pc.fetch who r).doing := by cases who <;> rfl
theorem Who.pc_opening (who : Who) (r : Nat) : who.pc.opening = (Pc.fetch who r).opening := by cases who <;> rfl
theorem Who.store_opening (who : Who) (r i : Nat) : (Pc.store who r i).opening = (Pc.fetch who r).opening := by
  cases who <;> rfl
theorem Who.pc_over (who : Who) : who.pc.over = false := by cases who <;> rfl

/-- What the record has to do with the state. -/
structure Ledger (C : Config) (s : State) : Prop where
  trig : ∀ r, s.queued r = true → Ev.trigger r ∈ thisTag s.hist
  work : ∀ w r f, (s.pc w).doing = some (r, f) →
    starts r (thisTag s.hist) = 1 ∧ finishes r (thisTag s.hist) = if f then 1 else 0
  fresh : ∀ r, s.queued r = true → (∀ w f, (s.pc w).doing ≠ some (r, f)) →
    starts r (thisTag s.hist) = 0 ∧ finishes r (thisTag s.hist) = 0
  rest : ∀ r, s.queued r = false →
    (Ev.trigger r ∈ thisTag s.hist → starts r (thisTag s.hist) = 1 ∧ finishes r (thisTag s.hist) = 1) ∧
    (Ev.trigger r ∉ thisTag s.hist → starts r (thisTag s.hist) = 0 ∧ finishes r (thisTag s.hist) = 0)
  level : (∀ r, starts r (thisTag s.hist) ≠ 0 → C.level r < s.next) ∨ ∀ r, s.queued r = false
  opening : ∀ w, (s.pc w).opening = true → ∀ r, starts r (thisTag s.hist) = 0
  over : ∀ w, (s.pc w).over = true → ∀ r, s.queued r = false
  stop : Ev.stop ∈ s.hist → ∃ w, s.pc w = .signal

section
variable {C : Config} {s s' : State} {w : Nat}

/-- Steps that do not touch the queue. -/
theorem Ledger.still (h : Ledger C s) {p : Pc} (e1 : s'.pc = put s.pc w p) (e2 : s'.queued = s.queued)
    (e3 : s'.hist = s.hist) (hd : p.doing = (s.pc w).doing) (ho : p.opening = true → (s.pc w).opening = true)
    (hv : p.over = true → (s.pc w).over = true ∨ ∀ r, s.queued r = false)
    (hn : s.next ≤ s'.next ∨ ∀ r, s.queued r = false) (hsig : s.pc w ≠ .signal) : Ledger C s' := by
  have hx : ∀ x, (s'.pc x).doing = (s.pc x).doing := by
    intro x
    rw [e1]
    by_cases hx : x = w
    · subst hx; rw [put_same]; exact hd
    · rw [put_other _ _ hx]
  refine ⟨?_, fun x r f k => ?_, fun r k k' => ?_, ?_, ?_, fun x k => ?_, fun x k => ?_, fun k => ?_⟩
  · rw [e2, e3]; exact h.trig
  · rw [e3]; rw [hx] at k; exact h.work x r f k
  · rw [e3]; rw [e2] at k; exact h.fresh r k fun x f => by rw [← hx]; exact k' x f
  · rw [e2, e3]; exact h.rest
  · rw [e2, e3]
    rcases hn with hn | hn
    · exact h.level.imp (fun k r hr => Nat.lt_of_lt_of_le (k r hr) hn) id
    · exact .inr hn
  · rw [e3]
    by_cases hxw : x = w
    · subst hxw; rw [e1, put_same] at k; exact h.opening _ (ho k)
    · rw [e1, put_other _ _ hxw] at k; exact h.opening x k
  · rw [e2]
    by_cases hxw : x = w
    · subst hxw
      rw [e1, put_same] at k
      rcases hv k with k | k
      · exact h.over _ k
      · exact k
    · rw [e1, put_other _ _ hxw] at k; exact h.over x k
  · rw [e3] at k
    obtain ⟨x, hx⟩ := h.stop k
    refine ⟨x, ?_⟩
    rw [e1, put_other _ _ (fun e => ?_)]
    · exact hx
    · subst e; exact hsig hx

theorem Ledger.same (h : Ledger C s) (e1 : s'.pc = s.pc) (e2 : s'.queued = s.queued) (e3 : s'.hist = s.hist)
    (e4 : s'.next = s.next) : Ledger C s' := by
  refine ⟨?_, ?_, ?_, ?_, ?_, ?_, ?_, ?_⟩
  · rw [e2, e3]; exact h.trig
  · rw [e1, e3]; exact h.work
  · rw [e1, e2, e3]; exact h.fresh
  · rw [e2, e3]; exact h.rest
  · rw [e2, e3, e4]; exact h.level
  · rw [e1, e3]; exact h.opening
  · rw [e1, e2]; exact h.over
  · rw [e1, e3]; exact h.stop

/-- The record and the state after each step. -/
theorem Ledger.step (hC : C.Ok) (h : Inv C s) (L : Ledger C s) (G : Good (fun r r' => C.level r < C.level r') s.hist) (hs : s.stop = false)
    (hturn : if s.started then w < C.n else w = C.n) (hstep : Step C s w s') :
    (s'.stop = false → Ledger C s') ∧ Good (fun r r' => C.level r < C.level r') s'.hist := by
  have hp := h.pool
  obtain ⟨loc, base, P, B⟩ := h.data hs
  have hf := B.fine w
  have worker : ∀ {p : Pc}, s.pc w = p → p.booting = false → s.started = true ∧ w < C.n := by
    intro p e hb
    cases hst : s.started with
    | true => rw [hst] at hturn; exact ⟨rfl, hturn⟩
    | false =>
      rw [hst] at hturn
      have := (hp.early hst).2.1
      rw [← (show w = C.n from hturn), e, hb] at this; cases this
  have nosig : ∀ {p : Pc}, s.pc w = p → p ≠ .acquire → p ≠ .signal → Ev.stop ∉ s.hist := by
    intro p e h1 h2 k
    obtain ⟨x, hx⟩ := L.stop k
    have hxn : x < C.n := by
      rcases Nat.lt_trichotomy x C.n with k | k | k
      · exact k
      · subst k
        cases hst : s.started with
        | true => rw [hp.main hst] at hx; cases hx
        | false => have := (hp.early hst).2.1; rw [hx] at this; cases this
      · rw [hp.beyond x k] at hx; cases hx
    have hst : s.started = true := by
      cases hst : s.started with
      | true => rfl
      | false => have := (hp.early hst).1 x hxn; rw [hx] at this; cases this
    rw [hst] at hturn
    have := hp.others hs hst hxn (by rw [hx]; rfl) w (fun k => by subst k; rw [e] at hx; exact h2 hx)
    rw [e] at this
    rcases this with k | k
    · exact h1 k
    · have := ((hp.run hs).live w hturn).1; rw [e] at this; exact this k
  have holder : ∀ {x r f}, (s.pc x).doing = some (r, f) → s.queued r = true ∧ ∀ {y : Nat} {g : Bool}, (s.pc y).doing = some (r, g) → y = x := by
    intro x r f k
    have h1 := (P.held r x).2 (Pc.doing_holds k _)
    refine ⟨(P.q r).2 (by rw [h1]; simp), fun {y g} k' => ?_⟩
    have h2 := (P.held r y).2 (Pc.doing_holds k' _)
    rw [h1] at h2; cases h2; rfl
  have others : ∀ {p : Pc}, s.pc w = p → p.charge = true → p.booting = false →
      ∀ x, x ≠ w → s.pc x = .acquire ∨ s.pc x = .exited := by
    intro p e hc hb
    obtain ⟨hst, hw⟩ := worker e hb
    exact hp.others hs hst hw (by rw [e]; exact hc)
  have cur : ∀ {p : Pc}, s.pc w = p → p.booting = false → p ≠ .acquire → p.charge = false →
      s.next = base + 1 ∧ s.exec = base := by
    intro p e hb hne hc
    obtain ⟨hst, hw⟩ := worker e hb
    have := hp.no_top hs hw (by rw [e]; exact hne) (by rw [e]; exact hc)
    exact B.cur fun x => (this x).2
  have still : ∀ {s' : State} {p : Pc}, s'.pc = put s.pc w p → s'.queued = s.queued → s'.hist = s.hist →
      p.doing = (s.pc w).doing → (p.opening = true → (s.pc w).opening = true) →
      (p.over = true → (s.pc w).over = true ∨ ∀ r, s.queued r = false) → (s.next ≤ s'.next ∨ ∀ r, s.queued r = false) →
      s.pc w ≠ .signal → (s'.stop = false → Ledger C s') ∧ Good (fun r r' => C.level r < C.level r') s'.hist :=
    fun e1 e2 e3 a b c d e => ⟨fun _ => L.still e1 e2 e3 a b c d e, by rw [e3]; exact G⟩
  have same : ∀ {s' : State}, s'.pc = s.pc → s'.queued = s.queued → s'.hist = s.hist → s'.next = s.next →
      (s'.stop = false → Ledger C s') ∧ Good (fun r r' => C.level r < C.level r') s'.hist :=
    fun e1 e2 e3 e4 => ⟨fun _ => L.same e1 e2 e3 e4, by rw [e3]; exact G⟩
  have le : s.next ≤ s.next ∨ ∀ r, s.queued r = false := .inl (Nat.le_refl _)
  have trigG : ∀ {p : Pc} (r : Nat), s.pc w = p → p ≠ .acquire → p ≠ .signal → Good (fun r r' => C.level r < C.level r') (.trigger r :: s.hist) := by
    intro p r e h1 h2
    exact G.more (by simp) G.once (fun r' k => List.mem_cons_of_mem _ (G.asked r' k))
      (G.order.more (by simp)) (fun k => by cases k) (nosig e h1 h2)
  cases hstep with
  | bootEnd e => exact still rfl rfl rfl (by rw [e]; rfl) (fun k => by cases k) (fun k => by cases k) le (by rw [e]; simp)
  | checkStop e k => rw [hs] at k; cases k
  | check e => exact still rfl rfl rfl (by rw [e]; rfl) (fun k => by cases k) (fun k => by cases k) le (by rw [e]; simp)
  | readFault e => exact same rfl rfl rfl rfl
  | read e => exact still rfl rfl rfl (by rw [e]; rfl) (fun k => by cases k) (fun k => by cases k) le (by rw [e]; simp)
  | decTake l e h0 =>
    exact still rfl rfl rfl (by rw [e]; rfl) (fun k => by cases k) (fun k => by cases k) le (by rw [e]; simp)
  | decWait l e h0 =>
    exact still rfl rfl rfl (by rw [e]; rfl) (fun k => by cases k) (fun k => by cases k) le (by rw [e]; simp)
  | take i e => exact still rfl rfl rfl (by rw [e]; rfl) (fun k => by cases k) (fun k => by cases k) le (by rw [e]; simp)
  | clearNone i e =>
    obtain ⟨r, k, _⟩ := P.clear _ _ _ e
    cases k
  | clear i r e =>
    obtain ⟨r', k, k'⟩ := P.clear _ _ _ e
    cases k
    have hl := (P.entry _ _ _ k').1
    obtain ⟨hn, hx⟩ := cur e rfl (by simp) rfl
    have hloc := (P.held r w).2 (by rw [e]; exact rfl)
    have hq : s.queued r = true := (P.q r).2 (by rw [hloc]; simp)
    have hnone : ∀ x f, (s.pc x).doing ≠ some (r, f) := by
      intro x f kx
      have h2 := (P.held r x).2 (Pc.doing_holds kx _)
      rw [hloc] at h2; cases h2
      rw [e] at kx; cases kx
    obtain ⟨z1, z2⟩ := L.fresh r hq hnone
    have hlv : ∀ r, starts r (thisTag s.hist) ≠ 0 → C.level r < s.next := by
      rcases L.level with k | k
      · exact k
      · rw [k r] at hq; cases hq
    have hst1 : ∀ r', starts r' (.start w r :: thisTag s.hist) = (if r = r' then 1 else 0) + starts r' (thisTag s.hist) :=
      fun _ => rfl
    have hG : Good (fun r r' => C.level r < C.level r') (.start w r :: s.hist) := by
      refine G.more (by simp) (fun r' => ?_) (fun r' kk => ?_) ?_ (fun k => by cases k) (nosig e (by simp) (by simp))
      · show (if r = r' then 1 else 0) + starts r' (thisTag s.hist) ≤ 1 ∧
          finishes r' (thisTag s.hist) ≤ (if r = r' then 1 else 0) + starts r' (thisTag s.hist)
        have := G.once r'
        split
        · rename_i er; subst er; omega
        · omega
      · rw [hst1] at kk
        by_cases er : r = r'
        · subst er; exact List.mem_cons_of_mem _ (L.trig r hq)
        · rw [if_neg er] at kk
          exact List.mem_cons_of_mem _ (G.asked r' (by omega))
      · intro a x r1 b kk r2 hlt hne
        rw [hst1] at hne
        have hne' : r2 ≠ r → starts r2 (thisTag s.hist) ≠ 0 := by
          intro er
          rw [if_neg (fun k => er k.symm)] at hne
          omega
        cases a with
        | nil =>
          cases kk
          have hr2 : r2 ≠ r := fun k => by subst k; omega
          have := hne' hr2
          have hq2 : s.queued r2 = false := by
            cases hq2 : s.queued r2 with
            | false => rfl
            | true =>
              have := (B.mem r2 hq2).2
              omega
          have hrest := L.rest r2 hq2
          by_cases ht : Ev.trigger r2 ∈ thisTag s.hist
          · have := (hrest.1 ht).2; omega
          · have := (hrest.2 ht).1; omega
        | cons y a =>
          have kk' := (List.cons.inj kk).2
          by_cases hr2 : r2 = r
          · exfalso
            subst hr2
            have : starts r1 (thisTag s.hist) ≠ 0 := by
              rw [kk']
              clear * -
              induction a with
              | nil => show (if r1 = r1 then 1 else 0) + _ ≠ 0; rw [if_pos rfl]; omega
              | cons y a ih => cases y <;> first | exact ih | (show _ + starts r1 _ ≠ 0; omega)
            have := hlv r1 this
            omega
          · exact G.order a x r1 b kk' r2 hlt (hne' hr2)
    refine ⟨fun _ => ?_, hG⟩
    have hd : ∀ x, x ≠ w → (put s.pc w (.run r) x).doing = (s.pc x).doing := fun x k => by rw [put_other _ _ k]
    refine ⟨fun r' k => List.mem_cons_of_mem _ (L.trig r' k), fun x r' f k => ?_, fun r' k k2 => ?_, fun r' k => ?_,
      .inl fun r' k => ?_, fun x k => ?_, fun x k => ?_, fun k => ?_⟩
    · show (if r = r' then 1 else 0) + starts r' (thisTag s.hist) = 1 ∧ finishes r' (thisTag s.hist) = _
      by_cases hxw : x = w
      · subst hxw
        replace k : (put s.pc x (.run r) x).doing = some (r', f) := k
        rw [put_same] at k
        cases k
        rw [if_pos rfl]
        exact ⟨by omega, z2⟩
      · replace k : (put s.pc w (.run r) x).doing = some (r', f) := k
        rw [hd x hxw] at k
        have hr' : r ≠ r' := fun er => by subst er; exact hnone x f k
        rw [if_neg hr', Nat.zero_add]
        exact L.work x r' f k
    · show (if r = r' then 1 else 0) + starts r' (thisTag s.hist) = 0 ∧ finishes r' (thisTag s.hist) = 0
      have hr' : r ≠ r' := fun er => by
        subst er
        exact k2 w false (by show (put s.pc w (.run r) w).doing = _; rw [put_same]; rfl)
      rw [if_neg hr', Nat.zero_add]
      refine L.fresh r' k fun x f kx => ?_
      by_cases hxw : x = w
      · subst hxw; rw [e] at kx; cases kx
      · exact k2 x f (by show (put s.pc w (.run r) x).doing = _; rw [hd x hxw]; exact kx)
    · replace k : s.queued r' = false := k
      have hr' : r ≠ r' := fun er => by subst er; rw [hq] at k; cases k
      show (Ev.trigger r' ∈ Ev.start w r :: thisTag s.hist → (if r = r' then 1 else 0) + starts r' (thisTag s.hist) = 1 ∧ _) ∧
        (Ev.trigger r' ∉ Ev.start w r :: thisTag s.hist → (if r = r' then 1 else 0) + starts r' (thisTag s.hist) = 0 ∧ _)
      rw [if_neg hr', Nat.zero_add]
      have := L.rest r' k
      exact ⟨fun kk => this.1 (by simpa using kk), fun kk => this.2 (by simpa using kk)⟩
    · replace k : (if r = r' then 1 else 0) + starts r' (thisTag s.hist) ≠ 0 := k
      show C.level r' < s.next
      by_cases er : r = r'
      · subst er; omega
      · rw [if_neg er] at k; exact hlv r' (by omega)
    · replace k : (put s.pc w (.run r) x).opening = true := k
      by_cases hxw : x = w
      · subst hxw; rw [put_same] at k; cases k
      · rw [put_other _ _ hxw] at k
        exfalso
        obtain ⟨hst, hw⟩ := worker e rfl
        have hnb := hp.no_boot hs hst x
        have := (hp.no_top hs hw (by rw [e]; simp) (by rw [e]; rfl) x).2
        rcases Pc.opening_cases k with k | k
        · rw [k] at hnb; cases hnb
        · rw [k] at this; cases this
    · replace k : (put s.pc w (.run r) x).over = true := k
      by_cases hxw : x = w
      · subst hxw; rw [put_same] at k; cases k
      · rw [put_other _ _ hxw] at k; exact L.over x k
    · exact absurd (by simpa using k) (nosig e (by simp) (by simp))
  | done r e hq =>
    obtain ⟨w1, w2⟩ := L.work w r true (by rw [e]; rfl)
    obtain ⟨_, huq⟩ := holder (x := w) (r := r) (f := true) (by rw [e]; rfl)
    refine ⟨fun _ => ?_, G⟩
    have hd : ∀ x, x ≠ w → (put s.pc w .check x).doing = (s.pc x).doing := fun x k => by rw [put_other _ _ k]
    have hqq : ∀ r', put s.queued r false r' = true → s.queued r' = true ∧ r' ≠ r := by
      intro r' k
      rcases put_cases k with ⟨_, k⟩ | ⟨k1, k⟩
      · cases k
      · exact ⟨k, k1⟩
    refine ⟨fun r' k => L.trig r' (hqq r' k).1, fun x r' f k => ?_, fun r' k k2 => ?_, fun r' k => ?_, ?_, fun x k => ?_,
      fun x k => ?_, fun k => ?_⟩
    · by_cases hxw : x = w
      · subst hxw
        replace k : (put s.pc x .check x).doing = some (r', f) := k
        rw [put_same] at k; cases k
      · exact L.work x r' f (by rw [← hd x hxw]; exact k)
    · refine L.fresh r' (hqq r' k).1 fun x f kx => ?_
      by_cases hxw : x = w
      · subst hxw; rw [e] at kx; cases kx; exact (hqq _ k).2 rfl
      · exact k2 x f (by show (put s.pc w .check x).doing = _; rw [hd x hxw]; exact kx)
    · rcases put_cases (show put s.queued r false r' = false from k) with ⟨er, _⟩ | ⟨_, k⟩
      · subst er
        exact ⟨fun _ => ⟨w1, w2⟩, fun kk => absurd (L.trig _ hq) kk⟩
      · exact L.rest r' k
    · rcases L.level with k | k
      · exact .inl k
      · exact .inr fun r' => by
          cases hk : put s.queued r false r' with
          | false => exact hk
          | true => have := (hqq r' hk).1; rw [k r'] at this; cases this
    · replace k : (put s.pc w .check x).opening = true := k
      by_cases hxw : x = w
      · subst hxw; rw [put_same] at k; cases k
      · rw [put_other _ _ hxw] at k; exact L.opening x k
    · replace k : (put s.pc w .check x).over = true := k
      by_cases hxw : x = w
      · subst hxw; rw [put_same] at k; cases k
      · rw [put_other _ _ hxw] at k
        have := L.over x k r
        rw [hq] at this; cases this
    · exact absurd k (nosig e (by simp) (by simp))
  | doneFault r e => exact same rfl rfl rfl rfl
  | fetch who r e =>
    exact still rfl rfl rfl (by rw [e]; cases who <;> rfl) (fun k => by rw [e, ← Who.store_opening who r]; exact k)
      (fun k => by cases k) le (by rw [e]; simp)
  | store who r i e =>
    exact still rfl rfl rfl (by rw [e]; cases who <;> rfl)
      (fun k => by rw [e, Who.store_opening, ← who.pc_opening r]; exact k)
      (fun k => by rw [who.pc_over] at k; cases k) le (by rw [e]; simp)
  | waitLast e => exact still rfl rfl rfl (by rw [e]; rfl) (fun k => by cases k) (fun k => by cases k) le (by rw [e]; simp)
  | wait e => exact still rfl rfl rfl (by rw [e]; rfl) (fun k => by cases k) (fun k => by cases k) le (by rw [e]; simp)
  | acquire e => exact still rfl rfl rfl (by rw [e]; rfl) (fun k => by cases k) (fun k => by cases k) le (by rw [e]; simp)
  | resetFault e => exact same rfl rfl rfl rfl
  | reset e hn => exact still rfl rfl rfl (by rw [e]; rfl) (fun k => by cases k) (fun k => by cases k) le (by rw [e]; simp)
  | loopTag e hn =>
    obtain ⟨t1, t2⟩ := B.top w (by rw [e]; rfl)
    have hnone : ∀ r, s.queued r = false := by
      intro r
      cases hq : s.queued r with
      | false => rfl
      | true =>
        have h1 := B.mem r hq
        have h2 := hC.levels r h1.1
        omega
    exact still rfl rfl rfl (by rw [e]; rfl) (fun k => by cases k) (fun _ => .inr hnone) (.inr hnone) (by rw [e]; simp)
  | loopDist e => exact still rfl rfl rfl (by rw [e]; rfl) (fun k => by cases k) (fun k => by cases k) le (by rw [e]; simp)
  | events e => exact still rfl rfl rfl (by rw [e]; rfl) (fun k => by cases k) (fun k => by cases k) le (by rw [e]; simp)
  | distFound r e hn hr =>
    exact still rfl rfl rfl (by rw [e]; rfl) (fun k => by cases k) (fun k => by cases k)
      (.inl (show s.next ≤ s.next + 1 by omega)) (by rw [e]; simp)
  | distSkip e hn hr =>
    exact still rfl rfl rfl (by rw [e]) (fun k => by cases k) (fun k => by cases k)
      (.inl (show s.next ≤ s.next + 1 by omega)) (by rw [e]; simp)
  | distEnd e => exact still rfl rfl rfl (by rw [e]; rfl) (fun k => by cases k) (fun k => by cases k) le (by rw [e]; simp)
  | notify k e => exact still rfl rfl rfl (by rw [e]; rfl) (fun k => by cases k) (fun k => by cases k) le (by rw [e]; simp)
  | notifyOne k e => exact still rfl rfl rfl (by rw [e]; rfl) (fun k => by cases k) (fun k => by cases k) le (by rw [e]; simp)
  | release m e => exact still rfl rfl rfl (by rw [e]; rfl) (fun k => by cases k) (fun k => by cases k) le (by rw [e]; simp)
  | signal e => exact ⟨fun k => (by cases k), G⟩
  | halt e =>
    obtain ⟨_, hw⟩ := worker e rfl
    exact absurd e ((hp.run hs).live w hw).2.1
  | triggerAgain who r e hr hl hq =>
    have ha : s.pc w ≠ .acquire := by rw [e]; cases who <;> simp [Who.pc]
    have hg : s.pc w ≠ .signal := by rw [e]; cases who <;> simp [Who.pc]
    refine ⟨fun _ => ?_, trigG r rfl ha hg⟩
    refine ⟨fun r' k => List.mem_cons_of_mem _ (L.trig r' k), L.work, L.fresh, fun r' k => ?_, L.level, L.opening, L.over,
      fun k => absurd (by simpa using k) (nosig rfl ha hg)⟩
    have hr' : r' ≠ r := fun er => by subst er; rw [show s.queued r' = false from k] at hq; cases hq
    have := L.rest r' k
    exact ⟨fun kk => this.1 (by simpa [thisTag, hr'] using kk), fun kk => this.2 (by simpa [thisTag, hr'] using kk)⟩
  | triggerNew who r e hr hl hq =>
    have ha : s.pc w ≠ .acquire := by rw [e]; cases who <;> simp [Who.pc]
    have hg : s.pc w ≠ .signal := by rw [e]; cases who <;> simp [Who.pc]
    have hz : starts r (thisTag s.hist) = 0 := by
      cases who with
      | boot => exact L.opening w (by rw [e]; rfl) r
      | events => exact L.opening w (by rw [e]; rfl) r
      | running r' =>
        by_contra hc
        have hq' := (holder (x := w) (r := r') (f := false) (by rw [e]; rfl)).1
        rcases L.level with k | k
        · have h1 := k r hc
          have h2 := (cur e rfl (by simp [Who.pc]) rfl).1
          rw [e] at hf
          have h3 : C.level r' = base := hf
          have h4 := hl r' rfl
          omega
        · rw [k r'] at hq'; cases hq'
    obtain ⟨r1, r2⟩ := L.rest r hq
    have ht : Ev.trigger r ∉ thisTag s.hist := fun k => by have := (r1 k).1; omega
    have hz2 := (r2 ht).2
    have hd : ∀ x, (put s.pc w (.fetch who r) x).doing = (s.pc x).doing := by
      intro x
      by_cases hxw : x = w
      · subst hxw; rw [put_same, e, who.pc_doing r]
      · rw [put_other _ _ hxw]
    refine ⟨fun _ => ?_, trigG r rfl ha hg⟩
    refine ⟨fun r' k => ?_, fun x r' f k => L.work x r' f (by rw [← hd]; exact k), fun r' k k2 => ?_, fun r' k => ?_, ?_,
      fun x k => ?_, fun x k => ?_, fun k => absurd (by simpa using k) (nosig rfl ha hg)⟩
    · rcases put_cases (show put s.queued r true r' = true from k) with ⟨k, _⟩ | ⟨_, k⟩
      · subst k; exact List.mem_cons_self
      · exact List.mem_cons_of_mem _ (L.trig r' k)
    · show starts r' (thisTag s.hist) = 0 ∧ finishes r' (thisTag s.hist) = 0
      rcases put_cases (show put s.queued r true r' = true from k) with ⟨k, _⟩ | ⟨_, k⟩
      · subst k; exact ⟨hz, hz2⟩
      · exact L.fresh r' k fun x f kx => k2 x f (by show (put s.pc w (.fetch who r) x).doing = _; rw [hd]; exact kx)
    · rcases put_cases (show put s.queued r true r' = false from k) with ⟨_, k⟩ | ⟨hr', k⟩
      · cases k
      · have := L.rest r' k
        exact ⟨fun kk => this.1 (by simpa [thisTag, hr'] using kk), fun kk => this.2 (by simpa [thisTag, hr'] using kk)⟩
    · rcases L.level with k | k
      · exact .inl k
      · refine .inl fun r' kr => ?_
        exfalso
        cases who with
        | boot => exact kr (L.opening w (by rw [e]; rfl) r')
        | events => exact kr (L.opening w (by rw [e]; rfl) r')
        | running r'' =>
          have := (holder (x := w) (r := r'') (f := false) (by rw [e]; rfl)).1
          rw [k r''] at this; cases this
    · replace k : (put s.pc w (.fetch who r) x).opening = true := k
      by_cases hxw : x = w
      · subst hxw; rw [put_same, ← who.pc_opening r, ← e] at k; exact L.opening _ k
      · rw [put_other _ _ hxw] at k; exact L.opening x k
    · replace k : (put s.pc w (.fetch who r) x).over = true := k
      by_cases hxw : x = w
      · subst hxw; rw [put_same] at k; cases k
      · rw [put_other _ _ hxw] at k
        exfalso
        -- the worker at `x` would be in charge
        have hc : (s.pc x).charge = true := by
          generalize s.pc x = p at k
          cases p <;> first | rfl | cases k
        have hxn : x < C.n ∧ s.started = true := by
          rcases Nat.lt_trichotomy x C.n with k | k | k
          · cases hst : s.started with
            | true => exact ⟨k, rfl⟩
            | false => rw [(hp.early hst).1 x k] at hc; cases hc
          · subst k
            cases hst : s.started with
            | true => rw [hp.main hst] at hc; cases hc
            | false => have := Pc.booting_charge (hp.early hst).2.1; rw [hc] at this; cases this
          · rw [hp.beyond x k] at hc; cases hc
        have := hp.others hs hxn.2 hxn.1 hc w (fun k => hxw k.symm)
        rw [e] at this
        rcases this with k | k <;> cases who <;> cases k
  | finish r e =>
    obtain ⟨w1, w2⟩ := L.work w r false (by rw [e]; rfl)
    obtain ⟨hq, huq⟩ := holder (x := w) (r := r) (f := false) (by rw [e]; rfl)
    replace w2 : finishes r (thisTag s.hist) = 0 := w2
    refine ⟨fun _ => ?_, ?_⟩
    · have hd : ∀ x, x ≠ w → (put s.pc w (.done r) x).doing = (s.pc x).doing := fun x k => by rw [put_other _ _ k]
      refine ⟨fun r' k => List.mem_cons_of_mem _ (L.trig r' k), fun x r' f k => ?_, fun r' k k2 => ?_, fun r' k => ?_,
        L.level, fun x k => ?_, fun x k => ?_, fun k => absurd (by simpa using k) (nosig e (by simp) (by simp))⟩
      · show starts r' (thisTag s.hist) = 1 ∧ (if r = r' then 1 else 0) + finishes r' (thisTag s.hist) = _
        replace k : (put s.pc w (.done r) x).doing = some (r', f) := k
        by_cases hxw : x = w
        · subst hxw
          rw [put_same] at k
          cases k
          rw [if_pos rfl, w2]; exact ⟨w1, rfl⟩
        · rw [hd x hxw] at k
          have hr' : r ≠ r' := fun er => by subst er; exact hxw (huq k)
          rw [if_neg hr', Nat.zero_add]
          exact L.work x r' f k
      · show starts r' (thisTag s.hist) = 0 ∧ (if r = r' then 1 else 0) + finishes r' (thisTag s.hist) = 0
        have hr' : r ≠ r' := fun er => by
          subst er
          exact k2 w true (by show (put s.pc w (.done r) w).doing = _; rw [put_same]; rfl)
        rw [if_neg hr', Nat.zero_add]
        refine L.fresh r' k fun x f kx => ?_
        by_cases hxw : x = w
        · subst hxw; rw [e] at kx; cases kx; exact hr' rfl
        · exact k2 x f (by show (put s.pc w (.done r) x).doing = _; rw [hd x hxw]; exact kx)
      · replace k : s.queued r' = false := k
        have hr' : r ≠ r' := fun er => by subst er; rw [hq] at k; cases k
        show (Ev.trigger r' ∈ Ev.finish w r :: thisTag s.hist → _ ∧ (if r = r' then 1 else 0) + finishes r' (thisTag s.hist) = 1) ∧
          (Ev.trigger r' ∉ Ev.finish w r :: thisTag s.hist → _ ∧ (if r = r' then 1 else 0) + finishes r' (thisTag s.hist) = 0)
        rw [if_neg hr', Nat.zero_add]
        have := L.rest r' k
        exact ⟨fun kk => this.1 (by simpa using kk), fun kk => this.2 (by simpa using kk)⟩
      · replace k : (put s.pc w (.done r) x).opening = true := k
        by_cases hxw : x = w
        · subst hxw; rw [put_same] at k; cases k
        · rw [put_other _ _ hxw] at k; exact L.opening x k
      · replace k : (put s.pc w (.done r) x).over = true := k
        by_cases hxw : x = w
        · subst hxw; rw [put_same] at k; cases k
        · rw [put_other _ _ hxw] at k; exact L.over x k
    · refine G.more (by simp) (fun r' => ?_) (fun r' k => List.mem_cons_of_mem _ (G.asked r' k)) (G.order.more (by simp))
        (fun k => by cases k) (nosig e (by simp) (by simp))
      show starts r' (thisTag s.hist) ≤ 1 ∧
          (if r = r' then 1 else 0) + finishes r' (thisTag s.hist) ≤ starts r' (thisTag s.hist)
      have := G.once r'
      split
      · rename_i er; subst er; omega
      · omega
  | advance e =>
    have hnone := L.over w (by rw [e]; rfl)
    have ho := others e rfl rfl
    refine ⟨fun _ => ⟨fun r k => ?_, fun x r f k => ?_, fun r k => ?_, fun r _ => ?_, .inl fun r k => absurd rfl k,
      fun x _ r => rfl, fun x k r => hnone r, fun k => absurd (by simpa using k) (nosig e (by simp) (by simp))⟩,
      G.close (fun r => L.rest r (hnone r)) (nosig e (by simp) (by simp))⟩
    · have := hnone r; rw [show s.queued r = true from k] at this; cases this
    · exfalso
      replace k : (put s.pc w .events x).doing = some (r, f) := k
      by_cases hxw : x = w
      · subst hxw; rw [put_same] at k; cases k
      · rw [put_other _ _ hxw] at k
        rcases ho x hxw with k' | k' <;> rw [k'] at k <;> cases k
    · have := hnone r; rw [show s.queued r = true from k] at this; cases this
    · exact ⟨fun k => (by cases k), fun _ => ⟨rfl, rfl⟩⟩
  | retry e => exact still rfl rfl rfl (by rw [e]; rfl) (fun k => by cases k) (fun k => by cases k) le (by rw [e]; simp)
  | stop e =>
    have hnone := L.over w (by rw [e]; rfl)
    have hstill : Ledger C { s with pc := put s.pc w .signal } :=
      L.still rfl rfl rfl (by rw [e]; rfl) (fun k => by cases k) (fun k => .inr hnone) le (by rw [e]; simp)
    refine ⟨fun _ => ⟨fun r k => List.mem_cons_of_mem _ (hstill.trig r k), hstill.work, hstill.fresh, fun r k => ?_, hstill.level,
      hstill.opening, hstill.over, fun _ => ⟨w, put_same _ _ _⟩⟩,
      G.more (by simp) G.once (fun r k => List.mem_cons_of_mem _ (G.asked r k)) (G.order.more (by simp))
        (fun _ r => L.rest r (hnone r)) (nosig e (by simp) (by simp))⟩
    have := L.rest r k
    exact ⟨fun kk => this.1 (by simpa [thisTag] using kk), fun kk => this.2 (by simpa [thisTag] using kk)⟩

theorem Ledger.init (C : Config) : Ledger C (init C) := by
  have hd : ∀ w, ((Np.init C).pc w).doing = none := by
    intro w
    show (if w < C.n then Pc.check else if w = C.n then Pc.boot else Pc.exited).doing = none
    split
    · rfl
    · split <;> rfl
  refine ⟨fun r k => (by cases k), fun w r f k => ?_, fun r k => (by cases k), fun r _ => ⟨fun k => (by cases k), fun _ => ⟨rfl, rfl⟩⟩,
    .inl fun r k => absurd rfl k, fun _ _ _ => rfl, fun _ _ _ => rfl, fun k => (by cases k)⟩
  rw [hd] at k; cases k

theorem Reach.ledger (hC : C.Ok) (h : Reach C s) : (s.stop = false → Ledger C s) ∧ Good (fun r r' => C.level r < C.level r') s.hist := by
  induction h with
  | init => exact ⟨fun _ => Ledger.init C, Good.init _⟩
  | step a hr ha he ih =>
    rename_i s s'
    have hi := hr.inv hC
    have hstep := exec_step ha he
    cases hs : s.stop with
    | false => exact Ledger.step hC hi (ih.1 hs) ih.2 hs ha.1 hstep
    | true =>
      have hst : s.started = true := by
        cases hst : s.started with
        | true => rfl
        | false => have := (hi.pool.early hst).2.2; rw [hs] at this; cases this
      have hw := ha.1
      rw [hst] at hw
      obtain ⟨_, k1, k2, _⟩ := hi.pool.stop_step hst hs hw hstep
      exact ⟨fun k => (by rw [k1] at k; cases k), by rw [k2]; exact ih.2⟩

end

end ReactorC.Np
