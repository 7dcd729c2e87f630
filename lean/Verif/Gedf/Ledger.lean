import Verif.Gedf.Places

/-!
# The record of what happened agrees with the state of the scheduler
-/

set_option linter.unusedVariables false

namespace ReactorC.Gedf

open Np (Ev put put_same put_other put_cases thisTag starts finishes Complete Order Good)

/-- The reaction that a thread executes, and whether it has finished it. -/
def Pc.doing : Pc → Option (Nat × Bool)
  | .run r | .lock (.running r) _ | .insert (.running r) _ => some (r, false)
  | .done r => some (r, true)
  | _ => none

/-- The first reactions of a tag are triggered. -/
def Pc.opening : Pc → Bool
  | .boot | .events => true
  | .lock .boot _ | .insert .boot _ | .lock .events _ | .insert .events _ => true
  | _ => false

theorem Pc.doing_holds {p : Pc} {r : Nat} {f : Bool} (h : p.doing = some (r, f)) : p.Holds r := by
  cases p with
  | run r' => cases h; exact rfl
  | done r' => cases h; exact rfl
  | lock who r' => cases who <;> cases h; exact .inr rfl
  | insert who r' => cases who <;> cases h; exact .inr rfl
  | _ => cases h

theorem Pc.doing_exec {p : Pc} {r : Nat} (h : p.doing = some (r, false)) : p.Exec r := by
  cases p with
  | run r' => cases h; exact .inl rfl
  | done r' => cases h
  | lock who r' => cases who <;> cases h; exact .inr ⟨_, .inl rfl⟩
  | insert who r' => cases who <;> cases h; exact .inr ⟨_, .inr rfl⟩
  | _ => cases h

theorem Pc.Exec.doing {p : Pc} {r : Nat} (h : p.Exec r) : p.doing = some (r, false) := by
  rcases h with h | ⟨r', h | h⟩ <;> subst h <;> rfl

theorem Pc.holds_cases {p : Pc} {r : Nat} (h : p.Holds r) :
    (∃ f, p.doing = some (r, f)) ∨ (∃ r0, p.Adds r0 r) ∨ (p.opening = true ∧ p.inside = true) := by
  cases p with
  | run r' => cases h; exact .inl ⟨_, rfl⟩
  | done r' => cases h; exact .inl ⟨_, rfl⟩
  | lock who r' =>
    rcases h with h | h
    · subst h
      cases who with
      | boot => exact .inr (.inr ⟨rfl, rfl⟩)
      | events => exact .inr (.inr ⟨rfl, rfl⟩)
      | running r0 => exact .inr (.inl ⟨r0, .inl rfl⟩)
    · subst h; exact .inl ⟨_, rfl⟩
  | insert who r' =>
    rcases h with h | h
    · subst h
      cases who with
      | boot => exact .inr (.inr ⟨rfl, rfl⟩)
      | events => exact .inr (.inr ⟨rfl, rfl⟩)
      | running r0 => exact .inr (.inl ⟨r0, .inr rfl⟩)
    · subst h; exact .inl ⟨_, rfl⟩
  | _ => exact absurd h (fun k => k)

theorem Pc.Adds.exec {p : Pc} {r0 r : Nat} (h : p.Adds r0 r) : p.Exec r0 := by
  rcases h with h | h
  · exact .inr ⟨r, .inl h⟩
  · exact .inr ⟨r, .inr h⟩

theorem Pc.opening_inside {p : Pc} (h : p.opening = true) : p.inside = true := by
  cases p with
  | lock who r => cases who <;> simp_all [Pc.opening, Pc.inside]
  | insert who r => cases who <;> simp_all [Pc.opening, Pc.inside]
  | _ => simp_all [Pc.opening, Pc.inside]

/-- What the record has to do with the state. -/
structure Ledger (C : Config) (s : State) : Prop where
  trig : ∀ r, s.queued r = true → Ev.trigger r ∈ thisTag s.hist
  work : ∀ w r f, (s.pc w).doing = some (r, f) →
    starts r (thisTag s.hist) = 1 ∧ finishes r (thisTag s.hist) = if f then 1 else 0
  fresh : ∀ r, s.queued r = true → (∀ w f, (s.pc w).doing ≠ some (r, f)) →
    starts r (thisTag s.hist) = 0 ∧ finishes r (thisTag s.hist) = 0
  rest : ∀ r, s.queued r = false →
    (Ev.trigger r ∈ thisTag s.hist → starts r (thisTag s.hist) = 1 ∧ finishes r (thisTag s.hist) = 1) ∧
    (Ev.trigger r ∉ thisTag s.hist → starts r (thisTag s.hist) = 0 ∧ finishes r (thisTag s.hist) = 0)
  before : ∀ r r', C.dep r r' → starts r' (thisTag s.hist) ≠ 0 → starts r (thisTag s.hist) ≠ 0 →
    finishes r (thisTag s.hist) ≠ 0
  never : ∀ r r', C.dep r r' → starts r' (thisTag s.hist) ≠ 0 → s.queued r = true → starts r (thisTag s.hist) ≠ 0
  opening : ∀ w, (s.pc w).opening = true → ∀ r, starts r (thisTag s.hist) = 0
  stop : Ev.stop ∉ s.hist

section
variable {C : Config} {s s' : State} {w : Nat}

/-- Steps that do not touch the status of the reactions and the record. -/
theorem Ledger.still (h : Ledger C s) {p : Pc} (e1 : s'.pc = put s.pc w p) (e2 : s'.queued = s.queued)
    (e3 : s'.hist = s.hist) (hd : p.doing = (s.pc w).doing) (ho : p.opening = true → (s.pc w).opening = true) :
    Ledger C s' := by
  have hx : ∀ x, (s'.pc x).doing = (s.pc x).doing := by
    intro x
    rw [e1]
    by_cases hx : x = w
    · subst hx; rw [put_same]; exact hd
    · rw [put_other _ _ hx]
  refine ⟨?_, fun x r f k => ?_, fun r k k' => ?_, ?_, ?_, ?_, fun x k => ?_, ?_⟩
  · rw [e2, e3]; exact h.trig
  · rw [e3]; rw [hx] at k; exact h.work x r f k
  · rw [e3]; rw [e2] at k; exact h.fresh r k fun x f => by rw [← hx]; exact k' x f
  · rw [e2, e3]; exact h.rest
  · rw [e3]; exact h.before
  · rw [e2, e3]; exact h.never
  · rw [e3]
    by_cases hxw : x = w
    · subst hxw; rw [e1, put_same] at k; exact h.opening _ (ho k)
    · rw [e1, put_other _ _ hxw] at k; exact h.opening x k
  · rw [e3]; exact h.stop

theorem Ledger.wakeUp (h : Ledger C s) {x : Nat} (e : s.pc x = .wait) : Ledger C { s with pc := put s.pc x .woken } :=
  h.still (w := x) (p := .woken) rfl rfl rfl (by rw [e]; rfl) (fun k => by cases k)

/-- When the tag is about to advance, nothing is queued. -/
theorem Places.nothing (h : Crew C s) (P : Places C s) (e : s.pc w = .tag ∨ s.pc w = .pause) (r : Nat) :
    s.queued r = false ∧ ∀ x f, (s.pc x).doing ≠ some (r, f) := by
  have hc : (s.pc w).charge = true := by rcases e with e | e <;> rw [e] <;> rfl
  have hold : ∀ x r, ¬ (s.pc x).Holds r := by
    intro x r k
    have hxw : x ≠ w := fun k' => by subst k'; rcases e with e | e <;> rw [e] at k <;> exact k
    have hm : s.pc C.n = .exited := by
      rcases h.is_worker (w := w) (fun k' => by rw [k'] at hc; cases hc) (Pc.charge_boot hc) with k' | k'
      · exact k'.2
      · rw [k'.2] at hc; cases hc
    rcases Nat.lt_or_ge x C.n with hx | hx
    · have := h.alone w x hc hx hxw
      revert this k; generalize s.pc x = p
      intro k this
      cases p <;> first | exact k | (rcases this with k' | k' <;> cases k')
    · have : s.pc x = .exited := by
        rcases Nat.lt_or_ge C.n x with k' | k'
        · exact h.beyond x k'
        · rw [show x = C.n by omega]; exact hm
      rw [this] at k; exact k
  refine ⟨?_, fun x f k => hold x r (Pc.doing_holds k)⟩
  cases hq : s.queued r with
  | false => rfl
  | true =>
    rcases (P.q r).1 hq with k | ⟨x, k⟩
    · rw [P.quiet w e] at k; cases k
    · exact absurd k (hold x r)

/-- What has been started and is not executed any more has been finished. -/
theorem Ledger.ended (L : Ledger C s) {r : Nat} (h1 : starts r (thisTag s.hist) ≠ 0)
    (h2 : ∀ x, (s.pc x).doing ≠ some (r, false)) : finishes r (thisTag s.hist) ≠ 0 := by
  cases hq : s.queued r with
  | true =>
    by_cases hd : ∃ x f, (s.pc x).doing = some (r, f)
    · obtain ⟨x, f, hd⟩ := hd
      cases f with
      | false => exact absurd hd (h2 x)
      | true => rw [(L.work x r true hd).2]; simp
    · exact absurd (L.fresh r hq fun x f k => hd ⟨x, f, k⟩).1 h1
  | false =>
    by_cases ht : Ev.trigger r ∈ thisTag s.hist
    · rw [((L.rest r hq).1 ht).2]; simp
    · exact absurd ((L.rest r hq).2 ht).1 h1

theorem Ledger.takes (hC : C.Ok) (h : Crew C s) (P : Places C s) (L : Ledger C s) (G : Good C.dep s.hist) {r : Nat}
    (e : s.pc w = .loop) (hr : r ∈ s.queue) (hmin : ∀ r' ∈ s.queue, C.index r ≤ C.index r') (hl : C.level r = s.level)
    {q : List Nat} :
    Ledger C { s with queue := q, owner := none, depth := 0, pc := put s.pc w (.run r), hist := .start w r :: s.hist } ∧
      Good C.dep (.start w r :: s.hist) := by
  have hq : s.queued r = true := (P.q r).2 (.inl hr)
  have hnone : ∀ x f, (s.pc x).doing ≠ some (r, f) := fun x f kx => P.excl r x hr (Pc.doing_holds kx)
  obtain ⟨z1, z2⟩ := L.fresh r hq hnone
  have ho := (h.mutex w).2 (by rw [e]; rfl)
  have hin : ∀ x, x ≠ w → (s.pc x).inside = false := by
    intro x hx
    cases k : (s.pc x).inside with
    | false => rfl
    | true => rw [(h.mutex x).2 k] at ho; cases ho; exact absurd rfl hx
  have hst1 : ∀ r', starts r' (.start w r :: thisTag s.hist) = (if r = r' then 1 else 0) + starts r' (thisTag s.hist) :=
    fun _ => rfl
  have irr : ∀ r', ¬ C.dep r' r' := fun r' k => Nat.lt_irrefl _ (hC.level _ _ k)
  -- what has to come before `r` and has been started has been finished
  have first : ∀ r', C.dep r' r → starts r' (thisTag s.hist) ≠ 0 → finishes r' (thisTag s.hist) ≠ 0 := by
    intro r' hd hs
    refine L.ended hs fun x k => ?_
    have h1 := P.lev x r' (Pc.doing_exec k)
    have h2 := hC.level _ _ hd
    omega
  -- what has to come before `r` will not be started any more
  have gone : ∀ r', C.dep r' r → s.queued r' = true → starts r' (thisTag s.hist) ≠ 0 := by
    intro r' hd hq'
    rcases (P.q r').1 hq' with k | ⟨x, k⟩
    · have h1 := hmin r' k
      have h2 := hC.index _ _ hd
      omega
    · rcases Pc.holds_cases k with ⟨f, k⟩ | ⟨r0, k⟩ | ⟨_, k⟩
      · rw [(L.work x r' f k).1]; simp
      · exfalso
        have h1 := P.lev x r0 k.exec
        have h2 := hC.level _ _ (P.dep x r0 r' k)
        have h3 := hC.level _ _ hd
        omega
      · exfalso
        by_cases hx : x = w
        · subst hx
          rename_i k0
          rw [e] at k0; cases k0
        · rw [hin x hx] at k; cases k
  have hG : Good C.dep (.start w r :: s.hist) := by
    refine G.more (by simp) (fun r' => ?_) (fun r' kk => ?_) ?_ (fun k => by cases k) L.stop
    · show (if r = r' then 1 else 0) + starts r' (thisTag s.hist) ≤ 1 ∧
        finishes r' (thisTag s.hist) ≤ (if r = r' then 1 else 0) + starts r' (thisTag s.hist)
      have := G.once r'
      split
      · rename_i er; subst er; omega
      · omega
    · rw [hst1] at kk
      by_cases er : r = r'
      · subst er; exact List.mem_cons_of_mem _ (L.trig r hq)
      · rw [if_neg er] at kk
        exact List.mem_cons_of_mem _ (G.asked r' (by omega))
    · intro a x r1 b kk r2 hlt hne
      rw [hst1] at hne
      have hne' : r2 ≠ r → starts r2 (thisTag s.hist) ≠ 0 := by
        intro er
        rw [if_neg (fun k => er k.symm)] at hne
        omega
      cases a with
      | nil =>
        cases kk
        exact first r2 hlt (hne' fun k => by subst k; exact irr _ hlt)
      | cons y a =>
        have kk' := (List.cons.inj kk).2
        by_cases hr2 : r2 = r
        · exfalso
          subst hr2
          have : starts r1 (thisTag s.hist) ≠ 0 := by
            rw [kk']
            clear * -
            induction a with
            | nil => show (if r1 = r1 then 1 else 0) + _ ≠ 0; rw [if_pos rfl]; omega
            | cons y a ih => cases y <;> first | exact ih | (show _ + starts r1 _ ≠ 0; omega)
          exact L.never _ _ hlt this hq z1
        · exact G.order a x r1 b kk' r2 hlt (hne' hr2)
  refine ⟨?_, hG⟩
  have hd : ∀ x, x ≠ w → (put s.pc w (.run r) x).doing = (s.pc x).doing := fun x k => by rw [put_other _ _ k]
  refine ⟨fun r' k => List.mem_cons_of_mem _ (L.trig r' k), fun x r' f k => ?_, fun r' k k2 => ?_, fun r' k => ?_,
    fun r1 r2 hdep k1 k2 => ?_, fun r1 r2 hdep k1 k2 => ?_, fun x k => ?_, fun k => ?_⟩
  · show (if r = r' then 1 else 0) + starts r' (thisTag s.hist) = 1 ∧ finishes r' (thisTag s.hist) = _
    by_cases hxw : x = w
    · subst hxw
      replace k : (put s.pc x (.run r) x).doing = some (r', f) := k
      rw [put_same] at k
      cases k
      rw [if_pos rfl]
      exact ⟨by omega, z2⟩
    · replace k : (put s.pc w (.run r) x).doing = some (r', f) := k
      rw [hd x hxw] at k
      have hr' : r ≠ r' := fun er => by subst er; exact hnone x f k
      rw [if_neg hr', Nat.zero_add]
      exact L.work x r' f k
  · show (if r = r' then 1 else 0) + starts r' (thisTag s.hist) = 0 ∧ finishes r' (thisTag s.hist) = 0
    have hr' : r ≠ r' := fun er => by
      subst er
      exact k2 w false (by show (put s.pc w (.run r) w).doing = _; rw [put_same]; rfl)
    rw [if_neg hr', Nat.zero_add]
    refine L.fresh r' k fun x f kx => ?_
    by_cases hxw : x = w
    · subst hxw; rw [e] at kx; cases kx
    · exact k2 x f (by show (put s.pc w (.run r) x).doing = _; rw [hd x hxw]; exact kx)
  · replace k : s.queued r' = false := k
    have hr' : r ≠ r' := fun er => by subst er; rw [hq] at k; cases k
    show (Ev.trigger r' ∈ Ev.start w r :: thisTag s.hist → (if r = r' then 1 else 0) + starts r' (thisTag s.hist) = 1 ∧ _) ∧
      (Ev.trigger r' ∉ Ev.start w r :: thisTag s.hist → (if r = r' then 1 else 0) + starts r' (thisTag s.hist) = 0 ∧ _)
    rw [if_neg hr', Nat.zero_add]
    have := L.rest r' k
    exact ⟨fun kk => this.1 (by simpa using kk), fun kk => this.2 (by simpa using kk)⟩
  · replace k1 : (if r = r2 then 1 else 0) + starts r2 (thisTag s.hist) ≠ 0 := k1
    replace k2 : (if r = r1 then 1 else 0) + starts r1 (thisTag s.hist) ≠ 0 := k2
    show finishes r1 (thisTag s.hist) ≠ 0
    by_cases e2 : r = r2
    · subst e2
      have e1 : r ≠ r1 := fun k => by subst k; exact irr _ hdep
      rw [if_neg e1] at k2
      exact first r1 hdep (by omega)
    · rw [if_neg e2] at k1
      by_cases e1 : r = r1
      · subst e1
        exact absurd z1 (L.never _ _ hdep (by omega) hq)
      · rw [if_neg e1] at k2
        exact L.before r1 r2 hdep (by omega) (by omega)
  · replace k1 : (if r = r2 then 1 else 0) + starts r2 (thisTag s.hist) ≠ 0 := k1
    show (if r = r1 then 1 else 0) + starts r1 (thisTag s.hist) ≠ 0
    by_cases e2 : r = r2
    · subst e2
      have := gone r1 hdep k2
      omega
    · rw [if_neg e2] at k1
      have := L.never r1 r2 hdep (by omega) k2
      omega
  · replace k : (put s.pc w (.run r) x).opening = true := k
    by_cases hxw : x = w
    · subst hxw; rw [put_same] at k; cases k
    · rw [put_other _ _ hxw] at k
      have := Pc.opening_inside k
      rw [hin x hxw] at this; cases this
  · exact absurd (by simpa using k) L.stop

/-- The record and the state after each step. -/
theorem Ledger.step (hC : C.Ok) (h : Crew C s) (P : Places C s) (L : Ledger C s) (G : Good C.dep s.hist)
    (hs : s.stop = false) (hstep : Step C s w s') :
    (s'.stop = false → Ledger C s') ∧ Good C.dep s'.hist := by
  have holder : ∀ {x r f}, (s.pc x).doing = some (r, f) → s.queued r = true ∧
      ∀ {y : Nat} {g : Bool}, (s.pc y).doing = some (r, g) → y = x := by
    intro x r f k
    exact ⟨(P.q r).2 (.inr ⟨x, Pc.doing_holds k⟩), fun {y g} k' => P.uniq r y x (Pc.doing_holds k') (Pc.doing_holds k)⟩
  have still : ∀ {s' : State} {p q : Pc}, s.pc w = q → s'.pc = put s.pc w p → s'.queued = s.queued → s'.hist = s.hist →
      p.doing = q.doing → (p.opening = true → q.opening = true) → (s'.stop = false → Ledger C s') ∧ Good C.dep s'.hist := by
    intro s' p q e e1 e2 e3 a b
    exact ⟨fun _ => L.still e1 e2 e3 (by rw [e]; exact a) (by rw [e]; exact b), by rw [e3]; exact G⟩
  have trigG : ∀ r : Nat, Good C.dep (.trigger r :: s.hist) := fun r =>
    G.more (by simp) G.once (fun r' k => List.mem_cons_of_mem _ (G.asked r' k)) (G.order.more (by simp))
      (fun k => by cases k) L.stop
  cases hstep with
  | bootEnd e => exact still e rfl rfl rfl rfl (fun k => by cases k)
  | enter e => exact still e rfl rfl rfl rfl (fun k => by cases k)
  | leave e k => rw [hs] at k; cases k
  | tag e => exact still e rfl rfl rfl rfl (fun k => by cases k)
  | sleep e => exact still e rfl rfl rfl rfl (fun k => by cases k)
  | level r e => exact ⟨fun _ => ⟨L.trig, L.work, L.fresh, L.rest, L.before, L.never, L.opening, L.stop⟩, G⟩
  | woken e => exact still e rfl rfl rfl rfl (fun k => by cases k)
  | done r e hq =>
    obtain ⟨w1, w2⟩ := L.work w r true (by rw [e]; rfl)
    obtain ⟨_, huq⟩ := holder (x := w) (r := r) (f := true) (by rw [e]; rfl)
    refine ⟨fun _ => ?_, G⟩
    have hd : ∀ x, x ≠ w → (put s.pc w .enter x).doing = (s.pc x).doing := fun x k => by rw [put_other _ _ k]
    have hqq : ∀ r', put s.queued r false r' = true → s.queued r' = true ∧ r' ≠ r := by
      intro r' k
      rcases put_cases k with ⟨_, k⟩ | ⟨k1, k⟩
      · cases k
      · exact ⟨k, k1⟩
    refine ⟨fun r' k => L.trig r' (hqq r' k).1, fun x r' f k => ?_, fun r' k k2 => ?_, fun r' k => ?_, L.before,
      fun r1 r2 hdep k1 k2 => L.never r1 r2 hdep k1 (hqq r1 k2).1, fun x k => ?_, L.stop⟩
    · by_cases hxw : x = w
      · subst hxw
        replace k : (put s.pc x .enter x).doing = some (r', f) := k
        rw [put_same] at k; cases k
      · exact L.work x r' f (by rw [← hd x hxw]; exact k)
    · refine L.fresh r' (hqq r' k).1 fun x f kx => ?_
      by_cases hxw : x = w
      · subst hxw; rw [e] at kx; cases kx; exact (hqq _ k).2 rfl
      · exact k2 x f (by show (put s.pc w .enter x).doing = _; rw [hd x hxw]; exact kx)
    · rcases put_cases (show put s.queued r false r' = false from k) with ⟨er, _⟩ | ⟨_, k⟩
      · subst er
        exact ⟨fun _ => ⟨w1, w2⟩, fun kk => absurd (L.trig _ hq) kk⟩
      · exact L.rest r' k
    · replace k : (put s.pc w .enter x).opening = true := k
      by_cases hxw : x = w
      · subst hxw; rw [put_same] at k; cases k
      · rw [put_other _ _ hxw] at k; exact L.opening x k
  | lockSolo r e => exact still e rfl rfl rfl rfl (fun _ => rfl)
  | lockRun r0 r e => exact still e rfl rfl rfl rfl (fun k => by cases k)
  | lockBoot r e => exact still e rfl rfl rfl rfl (fun _ => rfl)
  | insertSolo r e => exact still e rfl rfl rfl rfl (fun _ => rfl)
  | insertRun r0 r e => exact still e rfl rfl rfl rfl (fun k => by cases k)
  | insertBoot r e => exact still e rfl rfl rfl rfl (fun _ => rfl)
  | resume e => exact still e rfl rfl rfl rfl (fun k => by cases k)
  | events e => exact still e rfl rfl rfl rfl (fun k => by cases k)
  | take r e _ hr hmin hl =>
    have := L.takes hC h P G e hr hmin hl (q := s.queue.erase r)
    exact ⟨fun _ => this.1, this.2⟩
  | takeSignal r x e _ hr hmin hl hx hxw =>
    have hne : w ≠ x := fun k => by subst k; rw [e] at hxw; cases hxw
    have := (L.wakeUp hxw).takes hC (h.wakeUp hxw) (P.wakeUp hxw) G (w := w) (r := r)
      (by show put s.pc x .woken w = _; rw [put_other _ _ hne]; exact e) hr hmin hl (q := s.queue.erase r)
    exact ⟨fun _ => this.1, this.2⟩
  | triggerAgain who r e hr hl hq =>
    refine ⟨fun _ => ?_, trigG r⟩
    refine ⟨fun r' k => List.mem_cons_of_mem _ (L.trig r' k), L.work, L.fresh, fun r' k => ?_, L.before, L.never, L.opening,
      fun k => absurd (by simpa using k) L.stop⟩
    have hr' : r' ≠ r := fun er => by subst er; rw [show s.queued r' = false from k] at hq; cases hq
    have := L.rest r' k
    exact ⟨fun kk => this.1 (by simpa [thisTag, hr'] using kk), fun kk => this.2 (by simpa [thisTag, hr'] using kk)⟩
  | triggerNew who r e hr hl hq =>
    -- a reaction that has been started has not been triggered by one that comes before it and still executes
    have hrun : ∀ r0 r', who = .running r0 → C.dep r0 r' → starts r' (thisTag s.hist) = 0 := by
      intro r0 r' hw hd
      subst hw
      have hw := L.work w r0 false (by rw [e]; rfl)
      by_contra hc
      exact L.before r0 r' hd hc (by rw [hw.1]; simp) hw.2
    have hopen : who = .boot ∨ who = .events → ∀ r', starts r' (thisTag s.hist) = 0 := by
      intro k
      refine L.opening w ?_
      rw [e]
      rcases k with k | k <;> subst k <;> rfl
    have hz : starts r (thisTag s.hist) = 0 := by
      cases who with
      | boot => exact hopen (.inl rfl) r
      | events => exact hopen (.inr rfl) r
      | running r0 => exact hrun r0 r rfl (hl r0 rfl)
    obtain ⟨r1, r2⟩ := L.rest r hq
    have ht : Ev.trigger r ∉ thisTag s.hist := fun k => by have := (r1 k).1; omega
    have hz2 := (r2 ht).2
    have hd : ∀ x, (put s.pc w (.lock who r) x).doing = (s.pc x).doing := by
      intro x
      by_cases hxw : x = w
      · subst hxw; rw [put_same, e]; cases who <;> rfl
      · rw [put_other _ _ hxw]
    refine ⟨fun _ => ?_, trigG r⟩
    refine ⟨fun r' k => ?_, fun x r' f k => L.work x r' f (by rw [← hd]; exact k), fun r' k k2 => ?_, fun r' k => ?_,
      L.before, fun a b hdep k1 k2 => ?_, fun x k => ?_, fun k => absurd (by simpa using k) L.stop⟩
    · rcases put_cases (show put s.queued r true r' = true from k) with ⟨k, _⟩ | ⟨_, k⟩
      · subst k; exact List.mem_cons_self
      · exact List.mem_cons_of_mem _ (L.trig r' k)
    · show starts r' (thisTag s.hist) = 0 ∧ finishes r' (thisTag s.hist) = 0
      rcases put_cases (show put s.queued r true r' = true from k) with ⟨k, _⟩ | ⟨_, k⟩
      · subst k; exact ⟨hz, hz2⟩
      · exact L.fresh r' k fun x f kx => k2 x f (by show (put s.pc w (.lock who r) x).doing = _; rw [hd]; exact kx)
    · rcases put_cases (show put s.queued r true r' = false from k) with ⟨_, k⟩ | ⟨hr', k⟩
      · cases k
      · have := L.rest r' k
        exact ⟨fun kk => this.1 (by simpa [thisTag, hr'] using kk), fun kk => this.2 (by simpa [thisTag, hr'] using kk)⟩
    · rcases put_cases (show put s.queued r true a = true from k2) with ⟨k, _⟩ | ⟨_, k⟩
      · subst k
        exfalso
        refine k1 ?_
        show starts b (thisTag s.hist) = 0
        cases who with
        | boot => exact hopen (.inl rfl) b
        | events => exact hopen (.inr rfl) b
        | running r0 => exact hrun r0 b rfl (hC.trans _ _ _ (hl r0 rfl) hdep)
      · exact L.never a b hdep k1 k
    · replace k : (put s.pc w (.lock who r) x).opening = true := k
      by_cases hxw : x = w
      · subst hxw
        rw [put_same] at k
        refine L.opening x ?_
        rw [e]
        cases who <;> first | rfl | cases k
      · rw [put_other _ _ hxw] at k; exact L.opening x k
  | finish r e =>
    obtain ⟨w1, w2⟩ := L.work w r false (by rw [e]; rfl)
    obtain ⟨hq, huq⟩ := holder (x := w) (r := r) (f := false) (by rw [e]; rfl)
    replace w2 : finishes r (thisTag s.hist) = 0 := w2
    have hf : ∀ r', finishes r' (thisTag s.hist) ≠ 0 → (if r = r' then 1 else 0) + finishes r' (thisTag s.hist) ≠ 0 := by
      intro r' k; omega
    refine ⟨fun _ => ?_, ?_⟩
    · have hd : ∀ x, x ≠ w → (put s.pc w (.done r) x).doing = (s.pc x).doing := fun x k => by rw [put_other _ _ k]
      refine ⟨fun r' k => List.mem_cons_of_mem _ (L.trig r' k), fun x r' f k => ?_, fun r' k k2 => ?_, fun r' k => ?_,
        fun a b hdep k1 k2 => hf a (L.before a b hdep k1 k2), L.never, fun x k => ?_,
        fun k => absurd (by simpa using k) L.stop⟩
      · show starts r' (thisTag s.hist) = 1 ∧ (if r = r' then 1 else 0) + finishes r' (thisTag s.hist) = _
        replace k : (put s.pc w (.done r) x).doing = some (r', f) := k
        by_cases hxw : x = w
        · subst hxw
          rw [put_same] at k
          cases k
          rw [if_pos rfl, w2]; exact ⟨w1, rfl⟩
        · rw [hd x hxw] at k
          have hr' : r ≠ r' := fun er => by subst er; exact hxw (huq k)
          rw [if_neg hr', Nat.zero_add]
          exact L.work x r' f k
      · show starts r' (thisTag s.hist) = 0 ∧ (if r = r' then 1 else 0) + finishes r' (thisTag s.hist) = 0
        have hr' : r ≠ r' := fun er => by
          subst er
          exact k2 w true (by show (put s.pc w (.done r) w).doing = _; rw [put_same]; rfl)
        rw [if_neg hr', Nat.zero_add]
        refine L.fresh r' k fun x f kx => ?_
        by_cases hxw : x = w
        · subst hxw; rw [e] at kx; cases kx; exact hr' rfl
        · exact k2 x f (by show (put s.pc w (.done r) x).doing = _; rw [hd x hxw]; exact kx)
      · replace k : s.queued r' = false := k
        have hr' : r ≠ r' := fun er => by subst er; rw [hq] at k; cases k
        show (Ev.trigger r' ∈ Ev.finish w r :: thisTag s.hist → _ ∧ (if r = r' then 1 else 0) + finishes r' (thisTag s.hist) = 1) ∧
          (Ev.trigger r' ∉ Ev.finish w r :: thisTag s.hist → _ ∧ (if r = r' then 1 else 0) + finishes r' (thisTag s.hist) = 0)
        rw [if_neg hr', Nat.zero_add]
        have := L.rest r' k
        exact ⟨fun kk => this.1 (by simpa using kk), fun kk => this.2 (by simpa using kk)⟩
      · replace k : (put s.pc w (.done r) x).opening = true := k
        by_cases hxw : x = w
        · subst hxw; rw [put_same] at k; cases k
        · rw [put_other _ _ hxw] at k; exact L.opening x k
    · refine G.more (by simp) (fun r' => ?_) (fun r' k => List.mem_cons_of_mem _ (G.asked r' k)) (G.order.more (by simp))
        (fun k => by cases k) L.stop
      show starts r' (thisTag s.hist) ≤ 1 ∧
          (if r = r' then 1 else 0) + finishes r' (thisTag s.hist) ≤ starts r' (thisTag s.hist)
      have := G.once r'
      split
      · rename_i er; subst er; omega
      · omega
  | advance e =>
    have hnone := fun r => P.nothing h (.inl e) r
    refine ⟨fun _ => ⟨fun r k => ?_, fun x r f k => ?_, fun r k => ?_, fun r _ => ?_, fun a b _ k => absurd rfl k,
      fun a b _ k => absurd rfl k, fun x _ r => rfl, fun k => absurd (by simpa using k) L.stop⟩,
      G.close (fun r => L.rest r (hnone r).1) L.stop⟩
    · have := (hnone r).1; rw [show s.queued r = true from k] at this; cases this
    · exfalso
      replace k : (put s.pc w .events x).doing = some (r, f) := k
      by_cases hxw : x = w
      · subst hxw; rw [put_same] at k; cases k
      · rw [put_other _ _ hxw] at k
        exact (hnone r).2 x f k
    · have := (hnone r).1; rw [show s.queued r = true from k] at this; cases this
    · exact ⟨fun k => (by cases k), fun _ => ⟨rfl, rfl⟩⟩
  | retry e => exact still e rfl rfl rfl rfl (fun k => by cases k)
  | stop e =>
    have hnone := fun r => P.nothing h (.inl e) r
    exact ⟨fun k => (by cases k), G.more (by simp) G.once (fun r' k => List.mem_cons_of_mem _ (G.asked r' k))
      (G.order.more (by simp)) (fun _ r => L.rest r (hnone r).1) L.stop⟩
  | pause e => exact still e rfl rfl rfl rfl (fun k => by cases k)
  | spurious e => exact ⟨fun _ => L.wakeUp e, G⟩

/-- After the decision to stop nothing is recorded any more. -/
theorem Crew.stop_step (h : Crew C s) (hs : s.stop = true) (hstep : Step C s w s') : s'.stop = true ∧ s'.hist = s.hist := by
  have dead : ∀ {p : Pc}, s.pc w = p → p ≠ .woken → p ≠ .loop → p ≠ .exited → False := by
    intro p e h1 h2 h3
    have := h.running (w := w) (by rw [e]; exact h1) (by rw [e]; exact h2) (by rw [e]; exact h3)
    rw [hs] at this; cases this
  cases hstep with
  | leave e => exact ⟨hs, rfl⟩
  | woken e => exact ⟨hs, rfl⟩
  | tag e k => rw [hs] at k; cases k
  | sleep e k => rw [hs] at k; cases k
  | level r e k => rw [hs] at k; cases k
  | take r e k => rw [hs] at k; cases k
  | takeSignal r x e k => rw [hs] at k; cases k
  | bootEnd e => exact (dead e (by simp) (by simp) (by simp)).elim
  | enter e => exact (dead e (by simp) (by simp) (by simp)).elim
  | done r e => exact (dead e (by simp) (by simp) (by simp)).elim
  | lockSolo r e => exact (dead e (by simp) (by simp) (by simp)).elim
  | lockRun r0 r e => exact (dead e (by simp) (by simp) (by simp)).elim
  | lockBoot r e => exact (dead e (by simp) (by simp) (by simp)).elim
  | insertSolo r e => exact (dead e (by simp) (by simp) (by simp)).elim
  | insertRun r0 r e => exact (dead e (by simp) (by simp) (by simp)).elim
  | insertBoot r e => exact (dead e (by simp) (by simp) (by simp)).elim
  | resume e => exact (dead e (by simp) (by simp) (by simp)).elim
  | events e => exact (dead e (by simp) (by simp) (by simp)).elim
  | triggerAgain who r e => cases who <;> exact (dead (show s.pc w = _ from e) (by simp [Who.pc]) (by simp [Who.pc]) (by simp [Who.pc])).elim
  | triggerNew who r e => cases who <;> exact (dead (show s.pc w = _ from e) (by simp [Who.pc]) (by simp [Who.pc]) (by simp [Who.pc])).elim
  | finish r e => exact (dead e (by simp) (by simp) (by simp)).elim
  | advance e => exact (dead e (by simp) (by simp) (by simp)).elim
  | retry e => exact (dead e (by simp) (by simp) (by simp)).elim
  | stop e => exact (dead e (by simp) (by simp) (by simp)).elim
  | pause e => exact (dead e (by simp) (by simp) (by simp)).elim
  | spurious e => exact (dead e (by simp) (by simp) (by simp)).elim

theorem Reach.ledger (hC : C.Ok) (h : Reach C s) : (s.stop = false → Ledger C s) ∧ Good C.dep s.hist := by
  induction h with
  | init =>
    refine ⟨fun _ => ⟨fun r k => (by cases k), fun x r f k => ?_, fun r k => (by cases k),
      fun r _ => ⟨fun k => (by cases k), fun _ => ⟨rfl, rfl⟩⟩, fun a b _ k => absurd rfl k, fun a b _ k => absurd rfl k,
      fun x _ r => rfl, fun k => (by cases k)⟩, Good.init _⟩
    exfalso
    replace k : (if x < C.n then Pc.enter else if x = C.n then .boot else .exited).doing = some (r, f) := k
    split at k
    · cases k
    · split at k <;> cases k
  | step a hr ha he ih =>
    rename_i s s'
    obtain ⟨h1, h2⟩ := hr.inv hC
    have hstep := exec_step h1 h2 ha he
    cases hs : s.stop with
    | false => exact Ledger.step hC h1 h2 (ih.1 hs) ih.2 hs hstep
    | true =>
      obtain ⟨k1, k2⟩ := h1.stop_step hs hstep
      exact ⟨(fun k => by rw [k1] at k; cases k), (by rw [k2]; exact ih.2)⟩

end

end ReactorC.Gedf
