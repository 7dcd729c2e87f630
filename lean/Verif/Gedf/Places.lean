import Verif.Gedf.CrewStep

/-!
# Every queued reaction is in exactly one place
-/

set_option linter.unusedVariables false

namespace ReactorC.Gedf

open Np (Ev put put_same put_other put_cases)

/-- The thread executes the reaction. -/
def Pc.Exec (p : Pc) (r : Nat) : Prop := p = .run r ∨ ∃ r', p = .lock (.running r) r' ∨ p = .insert (.running r) r'

/-- The thread is about to queue a reaction that the reaction `r` has triggered. -/
def Pc.Adds (p : Pc) (r r' : Nat) : Prop := p = .lock (.running r) r' ∨ p = .insert (.running r) r'

theorem Pc.Exec.awake {p : Pc} {r : Nat} (h : p.Exec r) :
    p ≠ .exited ∧ p ≠ .enter ∧ p ≠ .loop ∧ p.booting = false ∧ p.sleeping = false ∧ p.charge = false := by
  rcases h with h | ⟨r', h | h⟩ <;> subst h <;> simp [Pc.booting, Pc.sleeping, Pc.charge]

section
variable {C : Config} {s s' : State} {w : Nat}

/-- Steps that leave the queue and the status of the reactions alone. -/
theorem Places.still (P : Places C s) {p : Pc} (e1 : s'.pc = put s.pc w p) (e2 : s'.queue = s.queue)
    (e3 : s'.queued = s.queued) (hh : ∀ r, p.Holds r ↔ (s.pc w).Holds r) (ha : ∀ r r', p.Adds r r' → C.dep r r')
    (hl : ∀ r, p.Exec r → C.level r = s'.level) (hlev : s'.level = s.level ∨ ∀ x, x ≠ w → ∀ r, ¬ (s.pc x).Exec r)
    (hq : p = .tag ∨ p = .pause → s.queue = []) (hs : s'.stop = true → s.queue = []) : Places C s' := by
  have same : s'.pc w = p := by rw [e1, put_same]
  have other : ∀ {x}, x ≠ w → s'.pc x = s.pc x := fun hx => by rw [e1, put_other _ _ hx]
  have hold : ∀ x r, (s'.pc x).Holds r ↔ (s.pc x).Holds r := by
    intro x r
    by_cases hx : x = w
    · subst hx; rw [same]; exact hh r
    · rw [other hx]
  refine ⟨by rw [e2]; exact P.nodup, fun r => ?_, fun r x k => ?_, fun r x y k k' => ?_, by rw [e3]; exact P.mem,
    fun x r r' k => ?_, fun x r k => ?_, fun x k => ?_, by rw [e2]; exact hs⟩
  · rw [e2, e3, P.q r]
    constructor
    · rintro (k | ⟨x, k⟩)
      · exact .inl k
      · exact .inr ⟨x, (hold x r).2 k⟩
    · rintro (k | ⟨x, k⟩)
      · exact .inl k
      · exact .inr ⟨x, (hold x r).1 k⟩
  · rw [e2] at k; rw [hold]; exact P.excl r x k
  · exact P.uniq r x y ((hold x r).1 k) ((hold y r).1 k')
  · by_cases hx : x = w
    · subst hx; rw [same] at k; exact ha r r' k
    · rw [other hx] at k; exact P.dep x r r' k
  · by_cases hx : x = w
    · subst hx; rw [same] at k; exact hl r k
    · rw [other hx] at k
      rcases hlev with e | e
      · rw [e]; exact P.lev x r k
      · exact absurd k (e x hx r)
  · rw [e2]
    by_cases hx : x = w
    · subst hx; rw [same] at k; exact hq k
    · rw [other hx] at k; exact P.quiet x k

theorem Places.wakeUp (P : Places C s) {x : Nat} (e : s.pc x = .wait) : Places C { s with pc := put s.pc x .woken } := by
  refine P.still (w := x) (p := .woken) rfl rfl rfl (fun r => by rw [e]; exact Iff.rfl) (fun r r' k => ?_) (fun r k => ?_)
    (.inl rfl) (fun k => ?_) P.stopped
  · rcases k with k | k <;> cases k
  · rcases k with k | ⟨_, k | k⟩ <;> cases k
  · rcases k with k | k <;> cases k

/-- A reaction gets into the queue. -/
theorem Places.add (P : Places C s) {p : Pc} {r : Nat} (e1 : s'.pc = put s.pc w p) (e2 : s'.queue = r :: s.queue)
    (e3 : s'.queued = s.queued) (h1 : (s.pc w).Holds r) (h2 : ¬ p.Holds r)
    (hh : ∀ r', r' ≠ r → (p.Holds r' ↔ (s.pc w).Holds r')) (ha : ∀ r r', ¬ p.Adds r r')
    (hl : ∀ r, p.Exec r → C.level r = s.level) (hlev : s'.level = s.level)
    (hq : ∀ x, x ≠ w → s.pc x ≠ .tag ∧ s.pc x ≠ .pause) (hp : p ≠ .tag ∧ p ≠ .pause) (hs : s'.stop = false) :
    Places C s' := by
  have same : s'.pc w = p := by rw [e1, put_same]
  have other : ∀ {x}, x ≠ w → s'.pc x = s.pc x := fun hx => by rw [e1, put_other _ _ hx]
  have hold : ∀ x r', (s'.pc x).Holds r' → (s.pc x).Holds r' ∧ r' ≠ r := by
    intro x r' k
    by_cases hx : x = w
    · subst hx
      rw [same] at k
      have hne : r' ≠ r := fun e => by subst e; exact h2 k
      exact ⟨(hh r' hne).1 k, hne⟩
    · rw [other hx] at k
      exact ⟨k, fun e => by subst e; exact hx (P.uniq r' x w k h1)⟩
  refine ⟨?_, fun r' => ?_, fun r' x k k' => ?_, fun r' x y k k' => ?_, by rw [e3]; exact P.mem, fun x r' r'' k => ?_,
    fun x r' k => ?_, fun x k => ?_, fun k => ?_⟩
  · rw [e2]; exact List.nodup_cons.2 ⟨fun k => P.excl r w k h1, P.nodup⟩
  · rw [e2, e3, P.q r', List.mem_cons]
    constructor
    · rintro (k | ⟨x, k⟩)
      · exact .inl (.inr k)
      · by_cases hr : r' = r
        · exact .inl (.inl hr)
        · refine .inr ⟨x, ?_⟩
          by_cases hx : x = w
          · subst hx; rw [same]; exact (hh r' hr).2 k
          · rw [other hx]; exact k
    · rintro ((k | k) | ⟨x, k⟩)
      · exact .inr ⟨w, by rw [k]; exact h1⟩
      · exact .inl k
      · exact .inr ⟨x, (hold x r' k).1⟩
  · rw [e2] at k
    rcases List.mem_cons.1 k with k | k
    · exact (hold x r' k').2 k
    · exact P.excl r' x k (hold x r' k').1
  · exact P.uniq r' x y (hold x r' k).1 (hold y r' k').1
  · by_cases hx : x = w
    · subst hx; rw [same] at k; exact absurd k (ha _ _)
    · rw [other hx] at k; exact P.dep x r' r'' k
  · rw [hlev]
    by_cases hx : x = w
    · subst hx; rw [same] at k; exact hl r' k
    · rw [other hx] at k; exact P.lev x r' k
  · by_cases hx : x = w
    · subst hx; rw [same] at k; exact absurd k (fun k => k.elim hp.1 hp.2)
    · rw [other hx] at k; exact absurd k (fun k => k.elim (hq x hx).1 (hq x hx).2)
  · rw [hs] at k; cases k

theorem Places.takes (P : Places C s) {r : Nat} {h' : List Ev} (e : s.pc w = .loop) (hr : r ∈ s.queue)
    (hl : C.level r = s.level) (hs : s.stop = false) :
    Places C { s with
      queue := s.queue.erase r, owner := none, depth := 0, pc := put s.pc w (.run r), hist := h' } := by
  have mem : ∀ r', r' ∈ s.queue.erase r ↔ r' ≠ r ∧ r' ∈ s.queue := fun r' => P.nodup.mem_erase_iff
  have hold : ∀ x r', (put s.pc w (.run r) x).Holds r' ↔ (x = w ∧ r' = r) ∨ (s.pc x).Holds r' := by
    intro x r'
    by_cases hx : x = w
    · subst hx; rw [put_same, e]
      show r' = r ↔ _ ∨ False
      simp
    · rw [put_other _ _ hx]; simp [hx]
  refine ⟨P.nodup.erase r, fun r' => ?_, fun r' x k k' => ?_, fun r' x y k k' => ?_, P.mem, fun x r' r'' k => ?_,
    fun x r' k => ?_, fun x k => ?_, fun k => ?_⟩
  · rw [P.q r']
    show _ ↔ r' ∈ s.queue.erase r ∨ ∃ x, (put s.pc w (.run r) x).Holds r'
    rw [mem]
    constructor
    · rintro (k | ⟨x, k⟩)
      · by_cases hr' : r' = r
        · exact .inr ⟨w, (hold w r').2 (.inl ⟨rfl, hr'⟩)⟩
        · exact .inl ⟨hr', k⟩
      · exact .inr ⟨x, (hold x r').2 (.inr k)⟩
    · rintro (k | ⟨x, k⟩)
      · exact .inl k.2
      · rcases (hold x r').1 k with ⟨_, k⟩ | k
        · exact .inl (by rw [k]; exact hr)
        · exact .inr ⟨x, k⟩
  · replace k := (mem r').1 k
    rcases (hold x r').1 k' with ⟨_, k'⟩ | k'
    · exact k.1 k'
    · exact P.excl r' x k.2 k'
  · rcases (hold x r').1 k with ⟨k1, k2⟩ | k1 <;> rcases (hold y r').1 k' with ⟨k3, k4⟩ | k3
    · rw [k1, k3]
    · subst k2; exact absurd k3 (P.excl r' y hr)
    · subst k4; exact absurd k1 (P.excl r' x hr)
    · exact P.uniq r' x y k1 k3
  · by_cases hx : x = w
    · subst hx
      replace k : put s.pc x (.run r) x = _ ∨ put s.pc x (.run r) x = _ := k
      rw [put_same] at k
      rcases k with k | k <;> cases k
    · refine P.dep x r' r'' ?_
      replace k : put s.pc w (.run r) x = _ ∨ put s.pc w (.run r) x = _ := k
      rw [put_other _ _ hx] at k; exact k
  · replace k : (put s.pc w (.run r) x).Exec r' := k
    by_cases hx : x = w
    · subst hx
      rw [put_same] at k
      rcases k with k | ⟨_, k | k⟩ <;> cases k
      exact hl
    · rw [put_other _ _ hx] at k; exact P.lev x r' k
  · replace k : put s.pc w (.run r) x = _ ∨ put s.pc w (.run r) x = _ := k
    by_cases hx : x = w
    · subst hx; rw [put_same] at k; rcases k with k | k <;> cases k
    · rw [put_other _ _ hx] at k
      have := P.quiet x k
      rw [this] at hr; cases hr
  · rw [show s.stop = true from k] at hs; cases hs

/-- Nobody else executes a reaction when all others are idle, or when a thread advances the tag. -/
theorem Crew.no_exec (h : Crew C s) (hw : w < C.n)
    (hall : ∀ x, x < C.n → x ≠ w → (s.pc x).sleeping = true ∨ s.pc x = .loop) {x : Nat} (hx : x ≠ w) (r : Nat) :
    ¬ (s.pc x).Exec r := by
  intro k
  obtain ⟨k1, k2, k3, k4, k5, k6⟩ := k.awake
  have hxn : x < C.n := by
    rcases h.is_worker k1 k4 with k | k <;> exact k.1
  rcases hall x hxn hx with k | k
  · rw [k5] at k; cases k
  · exact k3 k

theorem Places.step (hC : C.Ok) (h : Crew C s) (P : Places C s) (hstep : Step C s w s') : Places C s' := by
  have worker : ∀ {p : Pc}, s.pc w = p → p ≠ .enter → p ≠ .exited → p.booting = false → w < C.n ∧ s.pc C.n = .exited := by
    intro p e h1 h2 h3
    rcases h.is_worker (w := w) (by rw [e]; exact h2) (by rw [e]; exact h3) with k | k
    · exact k
    · rw [e] at k; exact absurd k.2 h1
  have run : ∀ {p : Pc}, s.pc w = p → p ≠ .woken → p ≠ .loop → p ≠ .exited → s.stop = false :=
    fun e h1 h2 h3 => h.running (w := w) (by rw [e]; exact h1) (by rw [e]; exact h2) (by rw [e]; exact h3)
  have plain : ∀ {s' : State} {p q : Pc}, s.pc w = q → s'.pc = put s.pc w p → s'.queue = s.queue →
      s'.queued = s.queued → (∀ r, ¬ q.Holds r) → (∀ r, ¬ p.Holds r) →
      (s'.level = s.level ∨ ∀ x, x ≠ w → ∀ r, ¬ (s.pc x).Exec r) →
      (p = .tag ∨ p = .pause → s.queue = []) → (s'.stop = true → s.queue = []) → Places C s' := by
    intro s' p q e e1 e2 e3 h1 h2 hl hq hs
    refine P.still e1 e2 e3 (fun r => by rw [e]; exact ⟨fun k => absurd k (h2 r), fun k => absurd k (h1 r)⟩)
      (fun r r' k => ?_) (fun r k => ?_) hl hq hs
    · rcases k with k | k <;> subst k <;> exact absurd (.inl rfl) (h2 r')
    · rcases k with k | ⟨r', k | k⟩ <;> subst k
      · exact absurd rfl (h2 r)
      · exact absurd (.inr rfl) (h2 r)
      · exact absurd (.inr rfl) (h2 r)
  have nt : ∀ {p : Pc}, p ≠ .tag → p ≠ .pause → (p = .tag ∨ p = .pause → s.queue = []) :=
    fun h1 h2 k => k.elim (fun k => absurd k h1) (fun k => absurd k h2)
  have noquiet : ∀ {p : Pc}, s.pc w = p → p.sleeping = false → p ≠ .loop → p ≠ .tag → p ≠ .pause → p ≠ .exited →
      p ≠ .enter → p.booting = false → ∀ x, x ≠ w → s.pc x ≠ .tag ∧ s.pc x ≠ .pause := by
    intro p e h1 h2 h3 h4 h5 h6 h7 x hx
    obtain ⟨hw, hm⟩ := worker e h6 h5 h7
    have : ∀ q : Pc, q.charge = true → s.pc x ≠ q := by
      intro q hq k
      have := h.alone x w (by rw [k]; exact hq) hw (fun e => hx e.symm)
      rw [e] at this
      rcases this with k | k
      · rw [h1] at k; cases k
      · exact h2 k
    exact ⟨this _ rfl, this _ rfl⟩
  have noquietB : (s.pc w).booting = true → ∀ x, s.pc x ≠ .tag ∧ s.pc x ≠ .pause := by
    intro hb x
    have hw := h.is_main hb
    subst hw
    rcases Nat.lt_trichotomy x C.n with k | k | k
    · rw [(h.early hb).2 x k]; simp
    · subst k
      constructor <;> intro k <;> rw [k] at hb <;> cases hb
    · rw [h.beyond x k]; simp
  cases hstep with
  | bootEnd e => exact plain e rfl rfl rfl (fun r k => k) (fun r k => k) (.inl rfl) (nt (by simp) (by simp)) P.stopped
  | enter e ho => exact plain e rfl rfl rfl (fun r k => k) (fun r k => k) (.inl rfl) (nt (by simp) (by simp)) P.stopped
  | leave e hs => exact plain e rfl rfl rfl (fun r k => k) (fun r k => k) (.inl rfl) (nt (by simp) (by simp)) P.stopped
  | tag e hs hq hi => exact plain e rfl rfl rfl (fun r k => k) (fun r k => k) (.inl rfl) (fun _ => hq) P.stopped
  | sleep e hs hi => exact plain e rfl rfl rfl (fun r k => k) (fun r k => k) (.inl rfl) (nt (by simp) (by simp)) P.stopped
  | level r e hs hf hl hi =>
    obtain ⟨hw, hm⟩ := worker e (by simp) (by simp) rfl
    refine ⟨P.nodup, P.q, P.excl, P.uniq, P.mem, P.dep, fun x r' k => ?_, P.quiet, P.stopped⟩
    exfalso
    by_cases hx : x = w
    · subst hx
      replace k : (s.pc x).Exec r' := k
      rw [e] at k; exact k.awake.2.2.1 rfl
    · exact h.no_exec hw (fun y hy hyw => .inl ((h.all_idle hw (by rw [e]; rfl)).1 hi y hy hyw)) hx r' k
  | woken e ho => exact plain e rfl rfl rfl (fun r k => k) (fun r k => k) (.inl rfl) (nt (by simp) (by simp)) P.stopped
  | done r e hq =>
    have hs := run e (by simp) (by simp) (by simp)
    have h1 : (s.pc w).Holds r := by rw [e]; exact rfl
    have hold : ∀ x r', (put s.pc w .enter x).Holds r' ↔ (s.pc x).Holds r' ∧ r' ≠ r := by
      intro x r'
      by_cases hx : x = w
      · subst hx; rw [put_same, e]
        show False ↔ r' = r ∧ r' ≠ r
        simp
      · rw [put_other _ _ hx]
        refine ⟨fun k => ⟨k, fun er => ?_⟩, fun k => k.1⟩
        subst er; exact hx (P.uniq _ _ _ k h1)
    refine ⟨P.nodup, fun r' => ?_, fun r' x k k' => P.excl r' x k ((hold x r').1 k').1,
      fun r' x y k k' => P.uniq r' x y ((hold x r').1 k).1 ((hold y r').1 k').1, fun r' k => ?_, fun x r' r'' k => ?_,
      fun x r' k => ?_, fun x k => ?_, P.stopped⟩
    · show put s.queued r false r' = true ↔ r' ∈ s.queue ∨ ∃ x, (put s.pc w .enter x).Holds r'
      by_cases hr : r' = r
      · subst hr
        rw [put_same]
        constructor
        · intro k; cases k
        · rintro (k | ⟨x, k⟩)
          · exact absurd h1 (P.excl _ _ k)
          · exact absurd rfl ((hold x r').1 k).2
      · rw [put_other _ _ hr, P.q r']
        constructor
        · rintro (k | ⟨x, k⟩)
          · exact .inl k
          · exact .inr ⟨x, (hold x r').2 ⟨k, hr⟩⟩
        · rintro (k | ⟨x, k⟩)
          · exact .inl k
          · exact .inr ⟨x, ((hold x r').1 k).1⟩
    · rcases put_cases (show put s.queued r false r' = true from k) with ⟨_, k⟩ | ⟨_, k⟩
      · cases k
      · exact P.mem r' k
    · replace k : (put s.pc w .enter x).Adds r' r'' := k
      by_cases hx : x = w
      · subst hx; rw [put_same] at k; rcases k with k | k <;> cases k
      · rw [put_other _ _ hx] at k; exact P.dep x r' r'' k
    · replace k : (put s.pc w .enter x).Exec r' := k
      by_cases hx : x = w
      · subst hx; rw [put_same] at k; exact absurd rfl k.awake.2.1
      · rw [put_other _ _ hx] at k; exact P.lev x r' k
    · replace k : put s.pc w .enter x = .tag ∨ put s.pc w .enter x = .pause := k
      by_cases hx : x = w
      · subst hx; rw [put_same] at k; rcases k with k | k <;> cases k
      · rw [put_other _ _ hx] at k; exact P.quiet x k
  | lockSolo r e =>
    exact P.still (p := .insert .events r) rfl rfl rfl (fun r' => by rw [e]; exact Iff.rfl)
      (fun a b k => by rcases k with k | k <;> cases k) (fun a k => by rcases k with k | ⟨_, k | k⟩ <;> cases k) (.inl rfl)
      (nt (by simp) (by simp)) P.stopped
  | lockRun r0 r e ho =>
    refine P.still (p := .insert (.running r0) r) rfl rfl rfl (fun r' => by rw [e]; exact Iff.rfl)
      (fun a b k => ?_) (fun a k => ?_) (.inl rfl) (nt (by simp) (by simp)) P.stopped
    · rcases k with k | k <;> cases k
      exact P.dep w r0 r (.inl e)
    · rcases k with k | ⟨_, k | k⟩ <;> cases k
      exact P.lev w r0 (.inr ⟨_, .inl e⟩)
  | lockBoot r e =>
    exact P.still (p := .insert .boot r) rfl rfl rfl (fun r' => by rw [e]; exact Iff.rfl)
      (fun a b k => by rcases k with k | k <;> cases k) (fun a k => by rcases k with k | ⟨_, k | k⟩ <;> cases k) (.inl rfl)
      (nt (by simp) (by simp)) P.stopped
  | insertSolo r e =>
    refine P.add (p := .events) (r := r) rfl rfl rfl (by rw [e]; exact .inl rfl) (fun k => k) (fun r' hr => ?_)
      (fun a b k => by rcases k with k | k <;> cases k) (fun a k => by rcases k with k | ⟨_, k | k⟩ <;> cases k) rfl
      (noquiet e rfl (by simp) (by simp) (by simp) (by simp) (by simp) rfl) (by simp) (run e (by simp) (by simp) (by simp))
    rw [e]
    show False ↔ r' = r ∨ Who.events = .running r'
    simp [hr]
  | insertRun r0 r e =>
    have hd := P.dep w r0 r (.inr e)
    have hlt := hC.level _ _ hd
    refine P.add (p := .run r0) (r := r) rfl rfl rfl (by rw [e]; exact .inl rfl) (fun k => ?_) (fun r' hr => ?_)
      (fun a b k => by rcases k with k | k <;> cases k) (fun a k => ?_) rfl
      (noquiet e rfl (by simp) (by simp) (by simp) (by simp) (by simp) rfl) (by simp) (run e (by simp) (by simp) (by simp))
    · replace k : r = r0 := k
      subst k; omega
    · rw [e]
      show r' = r0 ↔ r' = r ∨ Who.running r0 = .running r'
      simp [hr, eq_comm]
    · rcases k with k | ⟨_, k | k⟩ <;> cases k
      exact P.lev w r0 (.inr ⟨_, .inr e⟩)
  | insertBoot r e =>
    refine P.add (p := .boot) (r := r) rfl rfl rfl (by rw [e]; exact .inl rfl) (fun k => k) (fun r' hr => ?_)
      (fun a b k => by rcases k with k | k <;> cases k) (fun a k => by rcases k with k | ⟨_, k | k⟩ <;> cases k) rfl
      (fun x _ => noquietB (by rw [e]; rfl) x) (by simp) (run e (by simp) (by simp) (by simp))
    rw [e]
    show False ↔ r' = r ∨ Who.boot = .running r'
    simp [hr]
  | resume e ho =>
    exact plain e rfl rfl rfl (fun r k => k) (fun r k => k) (.inl rfl) (fun _ => P.quiet w (.inr e)) P.stopped
  | events e =>
    obtain ⟨hw, hm⟩ := worker e (by simp) (by simp) rfl
    exact plain e rfl rfl rfl (fun r k => k) (fun r k => k)
      (.inr fun x hx r => h.no_exec hw (fun y hy hyw => h.alone w y (by rw [e]; rfl) hy hyw) hx r)
      (nt (by simp) (by simp)) P.stopped
  | take r e hs hr hmin hl => exact P.takes e hr hl hs
  | takeSignal r x e hs hr hmin hl hx hxw =>
    have hne : w ≠ x := fun k => by subst k; rw [e] at hxw; cases hxw
    exact (P.wakeUp hxw).takes (by show put s.pc x .woken w = _; rw [put_other _ _ hne]; exact e) hr hl hs
  | triggerAgain who r e hr hl hq => exact ⟨P.nodup, P.q, P.excl, P.uniq, P.mem, P.dep, P.lev, P.quiet, P.stopped⟩
  | triggerNew who r e hr hl hq =>
    have hs : s.stop = false := by
      cases who <;> exact run (show s.pc w = _ from e) (by simp [Who.pc]) (by simp [Who.pc]) (by simp [Who.pc])
    have hnq : r ∉ s.queue := fun k => by rw [(P.q r).2 (.inl k)] at hq; cases hq
    have hnh : ∀ x, ¬ (s.pc x).Holds r := fun x k => by rw [(P.q r).2 (.inr ⟨x, k⟩)] at hq; cases hq
    have hold : ∀ x r', (put s.pc w (.lock who r) x).Holds r' ↔ (s.pc x).Holds r' ∨ (x = w ∧ r' = r) := by
      intro x r'
      by_cases hx : x = w
      · subst hx; rw [put_same, e]
        show r' = r ∨ who = .running r' ↔ _
        cases who <;> simp [Who.pc, Pc.Holds]
        rw [or_comm, eq_comm (a := r')]
        first | rfl | simp [eq_comm]
      · rw [put_other _ _ hx]; simp [hx]
    refine ⟨P.nodup, fun r' => ?_, fun r' x k k' => ?_, fun r' x y k k' => ?_, fun r' k => ?_, fun x r' r'' k => ?_,
      fun x r' k => ?_, fun x k => ?_, P.stopped⟩
    · show put s.queued r true r' = true ↔ r' ∈ s.queue ∨ ∃ x, (put s.pc w (.lock who r) x).Holds r'
      by_cases hr : r' = r
      · subst hr
        rw [put_same]
        exact ⟨fun _ => .inr ⟨w, (hold w r').2 (.inr ⟨rfl, rfl⟩)⟩, fun _ => rfl⟩
      · rw [put_other _ _ hr, P.q r']
        constructor
        · rintro (k | ⟨x, k⟩)
          · exact .inl k
          · exact .inr ⟨x, (hold x r').2 (.inl k)⟩
        · rintro (k | ⟨x, k⟩)
          · exact .inl k
          · rcases (hold x r').1 k with k | ⟨_, k⟩
            · exact .inr ⟨x, k⟩
            · exact absurd k hr
    · rcases (hold x r').1 k' with k' | ⟨_, k'⟩
      · exact P.excl r' x k k'
      · subst k'; exact hnq k
    · rcases (hold x r').1 k with k0 | ⟨k1, k2⟩ <;> rcases (hold y r').1 k' with k0' | ⟨k3, k4⟩
      · exact P.uniq r' x y k0 k0'
      · subst k4; exact absurd k0 (hnh x)
      · subst k2; exact absurd k0' (hnh y)
      · rw [k1, k3]
    · rcases put_cases (show put s.queued r true r' = true from k) with ⟨er, _⟩ | ⟨_, k⟩
      · rw [er]; exact hr
      · exact P.mem r' k
    · replace k : (put s.pc w (.lock who r) x).Adds r' r'' := k
      by_cases hx : x = w
      · subst hx; rw [put_same] at k
        rcases k with k | k <;> cases k
        exact hl r' rfl
      · rw [put_other _ _ hx] at k; exact P.dep x r' r'' k
    · replace k : (put s.pc w (.lock who r) x).Exec r' := k
      by_cases hx : x = w
      · subst hx; rw [put_same] at k
        rcases k with k | ⟨_, k | k⟩ <;> cases k
        exact P.lev x r' (.inl e)
      · rw [put_other _ _ hx] at k; exact P.lev x r' k
    · replace k : put s.pc w (.lock who r) x = .tag ∨ put s.pc w (.lock who r) x = .pause := k
      by_cases hx : x = w
      · subst hx; rw [put_same] at k; rcases k with k | k <;> cases k
      · rw [put_other _ _ hx] at k; exact P.quiet x k
  | finish r e =>
    exact P.still (p := .done r) rfl rfl rfl (fun r' => by rw [e]; exact Iff.rfl)
      (fun a b k => by rcases k with k | k <;> cases k) (fun a k => by rcases k with k | ⟨_, k | k⟩ <;> cases k) (.inl rfl)
      (nt (by simp) (by simp)) P.stopped
  | advance e => exact plain e rfl rfl rfl (fun r k => k) (fun r k => k) (.inl rfl) (nt (by simp) (by simp)) P.stopped
  | retry e =>
    obtain ⟨hw, hm⟩ := worker e (by simp) (by simp) rfl
    exact plain e rfl rfl rfl (fun r k => k) (fun r k => k)
      (.inr fun x hx r => h.no_exec hw (fun y hy hyw => h.alone w y (by rw [e]; rfl) hy hyw) hx r)
      (nt (by simp) (by simp)) P.stopped
  | stop e =>
    have hq := P.quiet w (.inl e)
    have hold : ∀ x r, (put (wakeAll s.pc) w .exited x).Holds r ↔ (s.pc x).Holds r := by
      intro x r
      by_cases hx : x = w
      · subst hx; rw [put_same, e]; exact Iff.rfl
      · rw [put_other _ _ hx]
        unfold wakeAll
        split
        · rename_i k; rw [k]; exact Iff.rfl
        · exact Iff.rfl
    have orig : ∀ {x p}, put (wakeAll s.pc) w .exited x = p → p ≠ .exited → p ≠ .woken → s.pc x = p := by
      intro x p k h1 h2
      rcases put_cases k with ⟨_, k⟩ | ⟨_, k⟩
      · exact absurd k.symm h1
      · unfold wakeAll at k
        split at k
        · exact absurd k.symm h2
        · exact k
    refine ⟨P.nodup, fun r => ?_, fun r x k k' => P.excl r x k ((hold x r).1 k'),
      fun r x y k k' => P.uniq r x y ((hold x r).1 k) ((hold y r).1 k'), P.mem, fun x a b k => P.dep x a b ?_,
      fun x a k => P.lev x a ?_, fun x k => P.quiet x ?_, fun _ => hq⟩
    · rw [P.q r]
      constructor
      · rintro (k | ⟨x, k⟩)
        · exact .inl k
        · exact .inr ⟨x, (hold x r).2 k⟩
      · rintro (k | ⟨x, k⟩)
        · exact .inl k
        · exact .inr ⟨x, (hold x r).1 k⟩
    · rcases k with k | k
      · exact .inl (orig k (by simp) (by simp))
      · exact .inr (orig k (by simp) (by simp))
    · rcases k with k | ⟨r', k | k⟩
      · exact .inl (orig k (by simp) (by simp))
      · exact .inr ⟨r', .inl (orig k (by simp) (by simp))⟩
      · exact .inr ⟨r', .inr (orig k (by simp) (by simp))⟩
    · rcases k with k | k
      · exact .inl (orig k (by simp) (by simp))
      · exact .inr (orig k (by simp) (by simp))
  | pause e => exact plain e rfl rfl rfl (fun r k => k) (fun r k => k) (.inl rfl) (fun _ => P.quiet w (.inl e)) P.stopped
  | spurious e => exact P.wakeUp e

theorem Crew.init (hC : C.Ok) : Crew C (init C) := by
  have hn : (Gedf.init C).pc C.n = .boot := by
    show (if C.n < C.n then Pc.enter else if C.n = C.n then .boot else .exited) = _
    rw [if_neg (by omega), if_pos rfl]
  have hw : ∀ w, w < C.n → (Gedf.init C).pc w = .enter := fun w hw => if_pos hw
  have hb : ∀ w, C.n < w → (Gedf.init C).pc w = .exited := fun w hw => by
    show (if w < C.n then Pc.enter else if w = C.n then .boot else .exited) = _
    rw [if_neg (by omega), if_neg (by omega)]
  have nocharge : ∀ w, ((Gedf.init C).pc w).charge = false := by
    intro w
    rcases Nat.lt_trichotomy w C.n with k | k | k
    · rw [hw w k]; rfl
    · rw [k, hn]; rfl
    · rw [hb w k]; rfl
  refine ⟨fun w => ?_, ?_, ?_, .inl (by rw [hn]; rfl), hb, (fun w k => by rw [hw w k]; rfl), (fun _ => ⟨rfl, hw⟩),
    (fun _ w k => by rw [hw w k]; simp), fun _ => ⟨0, hC.workers, by rw [hw 0 hC.workers]; rfl⟩,
    (fun w x k => by rw [nocharge w] at k; cases k), ?_, (fun k => (by cases k)), Nat.zero_le _⟩
  · show some C.n = some w ↔ _
    rcases Nat.lt_trichotomy w C.n with k | k | k
    · rw [hw w k]; simp [Pc.inside]; omega
    · rw [k, hn]; simp [Pc.inside]
    · rw [hb w k]; simp [Pc.inside]; omega
  · show 1 = ((Gedf.init C).pc C.n).locks
    rw [hn]; rfl
  · rw [Np.total_const (c := 0) (fun w k => by rw [hw w k]; rfl)]
    show ((0 : Nat) : Int) = _
    omega
  · constructor
    · intro k; cases k
    · rintro ⟨w, k⟩; rw [nocharge w] at k; cases k

theorem Places.init : Places C (init C) := by
  have hold : ∀ w r, ¬ ((Gedf.init C).pc w).Holds r := by
    intro w r
    show ¬ Pc.Holds (if w < C.n then Pc.enter else if w = C.n then .boot else .exited) r
    split
    · exact fun k => k
    · split <;> exact fun k => k
  have pc : ∀ w p, (Gedf.init C).pc w = p → p = .enter ∨ p = .boot ∨ p = .exited := by
    intro w p k
    replace k : (if w < C.n then Pc.enter else if w = C.n then .boot else .exited) = p := k
    split at k
    · exact .inl k.symm
    · split at k
      · exact .inr (.inl k.symm)
      · exact .inr (.inr k.symm)
  refine ⟨List.nodup_nil, fun r => ⟨fun k => (by cases k), fun k => ?_⟩, fun r w k => (by cases k),
    fun r w w' k => absurd k (hold w r), fun r k => (by cases k), fun w r r' k => ?_, fun w r k => ?_, fun _ _ => rfl,
    fun _ => rfl⟩
  · rcases k with k | ⟨w, k⟩
    · cases k
    · exact absurd k (hold w r)
  · rcases k with k | k <;> rcases pc w _ k with k | k | k <;> cases k
  · rcases k with k | ⟨r', k | k⟩ <;> rcases pc w _ k with k | k | k <;> cases k

theorem Reach.inv (hC : C.Ok) (h : Reach C s) : Crew C s ∧ Places C s := by
  induction h with
  | init => exact ⟨Crew.init hC, Places.init⟩
  | step a hr ha he ih =>
    have hstep := exec_step ih.1 ih.2 ha he
    exact ⟨ih.1.step ih.2 hstep, ih.2.step hC ih.1 hstep⟩

end

end ReactorC.Gedf
