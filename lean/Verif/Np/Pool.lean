import Verif.Np.Model

/-!
# The workers and the semaphore

How many workers are counted as idle, wait for the semaphore and have been given a permit.
-/

set_option linter.unusedVariables false

namespace ReactorC.Np

theorem put_same {α : Type} (f : Nat → α) (k : Nat) (a : α) : put f k a k = a := by unfold put; rw [if_pos rfl]

theorem put_other {α : Type} (f : Nat → α) {k j : Nat} (a : α) (h : j ≠ k) : put f k a j = f j := by
  unfold put; rw [if_neg h]

theorem put_cases {α : Type} {f : Nat → α} {k j : Nat} {a b : α} (h : put f k a j = b) :
    (j = k ∧ a = b) ∨ (j ≠ k ∧ f j = b) := by
  by_cases hj : j = k
  · subst hj; rw [put_same] at h; exact .inl ⟨rfl, h⟩
  · rw [put_other _ _ hj] at h; exact .inr ⟨hj, h⟩

/-! ## The steps, one by one -/

/-- The thread `w` makes a step. -/
inductive Step (C : Config) (s : State) (w : Nat) : State → Prop
  | bootEnd : s.pc w = .boot → Step C s w { s with started := true, pc := put s.pc w .exited }
  | checkStop : s.pc w = .check → s.stop = true → Step C s w { s with pc := put s.pc w .exited }
  | check : s.pc w = .check → s.stop = false → Step C s w { s with pc := put s.pc w .read }
  | readFault : s.pc w = .read → s.next = 0 → Step C s w { s with fault := true }
  | read : s.pc w = .read → s.next ≠ 0 → Step C s w { s with pc := put s.pc w (.dec (s.next - 1)) }
  | decTake (l : Nat) : s.pc w = .dec l → 0 ≤ s.idx l - 1 →
      Step C s w { s with idx := put s.idx l (s.idx l - 1), pc := put s.pc w (.take (s.idx l - 1).toNat) }
  | decWait (l : Nat) : s.pc w = .dec l → ¬ 0 ≤ s.idx l - 1 →
      Step C s w { s with idx := put s.idx l (s.idx l - 1), pc := put s.pc w .wait }
  | take (i : Nat) : s.pc w = .take i →
      Step C s w { s with fault := s.fault || decide (C.cap s.exec ≤ i), pc := put s.pc w (.clear i (s.arr s.exec i)) }
  | clearNone (i : Nat) : s.pc w = .clear i none →
      Step C s w { s with arr := put s.arr s.exec (put (s.arr s.exec) i none), pc := put s.pc w .wait }
  | clear (i r : Nat) : s.pc w = .clear i (some r) →
      Step C s w { s with
        arr := put s.arr s.exec (put (s.arr s.exec) i none), pc := put s.pc w (.run r), hist := .start w r :: s.hist }
  | done (r : Nat) : s.pc w = .done r → s.queued r = true →
      Step C s w { s with queued := put s.queued r false, pc := put s.pc w .check }
  | doneFault (r : Nat) : s.pc w = .done r → s.queued r = false → Step C s w { s with fault := true }
  | fetch (who : Who) (r : Nat) : s.pc w = .fetch who r →
      Step C s w { s with
        idx := put s.idx (C.level r) (s.idx (C.level r) + 1)
        fault := s.fault || decide (s.idx (C.level r) < 0)
        pc := put s.pc w (.store who r (s.idx (C.level r)).toNat) }
  | store (who : Who) (r i : Nat) : s.pc w = .store who r i →
      Step C s w { s with
        arr := put s.arr (C.level r) (put (s.arr (C.level r)) i (some r))
        fault := s.fault || decide (C.cap (C.level r) ≤ i)
        pc := put s.pc w who.pc }
  | waitLast : s.pc w = .wait → s.idle + 1 = C.n → Step C s w { s with idle := s.idle + 1, pc := put s.pc w .reset }
  | wait : s.pc w = .wait → s.idle + 1 ≠ C.n → Step C s w { s with idle := s.idle + 1, pc := put s.pc w .acquire }
  | acquire : s.pc w = .acquire → 0 < s.sem → Step C s w { s with sem := s.sem - 1, pc := put s.pc w .check }
  | resetFault : s.pc w = .reset → s.next = 0 → Step C s w { s with fault := true }
  | reset : s.pc w = .reset → s.next ≠ 0 →
      Step C s w { s with idx := put s.idx (s.next - 1) 0, pc := put s.pc w .loop }
  | loopTag : s.pc w = .loop → s.next = C.maxLevel + 1 → Step C s w { s with next := 0, pc := put s.pc w .tag }
  | loopDist : s.pc w = .loop → s.next ≠ C.maxLevel + 1 → Step C s w { s with pc := put s.pc w .dist }
  | events : s.pc w = .events → Step C s w { s with pc := put s.pc w .dist }
  | distFound (r : Nat) : s.pc w = .dist → s.next ≤ C.maxLevel → s.arr s.next 0 = some r →
      Step C s w { s with
        exec := s.next, next := s.next + 1, fault := s.fault || decide (C.cap s.next = 0), pc := put s.pc w .notify }
  | distSkip : s.pc w = .dist → s.next ≤ C.maxLevel → s.arr s.next 0 = none →
      Step C s w { s with
        exec := s.next, next := s.next + 1, fault := s.fault || decide (C.cap s.next = 0), pc := put s.pc w .dist }
  | distEnd : s.pc w = .dist → ¬ s.next ≤ C.maxLevel → Step C s w { s with pc := put s.pc w .loop }
  | notify (k : Nat) : s.pc w = .notify → k = toAwaken s.idle (s.idx (s.next - 1)) → k > 1 →
      Step C s w { s with idle := s.idle - k, pc := put s.pc w (.release (k - 1)) }
  | notifyOne (k : Nat) : s.pc w = .notify → k = toAwaken s.idle (s.idx (s.next - 1)) → ¬ k > 1 →
      Step C s w { s with idle := s.idle - k, pc := put s.pc w .check }
  | release (m : Nat) : s.pc w = .release m → Step C s w { s with sem := s.sem + m, pc := put s.pc w .check }
  | signal : s.pc w = .signal → Step C s w { s with stop := true, pc := put s.pc w .halt }
  | halt : s.pc w = .halt → Step C s w { s with sem := s.sem + (C.n - 1), pc := put s.pc w .check }
  | triggerAgain (who : Who) (r : Nat) : s.pc w = who.pc → r ∈ C.reactions →
      (∀ r', who = .running r' → C.level r' < C.level r) → s.queued r = true →
      Step C s w { s with hist := .trigger r :: s.hist }
  | triggerNew (who : Who) (r : Nat) : s.pc w = who.pc → r ∈ C.reactions →
      (∀ r', who = .running r' → C.level r' < C.level r) → s.queued r = false →
      Step C s w { s with
        hist := .trigger r :: s.hist, queued := put s.queued r true, pc := put s.pc w (.fetch who r) }
  | finish (r : Nat) : s.pc w = .run r → Step C s w { s with pc := put s.pc w (.done r), hist := .finish w r :: s.hist }
  | advance : s.pc w = .tag → Step C s w { s with pc := put s.pc w .events, hist := .advance :: s.hist }
  | retry : s.pc w = .tag → Step C s w { s with pc := put s.pc w .dist }
  | stop : s.pc w = .tag → Step C s w { s with pc := put s.pc w .signal, hist := .stop :: s.hist }

theorem trigger_step {C : Config} {s : State} {w r : Nat} {who : Who} (h : s.pc w = who.pc) (hr : r ∈ C.reactions)
    (hl : ∀ r', who = .running r' → C.level r' < C.level r) : Step C s w (trigger s w who r) := by
  unfold trigger
  dsimp only
  split
  · rename_i hq; exact .triggerAgain who r h hr hl hq
  · rename_i hq; exact .triggerNew who r h hr hl (by simpa using hq)

theorem exec_step {C : Config} {s s' : State} {a : Act} (ha : a.allowed C s) (h : exec C s a = some s') :
    Step C s a.thread s' := by
  cases a with
  | go w =>
    unfold exec at h
    dsimp only [Act.thread] at h ⊢
    split at h
    · rename_i hp; cases h; exact .bootEnd hp
    · rename_i hp
      cases h
      unfold State.goto
      split
      · rename_i hs; exact .checkStop hp hs
      · rename_i hs; exact .check hp (by simpa using hs)
    · rename_i hp
      split at h
      · rename_i h0; cases h; exact .readFault hp h0
      · rename_i h0; cases h; exact .read hp h0
    · rename_i l hp
      cases h
      split
      · rename_i h0; exact .decTake l hp h0
      · rename_i h0; exact .decWait l hp h0
    · rename_i i hp; cases h; exact .take i hp
    · rename_i i hp; cases h; exact .clearNone i hp
    · rename_i i r hp; cases h; exact .clear i r hp
    · rename_i r hp
      split at h
      · rename_i hq; cases h; exact .done r hp hq
      · rename_i hq; cases h; exact .doneFault r hp (by simpa using hq)
    · rename_i who r hp; cases h; exact .fetch who r hp
    · rename_i who r i hp; cases h; exact .store who r i hp
    · rename_i hp
      cases h
      split
      · rename_i h0; exact .waitLast hp h0
      · rename_i h0; exact .wait hp h0
    · rename_i hp
      split at h
      · rename_i h0; cases h; exact .acquire hp h0
      · cases h
    · rename_i hp
      split at h
      · rename_i h0; cases h; exact .resetFault hp h0
      · rename_i h0; cases h; exact .reset hp h0
    · rename_i hp
      split at h
      · rename_i h0; cases h; exact .loopTag hp h0
      · rename_i h0; cases h; exact .loopDist hp h0
    · rename_i hp; cases h; exact .events hp
    · rename_i hp
      split at h
      · rename_i h0
        cases h
        cases hr : s.arr s.next 0 with
        | none => rw [if_neg (by simp)]; exact .distSkip hp h0 hr
        | some r => rw [if_pos (by simp)]; exact .distFound r hp h0 hr
      · rename_i h0; cases h; exact .distEnd hp h0
    · rename_i hp
      cases h
      split
      · rename_i h0; exact .notify _ hp rfl h0
      · rename_i h0; exact .notifyOne _ hp rfl h0
    · rename_i m hp; cases h; exact .release m hp
    · rename_i hp; cases h; exact .signal hp
    · rename_i hp; cases h; exact .halt hp
    · cases h
  | trigger w r =>
    unfold exec at h
    dsimp only [Act.thread] at h ⊢
    obtain ⟨_, hr, hl⟩ := ha
    split at h
    · rename_i hp; cases h; exact trigger_step (who := .boot) hp hr (fun r' h => by cases h)
    · rename_i r' hp
      cases h
      exact trigger_step (who := .running r') hp hr (fun r'' h => by cases h; exact hl _ hp)
    · rename_i hp; cases h; exact trigger_step (who := .events) hp hr (fun r' h => by cases h)
    · cases h
  | finish w =>
    unfold exec at h
    dsimp only [Act.thread] at h ⊢
    split at h
    · rename_i r hp; cases h; exact .finish r hp
    · cases h
  | advance w =>
    unfold exec at h
    dsimp only [Act.thread] at h ⊢
    split at h
    · rename_i hp; cases h; exact .advance hp
    · cases h
  | retry w =>
    unfold exec at h
    dsimp only [Act.thread] at h ⊢
    split at h
    · rename_i hp; cases h; exact .retry hp
    · cases h
  | stop w =>
    unfold exec at h
    dsimp only [Act.thread] at h ⊢
    split at h
    · rename_i hp; cases h; exact .stop hp
    · cases h

/-! ## Sums over the workers -/

def total (f : Nat → Int) : Nat → Int
  | 0 => 0
  | n + 1 => total f n + f n

theorem total_congr {f g : Nat → Int} : ∀ {n : Nat}, (∀ w, w < n → f w = g w) → total f n = total g n
  | 0, _ => rfl
  | n + 1, h => by
    unfold total
    rw [total_congr (fun w hw => h w (by omega)), h n (by omega)]

theorem total_put {α : Type} (g : α → Int) (f : Nat → α) (a : α) : ∀ {n w : Nat}, w < n →
    total (fun x => g (put f w a x)) n = total (fun x => g (f x)) n - g (f w) + g a
  | 0, _, h => by omega
  | n + 1, w, h => by
    unfold total
    by_cases hw : w = n
    · subst hw
      rw [put_same, total_congr (g := fun x => g (f x)) (fun x hx => by rw [put_other _ _ (by omega)])]
      omega
    · rw [put_other _ _ (fun e => hw e.symm), total_put g f a (by omega)]
      omega

theorem total_le {f : Nat → Int} : ∀ {n : Nat}, (∀ w, w < n → f w ≤ 1) → total f n ≤ n
  | 0, _ => by unfold total; omega
  | n + 1, h => by
    have := total_le (n := n) (f := f) fun w hw => h w (by omega)
    have := h n (by omega)
    unfold total
    omega

theorem total_full {f : Nat → Int} : ∀ {n : Nat}, (∀ w, w < n → f w ≤ 1) → (n : Int) ≤ total f n → ∀ w, w < n → f w = 1
  | 0, _, _, _, hw => by omega
  | n + 1, h, hn, w, hw => by
    have h1 := total_le (n := n) (f := f) fun w hw => h w (by omega)
    have h2 := h n (by omega)
    unfold total at hn
    by_cases hwn : w = n
    · subst hwn; omega
    · exact total_full (n := n) (fun w hw => h w (by omega)) (by omega) w (by omega)

theorem total_const {f : Nat → Int} {c : Int} : ∀ {n : Nat}, (∀ w, w < n → f w = c) → total f n = c * n
  | 0, _ => by unfold total; omega
  | n + 1, h => by
    have := total_const (n := n) (f := f) (c := c) fun w hw => h w (by omega)
    have := h n (by omega)
    have e : c * ((n + 1 : Nat) : Int) = c * (n : Int) + c := by rw [Int.natCast_add, Int.mul_add]; omega
    unfold total
    omega

theorem total_pos {f : Nat → Int} : ∀ {n : Nat}, (∀ w, w < n → 0 ≤ f w) → 0 ≤ total f n ∧ ∀ w, w < n → f w ≤ total f n
  | 0, _ => ⟨by unfold total; omega, fun w hw => by omega⟩
  | n + 1, h => by
    obtain ⟨h1, h2⟩ := total_pos (n := n) (f := f) fun w hw => h w (by omega)
    have h3 := h n (by omega)
    unfold total
    refine ⟨by omega, fun w hw => ?_⟩
    by_cases hwn : w = n
    · subst hwn; omega
    · have := h2 w (by omega); omega

/-! ## Counting -/

/-- The worker has taken charge: it distributes reactions or advances the tag. -/
def Pc.charge : Pc → Bool
  | .reset | .loop | .tag | .events | .dist | .notify | .signal => true
  | .fetch .events _ | .store .events _ _ => true
  | _ => false

/-- The share of a worker in the number of idle workers and of permits. -/
def Pc.weight : Pc → Int
  | .acquire => 1
  | .release m => - m
  | p => if p.charge then 1 else 0

/-- The main thread triggers the first reactions. -/
def Pc.booting : Pc → Bool
  | .boot => true
  | .fetch .boot _ | .store .boot _ _ => true
  | _ => false

theorem Pc.weight_le (p : Pc) : p.weight ≤ 1 := by
  cases p <;> unfold Pc.weight <;> dsimp only <;> try split
  all_goals omega

theorem Pc.weight_charge {p : Pc} (h : p.charge = true) : p.weight = 1 := by
  cases p with
  | acquire => cases h
  | release m => cases h
  | _ => unfold Pc.weight; dsimp only; rw [if_pos h]

/-- The workers while the scheduler does not stop. -/
structure RunPool (C : Config) (s : State) : Prop where
  sum : total (fun w => (s.pc w).weight) C.n = s.idle + s.sem
  all : ∀ w, w < C.n → (s.pc w).charge = true → s.idle = C.n
  ex : s.idle = C.n → ∃ w, w < C.n ∧ (s.pc w).charge = true
  uniq : ∀ w w', w < C.n → w' < C.n → (s.pc w).charge = true → (s.pc w').charge = true → w = w'
  live : ∀ w, w < C.n → s.pc w ≠ .exited ∧ s.pc w ≠ .halt ∧ (s.pc w).booting = false

/-- The workers when the scheduler stops. -/
def StopPool (C : Config) (s : State) : Prop :=
  (∃ w, w < C.n ∧ s.pc w = .halt ∧ s.sem = 0 ∧ ∀ w', w' < C.n → w' ≠ w → s.pc w' = .acquire) ∨
  ((∀ w, w < C.n → s.pc w = .check ∨ s.pc w = .acquire ∨ s.pc w = .exited) ∧
    total (fun w => if s.pc w = .acquire then 1 else 0) C.n = s.sem)

structure Pool (C : Config) (s : State) : Prop where
  run : s.stop = false → RunPool C s
  stop : s.stop = true → StopPool C s
  early : s.started = false → (∀ w, w < C.n → s.pc w = .check) ∧ (s.pc C.n).booting = true ∧ s.stop = false
  main : s.started = true → s.pc C.n = .exited
  beyond : ∀ w, C.n < w → s.pc w = .exited

/-- The others when a worker has taken charge. -/
theorem RunPool.alone {C : Config} {s : State} (h : RunPool C s) {w : Nat} (hw : w < C.n) (hc : (s.pc w).charge = true) :
    s.sem = 0 ∧ s.idle = C.n ∧ ∀ w', w' < C.n → w' ≠ w → s.pc w' = .acquire := by
  have hi := h.all w hw hc
  have hle : ∀ x, x < C.n → (s.pc x).weight ≤ 1 := fun x _ => Pc.weight_le _
  have h1 := total_le (f := fun w => (s.pc w).weight) hle
  have h2 := h.sum
  have hsem : s.sem = 0 := by omega
  have hfull := total_full (f := fun w => (s.pc w).weight) hle (by omega)
  refine ⟨hsem, hi, fun x hx hxw => ?_⟩
  have hwx : (s.pc x).weight = 1 := hfull x hx
  have hnc : (s.pc x).charge = false := by
    cases hcx : (s.pc x).charge with
    | false => rfl
    | true => exact absurd (h.uniq x w hx hw hcx hc) hxw
  generalize s.pc x = p at hwx hnc
  cases p <;> unfold Pc.weight at hwx <;> dsimp only at hwx
  all_goals first | rfl | omega | (rw [if_neg (by rw [hnc]; simp)] at hwx; cases hwx)

/-- A step that leaves the counters alone. -/
theorem RunPool.still {C : Config} {s s' : State} (h : RunPool C s) {w : Nat} {p : Pc} (hw : w < C.n)
    (h1 : s'.pc = put s.pc w p) (h2 : s'.idle = s.idle) (h3 : s'.sem = s.sem)
    (hwt : p.weight = (s.pc w).weight) (hch : p.charge = (s.pc w).charge)
    (hp : p ≠ .exited ∧ p ≠ .halt ∧ p.booting = false) : RunPool C s' := by
  have hc : ∀ x, (s'.pc x).charge = (s.pc x).charge := by
    intro x
    rw [h1]
    by_cases hx : x = w
    · subst hx; rw [put_same, hch]
    · rw [put_other _ _ hx]
  refine ⟨?_, fun x hx hcx => ?_, fun hi => ?_, fun x y hx hy hcx hcy => ?_, fun x hx => ?_⟩
  · rw [h1, h2, h3, total_put Pc.weight s.pc p hw]
    have := h.sum
    omega
  · rw [h2]; rw [hc] at hcx; exact h.all x hx hcx
  · rw [h2] at hi
    obtain ⟨x, hx, hcx⟩ := h.ex hi
    exact ⟨x, hx, by rw [hc]; exact hcx⟩
  · rw [hc] at hcx hcy; exact h.uniq x y hx hy hcx hcy
  · rw [h1]
    by_cases hxw : x = w
    · subst hxw; rw [put_same]; exact hp
    · rw [put_other _ _ hxw]; exact h.live x hx

theorem Who.pc_charge (who : Who) (r : Nat) : who.pc.charge = (Pc.fetch who r).charge := by cases who <;> rfl

theorem Who.pc_weight (who : Who) (r : Nat) : who.pc.weight = (Pc.fetch who r).weight := by cases who <;> rfl

theorem Who.store_charge (who : Who) (r i : Nat) : (Pc.store who r i).charge = (Pc.fetch who r).charge := by cases who <;> rfl

theorem Who.store_weight (who : Who) (r i : Nat) : (Pc.store who r i).weight = (Pc.fetch who r).weight := by cases who <;> rfl

theorem Who.pc_booting (who : Who) (r : Nat) : who.pc.booting = (Pc.fetch who r).booting := by cases who <;> rfl

theorem Who.store_booting (who : Who) (r i : Nat) : (Pc.store who r i).booting = (Pc.fetch who r).booting := by
  cases who <;> rfl

theorem toAwaken_le (idle : Nat) (i : Int) : toAwaken idle i ≤ idle := by
  unfold toAwaken; split <;> omega

theorem toAwaken_pos {idle : Nat} {i : Int} (h : 0 < idle) (hi : 0 < i) : 0 < toAwaken idle i := by
  unfold toAwaken; split <;> omega

/-- The main thread does not matter to the workers. -/
theorem RunPool.frame {C : Config} {s s' : State} (h : RunPool C s) (h1 : ∀ x, x < C.n → s'.pc x = s.pc x)
    (h2 : s'.idle = s.idle) (h3 : s'.sem = s.sem) : RunPool C s' := by
  refine ⟨?_, fun x hx hcx => ?_, fun hi => ?_, fun x y hx hy hcx hcy => ?_, fun x hx => ?_⟩
  · rw [h2, h3, total_congr (g := fun w => (s.pc w).weight) (fun x hx => by rw [h1 x hx])]
    exact h.sum
  · rw [h2]; rw [h1 x hx] at hcx; exact h.all x hx hcx
  · rw [h2] at hi
    obtain ⟨x, hx, hcx⟩ := h.ex hi
    exact ⟨x, hx, by rw [h1 x hx]; exact hcx⟩
  · rw [h1 x hx] at hcx; rw [h1 y hy] at hcy; exact h.uniq x y hx hy hcx hcy
  · rw [h1 x hx]; exact h.live x hx

theorem Pool.early_step {C : Config} {s s' : State} (h : Pool C s) (hst : s.started = false) (hstep : Step C s C.n s') :
    Pool C s' := by
  obtain ⟨h1, h2, h3⟩ := h.early hst
  have hr := h.run h3
  have frame : ∀ p x, x < C.n → put s.pc C.n p x = s.pc x := fun p x hx => put_other _ _ (by omega)
  have frame' : ∀ p x, C.n < x → put s.pc C.n p x = s.pc x := fun p x hx => put_other _ _ (by omega)
  have still : ∀ {s' : State} {p : Pc}, s'.pc = put s.pc C.n p → p.booting = true → s'.idle = s.idle → s'.sem = s.sem →
      s'.stop = s.stop → s'.started = s.started → Pool C s' := by
    intro s' p e1 e2 e3 e4 e5 e6
    refine ⟨fun _ => hr.frame (fun x hx => by rw [e1, frame _ x hx]) e3 e4, fun hs => ?_, fun _ => ⟨fun x hx => ?_, ?_, ?_⟩,
      fun hs => ?_, fun x hx => ?_⟩
    · rw [e5, h3] at hs; cases hs
    · rw [e1, frame _ x hx]; exact h1 x hx
    · rw [e1, put_same]; exact e2
    · rw [e5]; exact h3
    · rw [e6, hst] at hs; cases hs
    · rw [e1, frame' _ x hx]; exact h.beyond x hx
  cases hstep with
  | bootEnd hp =>
    refine ⟨fun _ => hr.frame (fun x hx => frame _ x hx) rfl rfl, fun hs => ?_, fun hs => (by cases hs), fun _ => put_same _ _ _,
      fun x hx => ?_⟩
    · rw [show s.stop = true from hs] at h3; cases h3
    · exact (frame' _ x hx).trans (h.beyond x hx)
  | fetch who r hp =>
    rw [hp] at h2
    cases who <;> first | exact still rfl rfl rfl rfl rfl rfl | cases h2
  | store who r i hp =>
    rw [hp] at h2
    cases who <;> first | exact still rfl rfl rfl rfl rfl rfl | cases h2
  | triggerAgain who r hp _ _ hq =>
    exact ⟨fun _ => hr.frame (fun x hx => rfl) rfl rfl, fun hs => (by rw [show s.stop = true from hs] at h3; cases h3),
      fun _ => ⟨h1, h2, h3⟩, fun hs => (by rw [show s.started = true from hs] at hst; cases hst), h.beyond⟩
  | triggerNew who r hp =>
    rw [hp] at h2
    cases who <;> first | exact still rfl rfl rfl rfl rfl rfl | cases h2
  | checkStop hp => rw [hp] at h2; cases h2
  | check hp => rw [hp] at h2; cases h2
  | readFault hp => rw [hp] at h2; cases h2
  | read hp => rw [hp] at h2; cases h2
  | decTake l hp => rw [hp] at h2; cases h2
  | decWait l hp => rw [hp] at h2; cases h2
  | take i hp => rw [hp] at h2; cases h2
  | clearNone i hp => rw [hp] at h2; cases h2
  | clear i r hp => rw [hp] at h2; cases h2
  | done r hp => rw [hp] at h2; cases h2
  | doneFault r hp => rw [hp] at h2; cases h2
  | waitLast hp => rw [hp] at h2; cases h2
  | wait hp => rw [hp] at h2; cases h2
  | acquire hp => rw [hp] at h2; cases h2
  | resetFault hp => rw [hp] at h2; cases h2
  | reset hp => rw [hp] at h2; cases h2
  | loopTag hp => rw [hp] at h2; cases h2
  | loopDist hp => rw [hp] at h2; cases h2
  | events hp => rw [hp] at h2; cases h2
  | distFound r hp => rw [hp] at h2; cases h2
  | distSkip hp => rw [hp] at h2; cases h2
  | distEnd hp => rw [hp] at h2; cases h2
  | notify k hp => rw [hp] at h2; cases h2
  | notifyOne k hp => rw [hp] at h2; cases h2
  | release m hp => rw [hp] at h2; cases h2
  | signal hp => rw [hp] at h2; cases h2
  | halt hp => rw [hp] at h2; cases h2
  | finish r hp => rw [hp] at h2; cases h2
  | advance hp => rw [hp] at h2; cases h2
  | retry hp => rw [hp] at h2; cases h2
  | stop hp => rw [hp] at h2; cases h2

/-- A worker leaves the charge and releases others. -/
theorem RunPool.leave {C : Config} {s s' : State} (h : RunPool C s) {w k : Nat} {p : Pc} (hw : w < C.n) (h0 : 0 < k)
    (hk : k ≤ s.idle) (hc : (s.pc w).charge = true) (h1 : s'.pc = put s.pc w p) (h2 : s'.idle = s.idle - k)
    (h3 : s'.sem = s.sem) (hwt : p.weight = 1 - k) (hch : p.charge = false)
    (hp : p ≠ .exited ∧ p ≠ .halt ∧ p.booting = false) : RunPool C s' := by
  have hi := h.all w hw hc
  obtain ⟨_, _, ha⟩ := h.alone hw hc
  have hn : ∀ x, x < C.n → (s'.pc x).charge = false := by
    intro x hx
    rw [h1]
    by_cases hxw : x = w
    · subst hxw; rw [put_same]; exact hch
    · rw [put_other _ _ hxw, ha x hx hxw]; rfl
  refine ⟨?_, fun x hx hcx => ?_, fun he => ?_, fun x y hx hy hcx hcy => ?_, fun x hx => ?_⟩
  · rw [h1, h2, h3, total_put Pc.weight s.pc p hw, Pc.weight_charge hc]
    have := h.sum
    omega
  · rw [hn x hx] at hcx; cases hcx
  · omega
  · rw [hn x hx] at hcx; cases hcx
  · rw [h1]
    by_cases hxw : x = w
    · subst hxw; rw [put_same]; exact hp
    · rw [put_other _ _ hxw]; exact h.live x hx

/-- A worker that is not in charge changes its share. -/
theorem RunPool.change {C : Config} {s s' : State} (h : RunPool C s) {w : Nat} {p : Pc} (hw : w < C.n)
    (h1 : s'.pc = put s.pc w p) (hwt : p.weight - (s.pc w).weight = (s'.idle + s'.sem : Int) - (s.idle + s.sem))
    (hc : (s.pc w).charge = false) (hch : p.charge = false) (hi : s'.idle = s.idle ∨ (s'.idle ≠ C.n ∧ s.idle ≠ C.n))
    (hp : p ≠ .exited ∧ p ≠ .halt ∧ p.booting = false) : RunPool C s' := by
  have hcx : ∀ x, (s'.pc x).charge = (s.pc x).charge := by
    intro x
    rw [h1]
    by_cases hx : x = w
    · subst hx; rw [put_same, hch, hc]
    · rw [put_other _ _ hx]
  refine ⟨?_, fun x hx hc' => ?_, fun he => ?_, fun x y hx hy hcx' hcy => ?_, fun x hx => ?_⟩
  · rw [h1, total_put Pc.weight s.pc p hw]
    have := h.sum
    omega
  · rw [hcx] at hc'
    have := h.all x hx hc'
    omega
  · obtain ⟨x, hx, hc'⟩ := h.ex (by omega)
    exact ⟨x, hx, by rw [hcx]; exact hc'⟩
  · rw [hcx] at hcx' hcy; exact h.uniq x y hx hy hcx' hcy
  · rw [h1]
    by_cases hxw : x = w
    · subst hxw; rw [put_same]; exact hp
    · rw [put_other _ _ hxw]; exact h.live x hx

theorem Pool.run_step {C : Config} {s s' : State} (h : Pool C s) (h0 : 0 < C.n) (hst : s.started = true)
    (hs : s.stop = false) {w : Nat} (hw : w < C.n) (hnot : s.pc w = .notify → 0 < s.idx (s.next - 1))
    (hstep : Step C s w s') : Pool C s' := by
  have hr := h.run hs
  obtain ⟨hl1, hl2, hl3⟩ := hr.live w hw
  -- what remains to be shown if the scheduler goes on
  have fin : ∀ {s' : State} {p : Pc}, (s'.pc = put s.pc w p ∨ s'.pc = s.pc) → s'.stop = s.stop → s'.started = s.started →
      RunPool C s' → Pool C s' := by
    intro s' p e1 e2 e3 hr'
    have hx : ∀ x, C.n ≤ x → s'.pc x = s.pc x := by
      intro x hx
      rcases e1 with e1 | e1
      · rw [e1, put_other _ _ (by omega)]
      · rw [e1]
    refine ⟨fun _ => hr', fun hs' => ?_, fun hs' => ?_, fun _ => ?_, fun x hn => ?_⟩
    · rw [e2, hs] at hs'; cases hs'
    · rw [e3, hst] at hs'; cases hs'
    · rw [hx _ (Nat.le_refl _)]; exact h.main hst
    · rw [hx _ (by omega)]; exact h.beyond x hn
  have still : ∀ {s' : State} {p : Pc}, s'.pc = put s.pc w p → s'.idle = s.idle → s'.sem = s.sem → s'.stop = s.stop →
      s'.started = s.started → p.weight = (s.pc w).weight → p.charge = (s.pc w).charge →
      (p ≠ .exited ∧ p ≠ .halt ∧ p.booting = false) → Pool C s' :=
    fun e1 e2 e3 e4 e5 e6 e7 e8 => fin (.inl e1) e4 e5 (hr.still hw e1 e2 e3 e6 e7 e8)
  cases hstep with
  | bootEnd hp => rw [hp] at hl3; cases hl3
  | checkStop hp hs' => rw [hs] at hs'; cases hs'
  | check hp => exact still rfl rfl rfl rfl rfl (by rw [hp]; rfl) (by rw [hp]; rfl) ⟨by simp, by simp, rfl⟩
  | readFault hp => exact fin (p := .check) (.inr rfl) rfl rfl (hr.frame (fun _ _ => rfl) rfl rfl)
  | read hp => exact still rfl rfl rfl rfl rfl (by rw [hp]; rfl) (by rw [hp]; rfl) ⟨by simp, by simp, rfl⟩
  | decTake l hp => exact still rfl rfl rfl rfl rfl (by rw [hp]; rfl) (by rw [hp]; rfl) ⟨by simp, by simp, rfl⟩
  | decWait l hp => exact still rfl rfl rfl rfl rfl (by rw [hp]; rfl) (by rw [hp]; rfl) ⟨by simp, by simp, rfl⟩
  | take i hp => exact still rfl rfl rfl rfl rfl (by rw [hp]; rfl) (by rw [hp]; rfl) ⟨by simp, by simp, rfl⟩
  | clearNone i hp => exact still rfl rfl rfl rfl rfl (by rw [hp]; rfl) (by rw [hp]; rfl) ⟨by simp, by simp, rfl⟩
  | clear i r hp => exact still rfl rfl rfl rfl rfl (by rw [hp]; rfl) (by rw [hp]; rfl) ⟨by simp, by simp, rfl⟩
  | done r hp => exact still rfl rfl rfl rfl rfl (by rw [hp]; rfl) (by rw [hp]; rfl) ⟨by simp, by simp, rfl⟩
  | doneFault r hp => exact fin (p := .check) (.inr rfl) rfl rfl (hr.frame (fun _ _ => rfl) rfl rfl)
  | fetch who r hp =>
    rw [hp] at hl3
    exact still rfl rfl rfl rfl rfl (by rw [hp, Who.store_weight]) (by rw [hp, Who.store_charge])
      ⟨by simp, by simp, by rw [Who.store_booting]; exact hl3⟩
  | store who r i hp =>
    rw [hp, Who.store_booting] at hl3
    exact still rfl rfl rfl rfl rfl (by rw [hp, Who.store_weight, who.pc_weight]) (by rw [hp, Who.store_charge, who.pc_charge])
      ⟨by cases who <;> simp [Who.pc], by cases who <;> simp [Who.pc], by rw [who.pc_booting r]; exact hl3⟩
  | waitLast hp he =>
    have hno : ∀ x, x < C.n → (s.pc x).charge = false := by
      intro x hx
      cases hc : (s.pc x).charge with
      | false => rfl
      | true => have := hr.all x hx hc; omega
    refine fin (.inl rfl) rfl rfl ⟨?_, fun x hx hcx => he, fun _ => ⟨w, hw, ?_⟩, fun x y hx hy hcx hcy => ?_, fun x hx => ?_⟩
    · show total (fun x => (put s.pc w Pc.reset x).weight) C.n = ((s.idle + 1 : Nat) : Int) + s.sem
      rw [total_put Pc.weight s.pc .reset hw, hp]
      have := hr.sum
      have e1 : Pc.reset.weight = 1 := rfl
      have e2 : Pc.wait.weight = 0 := rfl
      omega
    · show (put s.pc w Pc.reset w).charge = true
      rw [put_same]; rfl
    · have aux : ∀ z, z < C.n → (put s.pc w Pc.reset z).charge = true → z = w := by
        intro z hz hcz
        by_cases hzw : z = w
        · exact hzw
        · rw [put_other _ _ hzw, hno z hz] at hcz; cases hcz
      rw [aux x hx hcx, aux y hy hcy]
    · show put s.pc w Pc.reset x ≠ _ ∧ put s.pc w Pc.reset x ≠ _ ∧ (put s.pc w Pc.reset x).booting = false
      by_cases hxw : x = w
      · subst hxw; rw [put_same]; exact ⟨by simp, by simp, rfl⟩
      · rw [put_other _ _ hxw]; exact hr.live x hx
  | wait hp he =>
    have hne : s.idle ≠ C.n := by
      intro hi
      obtain ⟨x, hx, hc⟩ := hr.ex hi
      obtain ⟨_, _, ha⟩ := hr.alone hx hc
      by_cases hxw : w = x
      · subst hxw; rw [hp] at hc; cases hc
      · have := ha w hw hxw; rw [hp] at this; cases this
    exact fin (.inl rfl) rfl rfl (hr.change hw rfl (by
      rw [hp]
      show (1 : Int) - 0 = ((s.idle + 1 : Nat) + s.sem : Int) - _
      omega) (by rw [hp]; rfl) rfl (.inr ⟨he, hne⟩) ⟨by simp, by simp, rfl⟩)
  | acquire hp he =>
    exact fin (.inl rfl) rfl rfl (hr.change hw rfl (by
      rw [hp]
      show (0 : Int) - 1 = (s.idle + (s.sem - 1 : Nat) : Int) - _
      omega) (by rw [hp]; rfl) rfl (.inl rfl) ⟨by simp, by simp, rfl⟩)
  | resetFault hp => exact fin (p := .check) (.inr rfl) rfl rfl (hr.frame (fun _ _ => rfl) rfl rfl)
  | reset hp => exact still rfl rfl rfl rfl rfl (by rw [hp]; rfl) (by rw [hp]; rfl) ⟨by simp, by simp, rfl⟩
  | loopTag hp => exact still rfl rfl rfl rfl rfl (by rw [hp]; rfl) (by rw [hp]; rfl) ⟨by simp, by simp, rfl⟩
  | loopDist hp => exact still rfl rfl rfl rfl rfl (by rw [hp]; rfl) (by rw [hp]; rfl) ⟨by simp, by simp, rfl⟩
  | events hp => exact still rfl rfl rfl rfl rfl (by rw [hp]; rfl) (by rw [hp]; rfl) ⟨by simp, by simp, rfl⟩
  | distFound r hp => exact still rfl rfl rfl rfl rfl (by rw [hp]; rfl) (by rw [hp]; rfl) ⟨by simp, by simp, rfl⟩
  | distSkip hp => exact still rfl rfl rfl rfl rfl (by rw [hp]) (by rw [hp]) ⟨by simp, by simp, rfl⟩
  | distEnd hp => exact still rfl rfl rfl rfl rfl (by rw [hp]; rfl) (by rw [hp]; rfl) ⟨by simp, by simp, rfl⟩
  | notify k hp hk h1 =>
    have hi := hr.all w hw (by rw [hp]; rfl)
    exact fin (.inl rfl) rfl rfl (hr.leave hw (k := k) (by omega) (hk ▸ toAwaken_le _ _) (by rw [hp]; rfl) rfl rfl rfl (by
      show -((k - 1 : Nat) : Int) = 1 - k
      omega) rfl ⟨by simp, by simp, rfl⟩)
  | notifyOne k hp hk h1 =>
    have hi := hr.all w hw (by rw [hp]; rfl)
    have hpos : 0 < k := hk ▸ toAwaken_pos (by omega) (hnot hp)
    exact fin (.inl rfl) rfl rfl (hr.leave hw (k := k) hpos (hk ▸ toAwaken_le _ _) (by rw [hp]; rfl) rfl rfl rfl (by
      show (0 : Int) = 1 - k
      omega) rfl ⟨by simp, by simp, rfl⟩)
  | release m hp =>
    exact fin (.inl rfl) rfl rfl (hr.change hw rfl (by
      rw [hp]
      show (0 : Int) - (-(m : Int)) = (s.idle + (s.sem + m : Nat) : Int) - _
      omega) (by rw [hp]; rfl) rfl (.inl rfl) ⟨by simp, by simp, rfl⟩)
  | signal hp =>
    obtain ⟨ha1, ha2, ha3⟩ := hr.alone hw (by rw [hp]; rfl)
    refine ⟨fun hs' => (by cases hs'), fun _ => .inl ⟨w, hw, put_same _ _ _, ha1, fun x hx hxw => ?_⟩, fun hs' => ?_,
      fun _ => ?_, fun x hx => ?_⟩
    · show put s.pc w Pc.halt x = _
      rw [put_other _ _ hxw]; exact ha3 x hx hxw
    · rw [show s.started = false from hs'] at hst; cases hst
    · show put s.pc w Pc.halt C.n = _
      rw [put_other _ _ (by omega)]; exact h.main hst
    · show put s.pc w Pc.halt x = _
      rw [put_other _ _ (by omega)]; exact h.beyond x hx
  | halt hp => exact absurd hp hl2
  | triggerAgain who r hp => exact fin (p := .check) (.inr rfl) rfl rfl (hr.frame (fun _ _ => rfl) rfl rfl)
  | triggerNew who r hp =>
    rw [hp, who.pc_booting r] at hl3
    exact still rfl rfl rfl rfl rfl (by rw [hp, who.pc_weight r]) (by rw [hp, who.pc_charge r]) ⟨by simp, by simp, hl3⟩
  | finish r hp => exact still rfl rfl rfl rfl rfl (by rw [hp]; rfl) (by rw [hp]; rfl) ⟨by simp, by simp, rfl⟩
  | advance hp => exact still rfl rfl rfl rfl rfl (by rw [hp]; rfl) (by rw [hp]; rfl) ⟨by simp, by simp, rfl⟩
  | retry hp => exact still rfl rfl rfl rfl rfl (by rw [hp]; rfl) (by rw [hp]; rfl) ⟨by simp, by simp, rfl⟩
  | stop hp => exact still rfl rfl rfl rfl rfl (by rw [hp]; rfl) (by rw [hp]; rfl) ⟨by simp, by simp, rfl⟩

/-- When the scheduler stops, workers only check, get a permit, leave, or hand out the permits. -/
theorem Pool.stop_pc {C : Config} {s : State} (h : Pool C s) (hs : s.stop = true) {w : Nat} (hw : w < C.n) :
    s.pc w = .check ∨ s.pc w = .acquire ∨ s.pc w = .exited ∨ s.pc w = .halt := by
  rcases h.stop hs with ⟨x, hx, h1, h2, h3⟩ | ⟨h1, _⟩
  · by_cases hwx : w = x
    · subst hwx; exact .inr (.inr (.inr h1))
    · exact .inr (.inl (h3 w hw hwx))
  · rcases h1 w hw with h | h | h
    · exact .inl h
    · exact .inr (.inl h)
    · exact .inr (.inr (.inl h))

theorem Pool.stop_step {C : Config} {s s' : State} (h : Pool C s) (hst : s.started = true)
    (hs : s.stop = true) {w : Nat} (hw : w < C.n) (hstep : Step C s w s') : Pool C s' ∧ s'.stop = true ∧ s'.hist = s.hist ∧
      s'.queued = s.queued ∧ s'.fault = s.fault := by
  have fin : ∀ {s' : State} {p : Pc}, s'.pc = put s.pc w p → s'.stop = true → s'.started = s.started →
      StopPool C s' → Pool C s' := by
    intro s' p e1 e2 e3 hr'
    have hx : ∀ x, C.n ≤ x → s'.pc x = s.pc x := by
      intro x hx
      rw [e1, put_other _ _ (by omega)]
    refine ⟨fun hs' => ?_, fun _ => hr', fun hs' => ?_, fun _ => ?_, fun x hn => ?_⟩
    · rw [e2] at hs'; cases hs'
    · rw [e3, hst] at hs'; cases hs'
    · rw [hx _ (Nat.le_refl _)]; exact h.main hst
    · rw [hx _ (by omega)]; exact h.beyond x hn
  have hx := h.stop_pc hs hw
  have no : ∀ {p : Pc}, s.pc w = p → p ≠ .check → p ≠ .acquire → p ≠ .exited → p ≠ .halt → False := by
    intro p hp h1 h2 h3 h4
    rw [hp] at hx
    rcases hx with h | h | h | h <;> contradiction
  cases hstep with
  | bootEnd hp => exact absurd hp (fun hp => no hp (by simp) (by simp) (by simp) (by simp))
  | checkStop hp hs' =>
    refine ⟨fin rfl hs rfl ?_, hs, rfl, rfl, rfl⟩
    rcases h.stop hs with ⟨x, hx, h1, h2, h3⟩ | ⟨h1, h2⟩
    · by_cases hwx : w = x
      · subst hwx; rw [hp] at h1; cases h1
      · have := h3 w hw hwx; rw [hp] at this; cases this
    · refine .inr ⟨fun x hx => ?_, ?_⟩
      · show put s.pc w Pc.exited x = _ ∨ put s.pc w Pc.exited x = _ ∨ put s.pc w Pc.exited x = _
        by_cases hxw : x = w
        · subst hxw; rw [put_same]; exact .inr (.inr rfl)
        · rw [put_other _ _ hxw]; exact h1 x hx
      · show total (fun x => if put s.pc w Pc.exited x = .acquire then (1 : Int) else 0) C.n = _
        rw [total_put (fun p => if p = Pc.acquire then (1 : Int) else 0) s.pc .exited hw, hp, h2]
        rw [if_neg (by simp), if_neg (by simp)]
        show (s.sem : Int) - 0 + 0 = s.sem
        omega
  | check hp hs' => rw [hs] at hs'; cases hs'
  | readFault hp => exact absurd hp (fun hp => no hp (by simp) (by simp) (by simp) (by simp))
  | read hp => exact absurd hp (fun hp => no hp (by simp) (by simp) (by simp) (by simp))
  | decTake l hp => exact absurd hp (fun hp => no hp (by simp) (by simp) (by simp) (by simp))
  | decWait l hp => exact absurd hp (fun hp => no hp (by simp) (by simp) (by simp) (by simp))
  | take i hp => exact absurd hp (fun hp => no hp (by simp) (by simp) (by simp) (by simp))
  | clearNone i hp => exact absurd hp (fun hp => no hp (by simp) (by simp) (by simp) (by simp))
  | clear i r hp => exact absurd hp (fun hp => no hp (by simp) (by simp) (by simp) (by simp))
  | done r hp => exact absurd hp (fun hp => no hp (by simp) (by simp) (by simp) (by simp))
  | doneFault r hp => exact absurd hp (fun hp => no hp (by simp) (by simp) (by simp) (by simp))
  | fetch who r hp => exact absurd hp (fun hp => no hp (by simp) (by simp) (by simp) (by simp))
  | store who r i hp => exact absurd hp (fun hp => no hp (by simp) (by simp) (by simp) (by simp))
  | waitLast hp => exact absurd hp (fun hp => no hp (by simp) (by simp) (by simp) (by simp))
  | wait hp => exact absurd hp (fun hp => no hp (by simp) (by simp) (by simp) (by simp))
  | acquire hp he =>
    refine ⟨fin rfl hs rfl ?_, hs, rfl, rfl, rfl⟩
    rcases h.stop hs with ⟨x, hx, h1, h2, h3⟩ | ⟨h1, h2⟩
    · omega
    · refine .inr ⟨fun x hx => ?_, ?_⟩
      · show put s.pc w Pc.check x = _ ∨ put s.pc w Pc.check x = _ ∨ put s.pc w Pc.check x = _
        by_cases hxw : x = w
        · subst hxw; rw [put_same]; exact .inl rfl
        · rw [put_other _ _ hxw]; exact h1 x hx
      · show total (fun x => if put s.pc w Pc.check x = .acquire then (1 : Int) else 0) C.n = _
        rw [total_put (fun p => if p = Pc.acquire then (1 : Int) else 0) s.pc .check hw, hp, h2]
        rw [if_pos rfl, if_neg (by simp)]
        show (s.sem : Int) - 1 + 0 = (s.sem - 1 : Nat)
        omega
  | resetFault hp => exact absurd hp (fun hp => no hp (by simp) (by simp) (by simp) (by simp))
  | reset hp => exact absurd hp (fun hp => no hp (by simp) (by simp) (by simp) (by simp))
  | loopTag hp => exact absurd hp (fun hp => no hp (by simp) (by simp) (by simp) (by simp))
  | loopDist hp => exact absurd hp (fun hp => no hp (by simp) (by simp) (by simp) (by simp))
  | events hp => exact absurd hp (fun hp => no hp (by simp) (by simp) (by simp) (by simp))
  | distFound r hp => exact absurd hp (fun hp => no hp (by simp) (by simp) (by simp) (by simp))
  | distSkip hp => exact absurd hp (fun hp => no hp (by simp) (by simp) (by simp) (by simp))
  | distEnd hp => exact absurd hp (fun hp => no hp (by simp) (by simp) (by simp) (by simp))
  | notify k hp => exact absurd hp (fun hp => no hp (by simp) (by simp) (by simp) (by simp))
  | notifyOne k hp => exact absurd hp (fun hp => no hp (by simp) (by simp) (by simp) (by simp))
  | release m hp => exact absurd hp (fun hp => no hp (by simp) (by simp) (by simp) (by simp))
  | signal hp => exact absurd hp (fun hp => no hp (by simp) (by simp) (by simp) (by simp))
  | halt hp =>
    refine ⟨fin rfl hs rfl ?_, hs, rfl, rfl, rfl⟩
    rcases h.stop hs with ⟨x, hx, h1, h2, h3⟩ | ⟨h1, h2⟩
    · have hwx : w = x := by
        by_cases hwx : w = x
        · exact hwx
        · have := h3 w hw hwx; rw [hp] at this; cases this
      subst hwx
      refine .inr ⟨fun x hx => ?_, ?_⟩
      · show put s.pc w Pc.check x = _ ∨ put s.pc w Pc.check x = _ ∨ put s.pc w Pc.check x = _
        by_cases hxw : x = w
        · subst hxw; rw [put_same]; exact .inl rfl
        · rw [put_other _ _ hxw]; exact .inr (.inl (h3 x hx hxw))
      · show total (fun x => if put s.pc w Pc.check x = .acquire then (1 : Int) else 0) C.n = _
        have e : total (fun x => if put s.pc w Pc.check x = .acquire then (1 : Int) else 0) C.n =
            total (fun x => if put (fun _ => Pc.acquire) w Pc.check x = .acquire then (1 : Int) else 0) C.n := by
          refine total_congr fun x hx => ?_
          by_cases hxw : x = w
          · subst hxw; rw [put_same, put_same]
          · rw [put_other _ _ hxw, put_other _ _ hxw, h3 x hx hxw]
        rw [e, total_put (fun p => if p = Pc.acquire then (1 : Int) else 0) (fun _ => Pc.acquire) .check hw,
          total_const (c := 1) (fun _ _ => if_pos rfl), if_pos rfl, if_neg (by simp)]
        show (1 : Int) * C.n - 1 + 0 = (s.sem + (C.n - 1) : Nat)
        omega
    · rcases h1 w hw with h | h | h <;> rw [hp] at h <;> cases h
  | triggerAgain who r hp =>
    exact absurd hp (fun hp => no hp (by cases who <;> simp [Who.pc]) (by cases who <;> simp [Who.pc])
      (by cases who <;> simp [Who.pc]) (by cases who <;> simp [Who.pc]))
  | triggerNew who r hp =>
    exact absurd hp (fun hp => no hp (by cases who <;> simp [Who.pc]) (by cases who <;> simp [Who.pc])
      (by cases who <;> simp [Who.pc]) (by cases who <;> simp [Who.pc]))
  | finish r hp => exact absurd hp (fun hp => no hp (by simp) (by simp) (by simp) (by simp))
  | advance hp => exact absurd hp (fun hp => no hp (by simp) (by simp) (by simp) (by simp))
  | retry hp => exact absurd hp (fun hp => no hp (by simp) (by simp) (by simp) (by simp))
  | stop hp => exact absurd hp (fun hp => no hp (by simp) (by simp) (by simp) (by simp))

theorem Pool.init (C : Config) (h0 : 0 < C.n) : Pool C (init C) := by
  have hc : ∀ w, w < C.n → (Np.init C).pc w = .check := fun w hw => if_pos hw
  refine ⟨fun _ => ⟨?_, fun w hw h => ?_, fun h => ?_, fun w w' hw _ h => ?_, fun w hw => ?_⟩, fun h => ?_, fun _ => ⟨hc, ?_, rfl⟩,
    fun h => ?_, fun w hw => ?_⟩
  · rw [total_const (c := 0) (fun w hw => by rw [hc w hw]; rfl)]
    show (0 : Int) * C.n = (0 : Nat) + (0 : Nat)
    omega
  · rw [hc w hw] at h; cases h
  · exact absurd (show 0 = C.n from h) (by omega)
  · rw [hc w hw] at h; cases h
  · rw [hc w hw]; exact ⟨by simp, by simp, rfl⟩
  · cases h
  · show (if C.n < C.n then Pc.check else if C.n = C.n then Pc.boot else Pc.exited).booting = true
    rw [if_neg (by omega), if_pos rfl]; rfl
  · cases h
  · show (if w < C.n then Pc.check else if w = C.n then Pc.boot else Pc.exited) = _
    rw [if_neg (by omega), if_neg (by omega)]

end ReactorC.Np
