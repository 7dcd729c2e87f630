import Verif.Platform.Sleep

namespace ReactorC.Platform.Sleep

/-- From a property that each step keeps to all states. -/
theorem Reach.ind {P : Platform} {I : St → Prop} (h0 : ∀ now flag sem, I { now := now, on := P.on, flag := flag, sem := sem })
    (hown : ∀ s s', I s → P.own s = some s' → I { s' with steps := if s.events = [] then 0 else s.steps + 1 })
    (htick : ∀ s t, I s → s.now ≤ t → I { s with now := t })
    (hisr : ∀ s, I s → s.on = true → s.result = none → I (P.notify { s with events := s.now :: s.events }))
    (halarm : ∀ s a, I s → s.alarm = some a → s.on = true → a ≤ s.now → I { s with alarm := none, sem := true }) {s : St} (h : Reach P s) : I s := by
  induction h with
  | init now flag sem => exact h0 now flag sem
  | @step s s' a _ e ih =>
    cases a with
    | own =>
      unfold act at e
      cases k : P.own s with
      | none => rw [k] at e; cases e
      | some s1 => rw [k] at e; cases e; exact hown s s1 ih k
    | tick t =>
      unfold act at e
      dsimp only at e
      split at e
      · cases e; exact htick s t ih ‹_›
      · cases e
    | isr =>
      unfold act at e
      dsimp only at e
      split at e
      · rename_i c; cases e; exact hisr s ih c.1 c.2
      · cases e
    | alarm =>
      unfold act at e
      dsimp only at e
      split at e
      · rename_i a k
        split at e
        · rename_i c; cases e; exact halarm s a ih k c.1 c.2
        · cases e
      · cases e

/-! ## Patmos -/

structure BusyInv (w : Int) (s : St) : Prop where
  pc : s.pc ≤ 6
  early : s.pc ≤ 1 → s.events = []
  on : s.on = true ↔ 2 ≤ s.pc ∧ s.pc ≤ 4
  flag : 1 ≤ s.pc → s.pc ≤ 5 → (s.flag = true ↔ s.events ≠ [])
  left : s.pc = 3 → s.left ≤ s.now
  over : 4 ≤ s.pc → s.events = [] → w ≤ s.now
  done : s.pc = 6 ↔ s.result ≠ none
  res : ∀ r, s.result = some r → (r = 0 ∧ s.events = []) ∨ (r = -1 ∧ s.events ≠ [])
  zero : s.events = [] → s.steps = 0
  steps : s.events ≠ [] → s.steps + 2 ≤ s.pc

theorem patmos_inv {w : Int} {s : St} (h : Reach (patmos w) s) : BusyInv w s := by
  refine h.ind (fun now flag sem => ?_) (fun s s' h e => ?_) (fun s t h k => ?_) (fun s h k1 k2 => ?_) (fun s a h k1 k2 k3 => ?_)
  · constructor <;> simp [patmos]
  · obtain ⟨h1, h2, h3, h4, h5, h6, h7, h8, h9, h10⟩ := h
    simp only [patmos, busyOwn] at e
    constructor <;> grind
  · obtain ⟨h1, h2, h3, h4, h5, h6, h7, h8, h9, h10⟩ := h
    constructor <;> grind
  · obtain ⟨h1, h2, h3, h4, h5, h6, h7, h8, h9, h10⟩ := h
    simp only [patmos]
    constructor <;> grind
  · obtain ⟨h1, h2, h3, h4, h5, h6, h7, h8, h9, h10⟩ := h
    constructor <;> grind

/-! ## Arduino -/

/-- Interrupts are disabled while the function waits. -/
theorem arduino_off {w : Int} {s : St} (h : Reach (arduino w) s) : (s.on = false ↔ 2 ≤ s.pc ∧ s.pc ≤ 4) := by
  refine h.ind (I := fun s => (s.on = false ↔ 2 ≤ s.pc ∧ s.pc ≤ 4)) (fun now flag sem => ?_) (fun s s' h e => ?_) (fun s t h k => ?_) (fun s h k1 k2 => ?_)
    (fun s a h k1 k2 k3 => ?_)
  · simp [arduino]
  · simp only [arduino, busyOwn] at e
    grind
  · grind
  · simp only [arduino]; grind
  · grind

/-! ## Zephyr with the timer of the kernel -/

structure KernelInv (w : Int) (s : St) : Prop where
  alarm : s.alarm = none
  pc : s.pc ≤ 8
  early : s.pc ≤ 3 → s.events = []
  on : s.on = true ↔ 4 ≤ s.pc ∧ s.pc ≤ 6
  left : 2 ≤ s.pc → s.pc ≤ 4 → w ≤ s.now + s.left
  until_ : s.pc = 5 → w ≤ s.until_
  reset : s.pc = 3 → s.sem = false
  sem : 4 ≤ s.pc → s.pc ≤ 5 → (s.sem = true ↔ s.events ≠ [])
  timeout : 6 ≤ s.pc → s.pc ≤ 7 → s.res = false → w ≤ s.now ∧ ∀ e ∈ s.events, w ≤ e
  got : 6 ≤ s.pc → s.pc ≤ 7 → s.res = true → s.events ≠ []
  done : s.pc = 8 ↔ s.result ≠ none
  res : ∀ r, s.result = some r → (r = 0 ∧ w ≤ s.now ∧ ∀ e ∈ s.events, w ≤ e) ∨ (r = -1 ∧ s.events ≠ [])
  zero : s.events = [] → s.steps = 0
  steps : s.events ≠ [] → s.steps + 4 ≤ s.pc

theorem kernel_inv {w : Int} {s : St} (h : Reach (zephyrKernel w) s) : KernelInv w s := by
  refine h.ind (fun now flag sem => ?_) (fun s s' h e => ?_) (fun s t h k => ?_) (fun s h k1 k2 => ?_) (fun s a h k1 k2 k3 => ?_)
  · constructor <;> simp [zephyrKernel]
  · obtain ⟨h0, h1, h2, h3, h4, h5, h6, h7, h8, h9, h10, h11, h12, h13⟩ := h
    simp only [zephyrKernel, kernelOwn] at e
    split at e
    all_goals try split at e
    all_goals try split at e
    all_goals first | cases e | skip
    all_goals constructor <;> grind
  · obtain ⟨h0, h1, h2, h3, h4, h5, h6, h7, h8, h9, h10, h11, h12, h13⟩ := h
    constructor <;> grind
  · obtain ⟨h0, h1, h2, h3, h4, h5, h6, h7, h8, h9, h10, h11, h12, h13⟩ := h
    simp only [zephyrKernel]
    constructor <;> grind
  · exact absurd (h.alarm ▸ k1) (by simp)

/-! ## RP2040 -/

structure PicoInv (w q : Int) (s : St) : Prop where
  alarm : s.alarm = none
  pc : s.pc ≤ 6
  early : s.pc ≤ 2 → s.events = []
  on : s.on = true ↔ 3 ≤ s.pc ∧ s.pc ≤ 4
  until_ : 2 ≤ s.pc → s.pc ≤ 5 → s.until_ = q
  reset : 1 ≤ s.pc → s.pc ≤ 2 → s.sem = false
  sem : s.pc = 3 → (s.sem = true ↔ s.events ≠ [])
  timeout : 4 ≤ s.pc → s.pc ≤ 5 → s.res = false → s.until_ ≤ s.now ∧ ∀ e ∈ s.events, s.until_ ≤ e
  got : 4 ≤ s.pc → s.pc ≤ 5 → s.res = true → s.events ≠ []
  done : s.pc = 6 ↔ s.result ≠ none
  res : ∀ r, s.result = some r → (r = 0 ∧ (0 ≤ w → q ≤ s.now) ∧ ∀ e ∈ s.events, q ≤ e) ∨ (r = -1 ∧ s.events ≠ [])
  zero : s.events = [] → s.steps = 0
  steps : s.events ≠ [] → s.steps + 3 ≤ s.pc

theorem pico_inv {w : Int} {s : St} (h : Reach (rp2040 w) s) : PicoInv w (w / 1000 * 1000) s := by
  refine h.ind (I := PicoInv w (w / 1000 * 1000)) (fun now flag sem => ?_) (fun s s' h e => ?_) (fun s t h k => ?_) (fun s h k1 k2 => ?_) (fun s a h k1 k2 k3 => ?_)
  · constructor <;> simp [rp2040]
  · simp only [rp2040, picoOwn] at e
    generalize w / 1000 * 1000 = q at *
    obtain ⟨h0, h1, h2, h3, h4, h5, h6, h7, h8, h9, h10, h11, h12⟩ := h
    split at e
    all_goals try split at e
    all_goals try split at e
    all_goals first | cases e | skip
    all_goals constructor <;> grind
  · generalize w / 1000 * 1000 = q at *
    obtain ⟨h0, h1, h2, h3, h4, h5, h6, h7, h8, h9, h10, h11, h12⟩ := h
    constructor <;> grind
  · generalize w / 1000 * 1000 = q at *
    obtain ⟨h0, h1, h2, h3, h4, h5, h6, h7, h8, h9, h10, h11, h12⟩ := h
    simp only [rp2040]
    constructor <;> grind
  · exact absurd (h.alarm ▸ k1) (by simp)

/-! ## Zephyr with a counter -/

theorem lt_tdiv (x : Int) : x < 1000 * x.tdiv 1000 + 1000 := by
  have := Int.lt_tdiv_add_one_mul_self x (b := 1000) (by decide)
  omega

/-- How far the function is when something has been scheduled. -/
def counterRank (pc : Nat) : Nat := if pc = 5 then 0 else if pc = 6 then 1 else if pc = 7 then 2 else if pc = 2 then 3 else if pc = 8 then 4 else if pc = 10 then 5 else 6

structure CounterInv (b : Board) (w : Int) (s : St) : Prop where
  pc : s.pc ≤ 11
  early : s.pc ≤ 1 ∨ s.pc = 3 ∨ s.pc = 4 ∨ s.pc = 9 → s.events = []
  on : s.on = true ↔ 5 ≤ s.pc ∧ s.pc ≤ 6
  flag : 1 ≤ s.pc → s.pc ≤ 10 → (s.flag = true ↔ s.events ≠ [])
  sem : s.pc = 5 → s.events ≠ [] → s.sem = true
  left : s.pc = 2 ∨ s.pc = 8 → s.events = [] → w < s.now + (1000 * s.left + 1000)
  until_ : s.pc = 9 → w < s.until_ + (1000 * b.runtime + 1000)
  over : 10 ≤ s.pc → s.events = [] → w < s.now + (1000 * b.runtime + 1000)
  done : s.pc = 11 ↔ s.result ≠ none
  res : ∀ r, s.result = some r → (r = 0 ∧ s.events = []) ∨ (r = -1 ∧ s.events ≠ [])
  zero : s.events = [] → s.steps = 0
  steps : s.events ≠ [] → s.steps ≤ counterRank s.pc

theorem counter_inv {b : Board} {w : Int} {s : St} (h : Reach (zephyrCounter b w) s) : CounterInv b w s := by
  refine h.ind (fun now flag sem => ?_) (fun s s' h e => ?_) (fun s t h k => ?_) (fun s h k1 k2 => ?_) (fun s a h k1 k2 k3 => ?_)
  · constructor <;> simp [zephyrCounter]
  · obtain ⟨h1, h2, h3, h4, h5, h6, h7, h8, h9, h10, h11, h12⟩ := h
    have hd := lt_tdiv (w - s.now)
    simp only [zephyrCounter, counterOwn] at e
    generalize (w - s.now).tdiv 1000 = d at *
    split at e
    all_goals try split at e
    all_goals first | cases e | skip
    all_goals constructor <;> grind [counterRank]
  · obtain ⟨h1, h2, h3, h4, h5, h6, h7, h8, h9, h10, h11, h12⟩ := h
    constructor <;> grind [counterRank]
  · obtain ⟨h1, h2, h3, h4, h5, h6, h7, h8, h9, h10, h11, h12⟩ := h
    simp only [zephyrCounter]
    constructor <;> grind [counterRank]
  · obtain ⟨h1, h2, h3, h4, h5, h6, h7, h8, h9, h10, h11, h12⟩ := h
    constructor <;> grind [counterRank]

/-! ## nRF52 -/

structure NrfInv (w : Int) (s : Nrf) : Prop where
  pc : s.pc ≤ 9
  early : s.pc ≤ 3 ∨ s.pc = 8 → s.events = []
  on : s.on = true ↔ 4 ≤ s.pc ∧ s.pc ≤ 5
  flag : 1 ≤ s.pc → s.pc ≤ 7 → (s.flag = true ↔ s.events ≠ [])
  wake : s.pc = 4 → s.events ≠ [] → s.wake = true
  pos : 1 ≤ s.pc → s.pc ≤ 7 → 0 ≤ w
  next_ : s.pc = 1 ∨ s.pc = 2 → s.asleep = false → s.next_ = true
  two : s.pc = 2 → s.asleep = false ∧ s.curr ≤ s.n ∧ w ≤ s.curr * 1000 + s.duration
  ready : 1 ≤ s.pc → s.pc ≤ 6 → s.next_ = true → s.asleep = false → w ≤ s.n * 1000 + s.duration
  long : 1 ≤ s.pc → s.pc ≤ 6 → s.next_ = true → s.asleep = true → (∃ c, s.cmp = some c ∧ ∀ m : Nat, s.n < m → m % 4294967296 = c → w ≤ m * 1000 + s.duration) ∧
    (s.due = true → w ≤ s.n * 1000 + s.duration)
  short : 1 ≤ s.pc → s.pc ≤ 6 → s.next_ = false → s.asleep = true → (∃ c, s.cmp = some c ∧ ∀ m : Nat, s.n < m → m % 4294967296 = c → w < m * 1000 + 1000) ∧
    (s.due = true → w < s.n * 1000 + 1000)
  slept : 1 ≤ s.pc → s.pc ≤ 6 → s.next_ = false → s.asleep = false → w < s.n * 1000 + 1000
  over : s.pc = 7 → s.flag = false → w < s.n * 1000 + 1000
  done : s.pc = 9 ↔ s.result ≠ none
  res : ∀ r, s.result = some r → (r = 0 ∧ s.events = [] ∧ w < s.n * 1000 + 1000) ∨ (r = -1 ∧ s.events ≠ [])
  zero : s.events = [] → s.steps = 0
  steps : s.events ≠ [] → 4 ≤ s.pc ∧ s.steps ≤ 4 ∧ (s.pc ≤ 7 → s.steps + 4 ≤ s.pc)

theorem set_long {w d : Int} {curr n : Nat} (h : curr ≤ n) (hw : w ≤ curr * 1000 + d) (m : Nat) (hm : n < m) (e : m % 4294967296 = (curr + 4294967295) % 4294967296) :
    w ≤ m * 1000 + (d - 4294967295 * 1000) := by omega

theorem set_short {w d : Int} {curr n : Nat} (h : curr ≤ n) (h0 : 0 ≤ w) (hw : w ≤ curr * 1000 + d) (hd : d ≤ 4294967295 * 1000) (m : Nat) (hm : n < m)
    (e : m % 4294967296 = (w / 1000).toNat % 4294967296) : w < m * 1000 + 1000 := by omega

set_option maxHeartbeats 3000000 in
theorem nrf_own {w : Int} {s s' : Nrf} (h : NrfInv w s) (e : nrfOwn w s = some s') : NrfInv w { s' with steps := if s.events = [] then 0 else s.steps + 1 } := by
  have hl := @set_long w s.duration s.curr s.n
  have hs := @set_short w s.duration s.curr s.n
  obtain ⟨h1, h2, h3, h4, h5, h6, h7, h8, h9, h10, h11, h12, h13, h14, h15, h16, h17⟩ := h
  simp only [nrfOwn] at e
  split at e
  all_goals try split at e
  all_goals try split at e
  all_goals first | cases e | skip
  all_goals constructor <;> grind

theorem nrf_inv {w : Int} {s : Nrf} (h : NrfReach w s) : NrfInv w s := by
  induction h with
  | init n flag asleep wake due cmp => constructor <;> simp
  | step _ st h =>
    cases st with
    | own e => exact nrf_own h e
    | tick k hk =>
      obtain ⟨h1, h2, h3, h4, h5, h6, h7, h8, h9, h10, h11, h12, h13, h14, h15, h16, h17⟩ := h
      constructor <;> grind
    | hit k hc hh =>
      obtain ⟨m, m1, m2, m3⟩ := hh
      obtain ⟨h1, h2, h3, h4, h5, h6, h7, h8, h9, h10, h11, h12, h13, h14, h15, h16, h17⟩ := h
      constructor <;> grind
    | isr k1 k2 =>
      obtain ⟨h1, h2, h3, h4, h5, h6, h7, h8, h9, h10, h11, h12, h13, h14, h15, h16, h17⟩ := h
      constructor <;> grind
    | timer k1 k2 =>
      obtain ⟨h1, h2, h3, h4, h5, h6, h7, h8, h9, h10, h11, h12, h13, h14, h15, h16, h17⟩ := h
      constructor <;> grind
    | other k1 =>
      obtain ⟨h1, h2, h3, h4, h5, h6, h7, h8, h9, h10, h11, h12, h13, h14, h15, h16, h17⟩ := h
      constructor <;> grind

end ReactorC.Platform.Sleep
