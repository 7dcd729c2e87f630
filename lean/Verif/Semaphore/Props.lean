import Verif.Semaphore.Model
import Mathlib.Tactic.Common

/-! # C48: the counting semaphore -/

namespace ReactorC.Semaphore

/-! ## Accounting helpers -/

/-- Units already added by a release that has not returned. -/
def added : Pc → Nat
  | .bcast i => i
  | .leave (.release i) => i
  | _ => 0

/-- Units already taken by an acquire that has not returned. -/
def taken : Pc → Nat
  | .leave .acquire => 1
  | _ => 0

/-- Units of a release in progress. -/
def inflight : Pc → Nat
  | .enter (.release i) => i
  | .body (.release i) => i
  | .asleep (.release i) => i
  | .bcast i => i
  | .leave (.release i) => i
  | _ => 0

/-- The thread is between lock and unlock. -/
def Inside : Pc → Prop
  | .body _ => True
  | .bcast _ => True
  | .dec => True
  | .leave _ => True
  | _ => False

def tot (f : Pc → Nat) (l : List Pc) : Nat := (l.map f).sum

theorem tot_set (f : Pc → Nat) (q : Pc) : ∀ (l : List Pc) (t : Nat) (p : Pc), l[t]? = some p →
    tot f (l.set t q) + f p = tot f l + f q
  | [], t, p, h => by simp at h
  | a :: l, 0, p, h => by
    simp at h; subst h; simp [tot]; omega
  | a :: l, t + 1, p, h => by
    simp at h
    have := tot_set f q l t p h
    simp [tot] at this ⊢; omega

theorem tot_wake (f : Pc → Nat) (hf : ∀ p, f (wake p) = f p) (l : List Pc) : tot f (l.map wake) = tot f l := by
  simp [tot, Function.comp_def, hf]

theorem tot_le (f g : Pc → Nat) (h : ∀ p, f p ≤ g p) : ∀ l : List Pc, tot f l ≤ tot g l
  | [] => by simp [tot]
  | a :: l => by
    have := tot_le f g h l
    have := h a
    simp [tot] at *; omega

theorem tot_replicate (f : Pc → Nat) (h : f .idle = 0) (n : Nat) : tot f (List.replicate n .idle) = 0 := by
  simp [tot, h]

theorem added_wake (p : Pc) : added (wake p) = added p := by cases p <;> rfl
theorem taken_wake (p : Pc) : taken (wake p) = taken p := by cases p <;> rfl
theorem inflight_wake (p : Pc) : inflight (wake p) = inflight p := by
  cases p with
  | asleep op => cases op <;> rfl
  | _ => rfl
theorem added_le (p : Pc) : added p ≤ inflight p := by
  cases p with
  | leave op => cases op <;> simp [added, inflight]
  | _ => simp [added, inflight]

structure Inv (c : Nat) (s : State) : Prop where
  /-- the mutex is held by the thread that is inside -/
  mutex : ∀ t p, s.threads[t]? = some p → Inside p → s.owner = some t
  holder : ∀ t, s.owner = some t → ∃ p, s.threads[t]? = some p ∧ Inside p
  dec : ∀ t : Nat, s.threads[t]? = some Pc.dec → s.count ≠ 0
  wakeup : (∃ (t : Nat) (op : Op), s.threads[t]? = some (Pc.asleep op)) →
    s.count = 0 ∨ ∃ t i : Nat, s.threads[t]? = some (Pc.bcast i)
  sleepers : ∀ (t : Nat) (op : Op), s.threads[t]? = some (Pc.asleep op) → op = .acquire ∨ op = .wait
  balance : s.count + acquires s.returned + tot taken s.threads = c + units s.returned + tot added s.threads
  begun : units s.called = units s.returned + tot inflight s.threads

theorem inv_new (c n : Nat) : Inv c (new c n) := by
  have hget : ∀ (t : Nat) (p : Pc), (List.replicate n Pc.idle)[t]? = some p → p = Pc.idle := by
    intro t p h
    rw [List.getElem?_replicate] at h
    split at h
    · simpa using h.symm
    · simp at h
  refine ⟨?_, ?_, ?_, ?_, ?_, ?_, ?_⟩
  · intro t p h hi; rw [hget t p h] at hi; exact hi.elim
  · intro t h; simp [new] at h
  · intro t h; simpa using hget t _ h
  · rintro ⟨t, op, h⟩; simpa using hget t _ h
  · intro t op h; simpa using hget t _ h
  · simp [new, tot_replicate taken rfl, tot_replicate added rfl, acquires, units]
  · simp [new, tot_replicate inflight rfl, units]

theorem set_get {l : List Pc} {t : Nat} {p : Pc} (h : l[t]? = some p) (q : Pc) (u : Nat) :
    (l.set t q)[u]? = if u = t then some q else l[u]? := by
  have hlt : t < l.length := by rw [List.getElem?_eq_some_iff] at h; exact h.1
  by_cases hu : u = t
  · rw [hu]; simp [hlt]
  · rw [if_neg hu, List.getElem?_set_ne (Ne.symm hu)]

/-- A step of thread `t` from `p` to `q` which leaves the other threads as they are. -/
theorem inv_set {c : Nat} {s : State} (h : Inv c s) {t : Nat} {p q : Pc} (hp : s.threads[t]? = some p)
    (count' : Nat) (owner' : Option Nat) (called' returned' : List Op)
    (hq : Inside q → owner' = some t)
    (hmx : (Inside p ∨ s.owner = none) ∨ owner' = s.owner)
    (hho : (owner' = none) ∨ (owner' = some t ∧ Inside q) ∨ (owner' = s.owner ∧ (Inside p → Inside q)))
    (hdec : (q = .dec → count' ≠ 0))
    (hcnt : count' = s.count ∨ Inside p)
    (hwk : (count' = 0) ∨ ((∃ i, q = .bcast i)) ∨ (count' = s.count ∧ (∀ i, p ≠ .bcast i) ∧ (∀ op, q ≠ .asleep op)))
    (hsl : ∀ op, q = .asleep op → op = .acquire ∨ op = .wait)
    (hbal : count' + acquires returned' + taken q + s.count + acquires s.returned + taken p +
        (units s.returned + added p) + (units s.returned + added p) =
      s.count + acquires s.returned + taken p + s.count + acquires s.returned + taken p +
        (units returned' + added q) + (units s.returned + added p))
    (hbeg : units called' + units s.returned + inflight p = units s.called + units returned' + inflight q) :
    Inv c { count := count', owner := owner', threads := s.threads.set t q, called := called', returned := returned' } := by
  have hg := set_get hp q
  refine ⟨?_, ?_, ?_, ?_, ?_, ?_, ?_⟩
  · intro u r
    show (s.threads.set t q)[u]? = _ → _
    rw [hg]
    by_cases hu : u = t
    · rw [if_pos hu, hu]; intro hr hi; simp at hr; subst hr; exact hq hi
    · rw [if_neg hu]; intro hr hi
      have h1 := h.mutex u r hr hi
      rcases hmx with (hmx | hmx) | hmx
      · have h2 := h.mutex t p hp hmx
        rw [h1] at h2; simp at h2; exact absurd h2 hu
      · rw [h1] at hmx; simp at hmx
      · exact hmx.trans h1
  · intro u hu
    change owner' = some u at hu
    show ∃ r, (s.threads.set t q)[u]? = some r ∧ _
    rw [hg]
    rcases hho with hho | ⟨hho, hi⟩ | ⟨hho, hi⟩
    · rw [hho] at hu; simp at hu
    · rw [hho] at hu; simp at hu; rw [if_pos hu.symm]; exact ⟨q, rfl, hi⟩
    · rw [hho] at hu
      obtain ⟨r, hr, hir⟩ := h.holder u hu
      by_cases hut : u = t
      · subst hut
        rw [hp] at hr; simp at hr; subst hr
        rw [if_pos rfl]; exact ⟨q, rfl, hi hir⟩
      · rw [if_neg hut]; exact ⟨r, hr, hir⟩
  · intro u
    show (s.threads.set t q)[u]? = _ → _
    rw [hg]
    by_cases hu : u = t
    · rw [if_pos hu]; intro hr; simp at hr; exact hdec hr
    · rw [if_neg hu]; intro hr
      have h1 := h.dec u hr
      rcases hcnt with hcnt | hcnt
      · show count' ≠ 0
        rw [hcnt]; exact h1
      · have h2 := h.mutex u _ hr trivial
        have h3 := h.mutex t p hp hcnt
        rw [h2] at h3; simp at h3; exact absurd h3 hu
  · rintro ⟨u, op, hu⟩
    show count' = 0 ∨ ∃ v i, (s.threads.set t q)[v]? = _
    rcases hwk with hwk | ⟨i, hwk⟩ | ⟨hwk, h1, h2⟩
    · exact Or.inl hwk
    · exact Or.inr ⟨t, i, by rw [hg, if_pos rfl, hwk]⟩
    · change (s.threads.set t q)[u]? = _ at hu
      rw [hg] at hu
      by_cases hut : u = t
      · rw [if_pos hut] at hu; simp at hu; exact absurd hu (h2 op)
      · rw [if_neg hut] at hu
        rcases h.wakeup ⟨u, op, hu⟩ with h3 | ⟨v, i, h3⟩
        · left; rw [hwk]; exact h3
        · right
          refine ⟨v, i, ?_⟩
          have : v ≠ t := by
            rintro rfl; rw [hp] at h3; simp at h3; exact h1 i h3
          rw [hg, if_neg this]; exact h3
  · intro u op
    show (s.threads.set t q)[u]? = _ → _
    rw [hg]
    by_cases hu : u = t
    · rw [if_pos hu]; intro hr; simp at hr; exact hsl op hr
    · rw [if_neg hu]; exact h.sleepers u op
  · have h1 := tot_set taken q s.threads t p hp
    have h2 := tot_set added q s.threads t p hp
    have h3 := h.balance
    show count' + acquires returned' + tot taken (s.threads.set t q) = c + units returned' + tot added (s.threads.set t q)
    omega
  · have h1 := tot_set inflight q s.threads t p hp
    have h3 := h.begun
    show units called' = units returned' + tot inflight (s.threads.set t q)
    omega

theorem inv_wake {c : Nat} {s : State} (h : Inv c s) (hb : ∃ t i : Nat, s.threads[t]? = some (Pc.bcast i)) :
    Inv c { s with threads := s.threads.map wake } := by
  have hg : ∀ (u : Nat) (q : Pc), (s.threads.map wake)[u]? = some q → ∃ p, s.threads[u]? = some p ∧ wake p = q := by
    intro u q hu
    rw [List.getElem?_map] at hu
    cases hq : s.threads[u]? with
    | none => rw [hq] at hu; simp at hu
    | some p => rw [hq] at hu; simp at hu; exact ⟨p, rfl, hu⟩
  have hin : ∀ p, Inside (wake p) ↔ Inside p := by intro p; cases p <;> simp [wake, Inside]
  refine ⟨?_, ?_, ?_, ?_, ?_, ?_, ?_⟩
  · intro u q hu hi
    obtain ⟨p, hp, rfl⟩ := hg u q hu
    exact h.mutex u p hp ((hin p).1 hi)
  · intro u hu
    obtain ⟨p, hp, hi⟩ := h.holder u hu
    exact ⟨wake p, by simp [hp], (hin p).2 hi⟩
  · intro u hu
    obtain ⟨p, hp, hw⟩ := hg u _ hu
    cases p <;> simp [wake] at hw
    exact h.dec u hp
  · rintro ⟨u, op, hu⟩
    obtain ⟨p, hp, hw⟩ := hg u _ hu
    cases p <;> simp [wake] at hw
  · intro u op hu
    obtain ⟨p, hp, hw⟩ := hg u _ hu
    cases p <;> simp [wake] at hw
  · show s.count + acquires s.returned + tot taken (s.threads.map wake) = c + units s.returned + tot added (s.threads.map wake)
    rw [tot_wake _ taken_wake, tot_wake _ added_wake]; exact h.balance
  · show units s.called = units s.returned + tot inflight (s.threads.map wake)
    rw [tot_wake _ inflight_wake]; exact h.begun

theorem step_inv {c : Nat} {s s' : State} (h : Inv c s) (hst : Step s s') : Inv c s' := by
  cases hst with
  | call t op hp =>
    refine inv_set h hp s.count s.owner (op :: s.called) s.returned ?_ ?_ ?_ ?_ ?_ ?_ ?_ ?_ ?_
    · simp [Inside]
    · exact Or.inr rfl
    · exact Or.inr (Or.inr ⟨rfl, by simp [Inside]⟩)
    · simp
    · exact Or.inl rfl
    · exact Or.inr (Or.inr ⟨rfl, by simp, by simp⟩)
    · simp
    · simp [taken, added]
    · cases op <;> simp [units, inflight]; omega
  | lock t op hp ho =>
    refine inv_set h hp s.count (some t) s.called s.returned ?_ ?_ ?_ ?_ ?_ ?_ ?_ ?_ ?_
    · simp
    · exact Or.inl (Or.inr ho)
    · exact Or.inr (Or.inl ⟨rfl, trivial⟩)
    · simp
    · exact Or.inl rfl
    · exact Or.inr (Or.inr ⟨rfl, by simp, by simp⟩)
    · simp
    · cases op <;> simp [taken, added]
    · cases op <;> simp [inflight]
  | add t i hp =>
    refine inv_set h hp (s.count + i) s.owner s.called s.returned ?_ ?_ ?_ ?_ ?_ ?_ ?_ ?_ ?_
    · intro _; exact h.mutex t _ hp trivial
    · exact Or.inr rfl
    · exact Or.inr (Or.inr ⟨rfl, by simp [Inside]⟩)
    · simp
    · exact Or.inr trivial
    · exact Or.inr (Or.inl ⟨i, rfl⟩)
    · simp
    · simp [taken, added]; omega
    · simp [inflight]
  | bcast t i hp =>
    have h' := inv_wake h ⟨t, i, hp⟩
    have hp' : ({ s with threads := s.threads.map wake } : State).threads[t]? = some (.bcast i) := by
      show (s.threads.map wake)[t]? = _
      rw [List.getElem?_map, hp]; rfl
    have hno : ∀ (u : Nat) (op : Op), (s.threads.map wake)[u]? ≠ some (Pc.asleep op) := by
      intro u op hu
      rw [List.getElem?_map] at hu
      cases hq : s.threads[u]? with
      | none => rw [hq] at hu; simp at hu
      | some p => rw [hq] at hu; cases p <;> simp [wake] at hu
    have hI := h'.mutex t _ hp' trivial
    have hg := set_get hp' (.leave (.release i))
    refine ⟨?_, ?_, ?_, ?_, ?_, ?_, ?_⟩
    · intro u r hr hi
      change ((s.threads.map wake).set t _)[u]? = _ at hr
      rw [hg] at hr
      by_cases hu : u = t
      · rw [hu]; exact hI
      · rw [if_neg hu] at hr; exact h'.mutex u r hr hi
    · intro u hu
      show ∃ r, ((s.threads.map wake).set t _)[u]? = some r ∧ _
      rw [hg]
      obtain ⟨r, hr, hi⟩ := h'.holder u hu
      by_cases hut : u = t
      · rw [if_pos hut]; exact ⟨_, rfl, trivial⟩
      · rw [if_neg hut]; exact ⟨r, hr, hi⟩
    · intro u hu
      change ((s.threads.map wake).set t _)[u]? = _ at hu
      rw [hg] at hu
      by_cases hut : u = t
      · rw [if_pos hut] at hu; simp at hu
      · rw [if_neg hut] at hu; exact h'.dec u hu
    · rintro ⟨u, op, hu⟩
      change ((s.threads.map wake).set t _)[u]? = _ at hu
      rw [hg] at hu
      by_cases hut : u = t
      · rw [if_pos hut] at hu; simp at hu
      · rw [if_neg hut] at hu; exact absurd hu (hno u op)
    · intro u op hu
      change ((s.threads.map wake).set t _)[u]? = _ at hu
      rw [hg] at hu
      by_cases hut : u = t
      · rw [if_pos hut] at hu; simp at hu
      · rw [if_neg hut] at hu; exact absurd hu (hno u op)
    · have h1 := tot_set taken (.leave (.release i)) (s.threads.map wake) t _ hp'
      have h2 := tot_set added (.leave (.release i)) (s.threads.map wake) t _ hp'
      have h3 := h'.balance
      simp only [taken, added] at h1 h2 h3 ⊢
      omega
    · have h1 := tot_set inflight (.leave (.release i)) (s.threads.map wake) t _ hp'
      have h3 := h'.begun
      simp only [inflight] at h1 h3 ⊢
      omega
  | sleep t op hp hop h0 =>
    refine inv_set h hp s.count none s.called s.returned ?_ ?_ ?_ ?_ ?_ ?_ ?_ ?_ ?_
    · simp [Inside]
    · exact Or.inl (Or.inl trivial)
    · exact Or.inl rfl
    · simp
    · exact Or.inl rfl
    · exact Or.inl h0
    · intro o ho; simp at ho; rwa [← ho]
    · rcases hop with rfl | rfl <;> simp [taken, added]
    · rcases hop with rfl | rfl <;> simp [inflight]
  | pass t hp h0 =>
    refine inv_set h hp s.count s.owner s.called s.returned ?_ ?_ ?_ ?_ ?_ ?_ ?_ ?_ ?_
    · intro _; exact h.mutex t _ hp trivial
    · exact Or.inr rfl
    · exact Or.inr (Or.inr ⟨rfl, by simp [Inside]⟩)
    · intro _; exact h0
    · exact Or.inl rfl
    · exact Or.inr (Or.inr ⟨rfl, by simp, by simp⟩)
    · simp
    · simp [taken, added]
    · simp [inflight]
  | dec t hp =>
    have h0 := h.dec t hp
    have hw : s.count - 1 = 0 ∨ ¬ ∃ (t : Nat) (op : Op), s.threads[t]? = some (Pc.asleep op) := by
      by_cases hs : ∃ (t : Nat) (op : Op), s.threads[t]? = some (Pc.asleep op)
      · rcases h.wakeup hs with h1 | ⟨u, i, h1⟩
        · exact absurd h1 h0
        · have h2 := h.mutex u _ h1 trivial
          have h3 := h.mutex t _ hp trivial
          rw [h2] at h3; simp at h3; subst h3
          rw [hp] at h1; simp at h1
      · exact Or.inr hs
    rcases hw with hw | hw
    · refine inv_set h hp (s.count - 1) s.owner s.called s.returned ?_ ?_ ?_ ?_ ?_ ?_ ?_ ?_ ?_
      · intro _; exact h.mutex t _ hp trivial
      · exact Or.inr rfl
      · exact Or.inr (Or.inr ⟨rfl, by simp [Inside]⟩)
      · simp
      · exact Or.inr trivial
      · exact Or.inl hw
      · simp
      · simp [taken, added]; omega
      · simp [inflight]
    · have hI := h.mutex t _ hp trivial
      have hg := set_get hp (.leave .acquire)
      refine ⟨?_, ?_, ?_, ?_, ?_, ?_, ?_⟩
      · intro u r hr hi
        change (s.threads.set t _)[u]? = _ at hr
        rw [hg] at hr
        by_cases hu : u = t
        · rw [hu]; exact hI
        · rw [if_neg hu] at hr; exact h.mutex u r hr hi
      · intro u hu
        show ∃ r, (s.threads.set t _)[u]? = some r ∧ _
        rw [hg]
        obtain ⟨r, hr, hi⟩ := h.holder u hu
        by_cases hut : u = t
        · rw [if_pos hut]; exact ⟨_, rfl, trivial⟩
        · rw [if_neg hut]; exact ⟨r, hr, hi⟩
      · intro u hu
        change (s.threads.set t _)[u]? = _ at hu
        rw [hg] at hu
        by_cases hut : u = t
        · rw [if_pos hut] at hu; simp at hu
        · rw [if_neg hut] at hu
          have := h.mutex u _ hu trivial
          rw [hI] at this; simp at this; exact absurd this.symm hut
      · rintro ⟨u, op, hu⟩
        change (s.threads.set t _)[u]? = _ at hu
        rw [hg] at hu
        by_cases hut : u = t
        · rw [if_pos hut] at hu; simp at hu
        · rw [if_neg hut] at hu; exact absurd ⟨u, op, hu⟩ hw
      · intro u op hu
        change (s.threads.set t _)[u]? = _ at hu
        rw [hg] at hu
        by_cases hut : u = t
        · rw [if_pos hut] at hu; simp at hu
        · rw [if_neg hut] at hu; exact h.sleepers u op hu
      · have h1 := tot_set taken (.leave .acquire) s.threads t _ hp
        have h2 := tot_set added (.leave .acquire) s.threads t _ hp
        have h3 := h.balance
        simp only [taken, added] at h1 h2 h3 ⊢
        omega
      · have h1 := tot_set inflight (.leave .acquire) s.threads t _ hp
        have h3 := h.begun
        simp only [inflight] at h1 h3 ⊢
        omega
  | passWait t hp h0 =>
    refine inv_set h hp s.count s.owner s.called s.returned ?_ ?_ ?_ ?_ ?_ ?_ ?_ ?_ ?_
    · intro _; exact h.mutex t _ hp trivial
    · exact Or.inr rfl
    · exact Or.inr (Or.inr ⟨rfl, by simp [Inside]⟩)
    · simp
    · exact Or.inl rfl
    · exact Or.inr (Or.inr ⟨rfl, by simp, by simp⟩)
    · simp
    · simp [taken, added]
    · simp [inflight]
  | leave t op hp =>
    refine inv_set h hp s.count none s.called (op :: s.returned) ?_ ?_ ?_ ?_ ?_ ?_ ?_ ?_ ?_
    · simp [Inside]
    · exact Or.inl (Or.inl trivial)
    · exact Or.inl rfl
    · simp
    · exact Or.inl rfl
    · exact Or.inr (Or.inr ⟨rfl, by simp, by simp⟩)
    · simp
    · cases op <;> simp [taken, added, units, acquires] <;> omega
    · cases op <;> simp [inflight, units]; omega
  | spurious t op hp =>
    refine inv_set h hp s.count s.owner s.called s.returned ?_ ?_ ?_ ?_ ?_ ?_ ?_ ?_ ?_
    · simp [Inside]
    · exact Or.inr rfl
    · exact Or.inr (Or.inr ⟨rfl, by simp [Inside]⟩)
    · simp
    · exact Or.inl rfl
    · exact Or.inr (Or.inr ⟨rfl, by simp, by simp⟩)
    · simp
    · simp [taken, added]
    · cases op <;> simp [inflight]

theorem reach_inv {c n : Nat} {s : State} (h : Reach c n s) : Inv c s := by
  induction h with
  | new => exact inv_new c n
  | step _ hst ih => exact step_inv ih hst

/-! ## The properties -/

/-- **C48** For any number of threads and any interleaving: the acquires that have returned are at most the
initial count plus the units of the releases called so far. -/
theorem C48_acquires_bounded {c n : Nat} {s : State} (h : Reach c n s) :
    acquires s.returned ≤ c + units s.called := by
  have h1 := (reach_inv h).balance
  have h2 := (reach_inv h).begun
  have h3 := tot_le added inflight added_le s.threads
  omega

/-- **C48** When no call is in progress, the count is the initial count plus the units released minus the number
of acquires, exactly. -/
theorem C48_count_exact {c n : Nat} {s : State} (h : Reach c n s) (hq : ∀ p ∈ s.threads, p = .idle) :
    s.count + acquires s.returned = c + units s.returned := by
  have h1 := (reach_inv h).balance
  have hz : ∀ f : Pc → Nat, f .idle = 0 → tot f s.threads = 0 := by
    intro f hf
    have : s.threads = List.replicate s.threads.length .idle := List.eq_replicate_iff.2 ⟨rfl, hq⟩
    rw [this]; exact tot_replicate f hf _
  rw [hz _ rfl, hz _ rfl] at h1
  omega

/-- **C48** The count is never decremented when it is zero (on `size_t` it would wrap around). -/
theorem C48_never_negative {c n : Nat} {s : State} (h : Reach c n s) (t : Nat) (hd : s.threads[t]? = some .dec) :
    0 < s.count := Nat.pos_of_ne_zero ((reach_inv h).dec t hd)

/-- **C48** No wakeup is lost: when the mutex is free and the count is positive, no thread is blocked on the
condition. -/
theorem C48_no_lost_wakeup {c n : Nat} {s : State} (h : Reach c n s) (hm : s.owner = none) (hc : 0 < s.count)
    (t : Nat) (op : Op) : s.threads[t]? ≠ some (.asleep op) := by
  intro ha
  rcases (reach_inv h).wakeup ⟨t, op, ha⟩ with h1 | ⟨u, i, h1⟩
  · omega
  · have := (reach_inv h).mutex u _ h1 trivial
    rw [hm] at this; simp at this

/-- A number of steps. -/
inductive Steps : State → State → Prop
  | refl (s) : Steps s s
  | tail {s t u} : Steps s t → Step t u → Steps s u

/-- **C48** A thread that is in an acquire when the mutex is free and the count positive can return, whatever the
other threads are doing, and takes exactly one unit. -/
theorem C48_acquire_proceeds {c n : Nat} {s : State} (h : Reach c n s) (hm : s.owner = none) (hc : 0 < s.count)
    (t : Nat) (ht : s.threads[t]? = some (.enter .acquire) ∨ s.threads[t]? = some (.asleep .acquire)) :
    ∃ s', Steps s s' ∧ s'.returned = .acquire :: s.returned ∧ s'.count + 1 = s.count ∧ s'.owner = none ∧
      s'.threads[t]? = some .idle := by
  rcases ht with ht | ht
  · have hlt : t < s.threads.length := by rw [List.getElem?_eq_some_iff] at ht; exact ht.1
    let s1 : State := { s with threads := s.threads.set t (.body .acquire), owner := some t }
    let s2 : State := { s1 with threads := s1.threads.set t .dec }
    let s3 : State := { s2 with threads := s2.threads.set t (.leave .acquire), count := s2.count - 1 }
    let s4 : State := { s3 with threads := s3.threads.set t .idle, owner := none, returned := .acquire :: s3.returned }
    refine ⟨s4, ?_, rfl, ?_, rfl, ?_⟩
    · have e1 : Step s s1 := Step.lock s t _ ht hm
      have e2 : Step s1 s2 := Step.pass s1 t (by simp [s1, hlt]) (by simp [s1]; omega)
      have e3 : Step s2 s3 := Step.dec s2 t (by simp [s2, s1, hlt])
      have e4 : Step s3 s4 := Step.leave s3 t _ (by simp [s3, s2, s1, hlt])
      exact ((((Steps.refl s).tail e1).tail e2).tail e3).tail e4
    · simp [s4, s3, s2, s1]; omega
    · simp [s4, s3, s2, s1, hlt]
  · exact absurd ht (C48_no_lost_wakeup h hm hc t _)

/-- **C48** The same for `lf_semaphore_wait`, which takes nothing. -/
theorem C48_wait_proceeds {c n : Nat} {s : State} (h : Reach c n s) (hm : s.owner = none) (hc : 0 < s.count)
    (t : Nat) (ht : s.threads[t]? = some (.enter .wait) ∨ s.threads[t]? = some (.asleep .wait)) :
    ∃ s', Steps s s' ∧ s'.returned = .wait :: s.returned ∧ s'.count = s.count ∧ s'.owner = none ∧
      s'.threads[t]? = some .idle := by
  rcases ht with ht | ht
  · have hlt : t < s.threads.length := by rw [List.getElem?_eq_some_iff] at ht; exact ht.1
    let s1 : State := { s with threads := s.threads.set t (.body .wait), owner := some t }
    let s2 : State := { s1 with threads := s1.threads.set t (.leave .wait) }
    let s4 : State := { s2 with threads := s2.threads.set t .idle, owner := none, returned := .wait :: s2.returned }
    refine ⟨s4, ?_, rfl, rfl, rfl, ?_⟩
    · have e1 : Step s s1 := Step.lock s t _ ht hm
      have e2 : Step s1 s2 := Step.passWait s1 t (by simp [s1, hlt]) (by simp [s1]; omega)
      have e3 : Step s2 s4 := Step.leave s2 t _ (by simp [s2, s1, hlt])
      exact (((Steps.refl s).tail e1).tail e2).tail e3
    · simp [s4, s2, s1, hlt]
  · exact absurd ht (C48_no_lost_wakeup h hm hc t _)

/-- **C48** The mutex does not stay taken: the thread that holds it can always go on, without help, until it lets
it go. -/
theorem C48_mutex_released {c n : Nat} {s : State} (h : Reach c n s) (t : Nat) (ho : s.owner = some t) :
    ∃ s', Steps s s' ∧ s'.owner = none := by
  obtain ⟨p, hp, hi⟩ := (reach_inv h).holder t ho
  have hlt : t < s.threads.length := by rw [List.getElem?_eq_some_iff] at hp; exact hp.1
  have hleave : ∀ (u : State) (op : Op), u.threads[t]? = some (.leave op) → ∃ s', Step u s' ∧ s'.owner = none :=
    fun u op hu => ⟨_, Step.leave u t op hu, rfl⟩
  have hdec : ∀ u : State, u.threads[t]? = some .dec → ∃ s', Steps u s' ∧ s'.owner = none := by
    intro u hu
    have hlu : t < u.threads.length := by rw [List.getElem?_eq_some_iff] at hu; exact hu.1
    have st := Step.dec u t hu
    obtain ⟨s', h1, h2⟩ := hleave { u with threads := u.threads.set t (Pc.leave .acquire), count := u.count - 1 }
      .acquire (by simp [hlu])
    exact ⟨s', ((Steps.refl u).tail st).tail h1, h2⟩
  have hbc : ∀ (u : State) (i : Nat), u.threads[t]? = some (.bcast i) → ∃ s', Steps u s' ∧ s'.owner = none := by
    intro u i hu
    have hlu : t < u.threads.length := by rw [List.getElem?_eq_some_iff] at hu; exact hu.1
    have st := Step.bcast u t i hu
    obtain ⟨s', h1, h2⟩ := hleave { u with threads := (u.threads.map wake).set t (Pc.leave (.release i)) }
      (.release i) (by simp [hlu])
    exact ⟨s', ((Steps.refl u).tail st).tail h1, h2⟩
  have htr : ∀ {u v w : State}, Step u v → Steps v w → Steps u w := by
    intro u v w h1 h2
    induction h2 with
    | refl => exact (Steps.refl u).tail h1
    | tail _ h4 ih => exact ih.tail h4
  cases p with
  | idle => exact hi.elim
  | enter op => exact hi.elim
  | asleep op => exact hi.elim
  | leave op =>
    obtain ⟨s', h1, h2⟩ := hleave s op hp
    exact ⟨s', (Steps.refl s).tail h1, h2⟩
  | dec => exact hdec s hp
  | bcast i => exact hbc s i hp
  | body op =>
    cases op with
    | release i =>
      obtain ⟨s', h1, h2⟩ := hbc { s with threads := s.threads.set t (Pc.bcast i), count := s.count + i } i
        (by simp [hlt])
      exact ⟨s', htr (Step.add s t i hp) h1, h2⟩
    | acquire =>
      by_cases h0 : s.count = 0
      · exact ⟨_, (Steps.refl s).tail (Step.sleep s t _ hp (Or.inl rfl) h0), rfl⟩
      · obtain ⟨s', h1, h2⟩ := hdec { s with threads := s.threads.set t Pc.dec } (by simp [hlt])
        exact ⟨s', htr (Step.pass s t hp h0) h1, h2⟩
    | wait =>
      by_cases h0 : s.count = 0
      · exact ⟨_, (Steps.refl s).tail (Step.sleep s t _ hp (Or.inr rfl) h0), rfl⟩
      · obtain ⟨s', h1, h2⟩ := hleave { s with threads := s.threads.set t (Pc.leave .wait) } .wait (by simp [hlt])
        exact ⟨s', htr (Step.passWait s t hp h0) ((Steps.refl _).tail h1), h2⟩

/-! ## A run: two threads block in acquire on a zero count; a third releases one unit; both wake, one returns. -/

theorem demo : ∃ s, Reach 0 3 s ∧ s.count = 0 ∧ s.owner = none ∧
    s.threads = [.idle, .asleep .acquire, .idle] ∧ s.returned = [.acquire, .release 1] := by
  have r := Reach.new (c := 0) (n := 3)
  have r := r.step (.call _ 0 .acquire rfl)
  have r := r.step (.call _ 1 .acquire rfl)
  have r := r.step (.lock _ 0 .acquire rfl rfl)
  have r := r.step (.sleep _ 0 .acquire rfl (Or.inl rfl) rfl)
  have r := r.step (.lock _ 1 .acquire rfl rfl)
  have r := r.step (.sleep _ 1 .acquire rfl (Or.inl rfl) rfl)
  have r := r.step (.call _ 2 (.release 1) rfl)
  have r := r.step (.lock _ 2 (.release 1) rfl rfl)
  have r := r.step (.add _ 2 1 rfl)
  have r := r.step (.bcast _ 2 1 rfl)
  have r := r.step (.leave _ 2 (.release 1) rfl)
  have r := r.step (.lock _ 0 .acquire rfl rfl)
  have r := r.step (.pass _ 0 rfl (by decide))
  have r := r.step (.dec _ 0 rfl)
  have r := r.step (.leave _ 0 .acquire rfl)
  have r := r.step (.lock _ 1 .acquire rfl rfl)
  have r := r.step (.sleep _ 1 .acquire rfl (Or.inl rfl) rfl)
  exact ⟨_, r, rfl, rfl, rfl, rfl⟩

/-- The hypotheses of `C48_acquire_proceeds` are met. -/
example : ∃ s, Reach 0 2 s ∧ s.owner = none ∧ 0 < s.count ∧ s.threads[0]? = some (.enter .acquire) := by
  have r := Reach.new (c := 0) (n := 2)
  have r := r.step (.call _ 0 .acquire rfl)
  have r := r.step (.lock _ 0 .acquire rfl rfl)
  have r := r.step (.sleep _ 0 .acquire rfl (Or.inl rfl) rfl)
  have r := r.step (.call _ 1 (.release 1) rfl)
  have r := r.step (.lock _ 1 (.release 1) rfl rfl)
  have r := r.step (.add _ 1 1 rfl)
  have r := r.step (.bcast _ 1 1 rfl)
  have r := r.step (.leave _ 1 (.release 1) rfl)
  exact ⟨_, r, rfl, by decide, rfl⟩

end ReactorC.Semaphore
