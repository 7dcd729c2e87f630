import Verif.Misc.Index
import Mathlib.Data.List.Nodup
import Mathlib.Data.List.Perm.Subperm

/-! # C52: the combined deadline/level index; C53: recycled events are not aliased -/

namespace ReactorC.Index

theorem combine_eq (d l : Nat) (hl : l < 65536) :
    lf_combine_deadline_and_level d l = 65536 * min d 281474976710655 + l := by
  have hor : ∀ a : Nat, (a <<< 16) ||| l = 65536 * a + l := by
    intro a
    rw [← Nat.shiftLeft_add_eq_or_of_lt (by simpa using hl), Nat.shiftLeft_eq]
    omega
  have hs : (2 ^ 64 - 1) >>> 16 = 281474976710655 := by decide
  unfold lf_combine_deadline_and_level
  rw [hs]
  split
  · rw [hor, Nat.min_eq_right (by omega)]
  · rename_i h
    have hlt : d <<< 16 < 2 ^ 64 := by rw [Nat.shiftLeft_eq]; omega
    rw [Nat.mod_eq_of_lt hlt, hor, Nat.min_eq_left (by omega)]

/-- **C52** Reactions are ordered by deadline first, where all deadlines from 2^48 - 1 nanoseconds (about 78
hours) on count as equal, and by level second. -/
theorem C52_order (d1 d2 l1 l2 : Nat) (h1 : l1 < 65536) (h2 : l2 < 65536) :
    lf_combine_deadline_and_level d1 l1 < lf_combine_deadline_and_level d2 l2 ↔
      min d1 (2 ^ 48 - 1) < min d2 (2 ^ 48 - 1) ∨ (min d1 (2 ^ 48 - 1) = min d2 (2 ^ 48 - 1) ∧ l1 < l2) := by
  rw [combine_eq d1 l1 h1, combine_eq d2 l2 h2]
  have hc : 2 ^ 48 - 1 = 281474976710655 := by decide
  rw [hc]
  omega

/-- **C52** Below the limit a smaller deadline always comes first, whatever the levels. -/
theorem C52_smaller_deadline_first (d1 d2 l1 l2 : Nat) (h1 : l1 < 65536) (h2 : l2 < 65536) (hd : d1 < d2)
    (hlim : d1 < 2 ^ 48 - 1) : lf_combine_deadline_and_level d1 l1 < lf_combine_deadline_and_level d2 l2 := by
  rw [C52_order d1 d2 l1 l2 h1 h2]
  left
  have hc : 2 ^ 48 - 1 = 281474976710655 := by decide
  rw [hc] at *
  omega

/-- **C52** The level can be recovered. -/
theorem C52_level_recovered (d l : Nat) (hl : l < 65536) : LF_LEVEL (lf_combine_deadline_and_level d l) = l := by
  rw [combine_eq d l hl]
  have : ∀ x : Nat, x &&& 0xffff = x % 65536 := fun x => Nat.and_two_pow_sub_one_eq_mod x 16
  unfold LF_LEVEL
  rw [this]; omega

/-- **C52** The index fits the 64-bit type it is stored in. -/
theorem C52_fits (d l : Nat) (hl : l < 65536) : lf_combine_deadline_and_level d l < 2 ^ 64 := by
  rw [combine_eq d l hl]; omega

/-- Without the bound on the level the order is lost: level 65536 with deadline 0 gets the same index as level 0
with deadline 1 nanosecond. -/
theorem C52_level_limit : lf_combine_deadline_and_level 0 65536 = lf_combine_deadline_and_level 1 0 := by decide

example : lf_combine_deadline_and_level 1000000 3 < lf_combine_deadline_and_level 2000000 1 := by decide
example : lf_combine_deadline_and_level (2 ^ 48) 3 = lf_combine_deadline_and_level (2 ^ 63 - 1) 3 := by decide

end ReactorC.Index

namespace ReactorC.Recycle

structure Inv (s : State) : Prop where
  nodup : (s.recycleQ ++ (s.eventQ ++ s.held)).Nodup
  fresh : ∀ e ∈ s.recycleQ ++ (s.eventQ ++ s.held), e < s.fresh
  clear : ∀ e ∈ s.recycleQ, s.mem e = zeroed
  all : ∀ e < s.fresh, e ∈ s.recycleQ ++ (s.eventQ ++ s.held)

theorem inv_init : Inv init := ⟨by simp [init], by simp [init], by simp [init], by simp [init]⟩

theorem get_cases (s : State) (k : Nat) :
    (s.recycleQ = [] ∧ lf_get_new_event s k = (s.fresh, { s with
      mem := fun x => if x = s.fresh then zeroed else s.mem x
      fresh := s.fresh + 1
      held := s.fresh :: s.held })) ∨
    ∃ e ∈ s.recycleQ, lf_get_new_event s k = (e, { s with recycleQ := s.recycleQ.erase e, held := e :: s.held }) := by
  unfold lf_get_new_event
  cases hr : s.recycleQ with
  | nil => left; simp
  | cons a l =>
    right
    have hlt : k % (a :: l).length < (a :: l).length := Nat.mod_lt _ (by simp)
    rw [List.getElem?_eq_getElem hlt]
    exact ⟨_, List.getElem_mem hlt, rfl⟩

/-- Moving an element between parts of the pool. -/
theorem perm_move {r q h r' q' h' : List Nat} (hp : (r' ++ (q' ++ h')).Perm (r ++ (q ++ h)))
    {n : Nat} (h1 : (r ++ (q ++ h)).Nodup) (h2 : ∀ e ∈ r ++ (q ++ h), e < n) (h3 : ∀ e < n, e ∈ r ++ (q ++ h)) :
    (r' ++ (q' ++ h')).Nodup ∧ (∀ e ∈ r' ++ (q' ++ h'), e < n) ∧ (∀ e < n, e ∈ r' ++ (q' ++ h')) :=
  ⟨hp.nodup_iff.2 h1, fun e he => h2 e (hp.mem_iff.1 he), fun e he => hp.mem_iff.2 (h3 e he)⟩

theorem step_inv {s t : State} (h : Inv s) {op : Op} (hst : step s op = some t) : Inv t := by
  cases op with
  | get k =>
    simp only [step, Option.some.injEq] at hst
    rcases get_cases s k with ⟨hr, he⟩ | ⟨e, hm, he⟩
    · rw [he] at hst; dsimp only at hst; subst hst
      have hf := h.fresh; have hn := h.nodup; have ha := h.all
      rw [hr] at hf hn ha
      refine ⟨?_, ?_, ?_, ?_⟩
      · rw [hr]
        simp only [List.nil_append] at hn hf ⊢
        rw [List.nodup_middle, List.nodup_cons]
        exact ⟨fun hm => by have := hf _ hm; omega, hn⟩
      · intro e he
        dsimp only at he ⊢
        rw [hr] at he
        simp only [List.nil_append, List.mem_append, List.mem_cons] at he hf
        rcases he with he | he | he
        · have := hf e (Or.inl he); omega
        · omega
        · have := hf e (Or.inr he); omega
      · rw [hr]; simp
      · intro e he
        dsimp only at he ⊢
        rw [hr]
        simp only [List.nil_append, List.mem_append, List.mem_cons] at ha ⊢
        rcases Nat.lt_or_ge e s.fresh with hlt | hge
        · rcases ha e hlt with h1 | h1 <;> simp [h1]
        · right; left; omega
    · rw [he] at hst; subst hst
      have hp : (s.recycleQ.erase e ++ (s.eventQ ++ e :: s.held)).Perm (s.recycleQ ++ (s.eventQ ++ s.held)) := by
        refine (List.Perm.append_left _ List.perm_middle).trans (List.perm_middle.trans ?_)
        rw [← List.cons_append]
        exact (List.perm_cons_erase hm).symm.append_right _
      obtain ⟨h1, h2, h3⟩ := perm_move hp h.nodup h.fresh h.all
      exact ⟨h1, h2, fun x hx => h.clear x (List.mem_of_mem_erase hx), h3⟩
  | write e v =>
    simp only [step] at hst
    split at hst
    · rename_i hm
      simp only [Option.some.injEq] at hst; subst hst
      refine ⟨h.nodup, h.fresh, ?_, h.all⟩
      intro x hx
      have hne : x ≠ e := by
        rintro rfl
        exact (List.disjoint_of_nodup_append h.nodup) hx (by simp [hm])
      show (if x = e then v else s.mem x) = zeroed
      rw [if_neg hne]; exact h.clear x hx
    · simp at hst
  | insert e =>
    simp only [step] at hst
    split at hst
    · rename_i hm
      simp only [Option.some.injEq] at hst; subst hst
      have hp : (s.recycleQ ++ (e :: s.eventQ ++ s.held.erase e)).Perm (s.recycleQ ++ (s.eventQ ++ s.held)) := by
        refine List.Perm.append_left _ ?_
        refine List.Perm.trans ?_ ((List.perm_cons_erase hm).symm.append_left _)
        exact List.perm_middle.symm
      obtain ⟨h1, h2, h3⟩ := perm_move hp h.nodup h.fresh h.all
      exact ⟨h1, h2, h.clear, h3⟩
    · simp at hst
  | remove e =>
    simp only [step] at hst
    split at hst
    · rename_i hm
      simp only [Option.some.injEq] at hst; subst hst
      have hp : (s.recycleQ ++ (s.eventQ.erase e ++ e :: s.held)).Perm (s.recycleQ ++ (s.eventQ ++ s.held)) := by
        refine List.Perm.append_left _ ?_
        refine List.perm_middle.trans ?_
        rw [← List.cons_append]
        exact (List.perm_cons_erase hm).symm.append_right _
      obtain ⟨h1, h2, h3⟩ := perm_move hp h.nodup h.fresh h.all
      exact ⟨h1, h2, h.clear, h3⟩
    · simp at hst
  | recycle e =>
    simp only [step] at hst
    split at hst
    · rename_i hm
      simp only [Option.some.injEq] at hst; subst hst
      have hp : (e :: s.recycleQ ++ (s.eventQ ++ s.held.erase e)).Perm (s.recycleQ ++ (s.eventQ ++ s.held)) := by
        rw [List.cons_append]
        refine List.perm_middle.symm.trans (List.Perm.append_left _ ?_)
        refine List.perm_middle.symm.trans (List.Perm.append_left _ ?_)
        exact (List.perm_cons_erase hm).symm
      obtain ⟨h1, h2, h3⟩ := perm_move hp h.nodup h.fresh h.all
      refine ⟨h1, h2, ?_, h3⟩
      intro x hx
      show (if x = e then _ else s.mem x) = zeroed
      by_cases hxe : x = e
      · rw [if_pos hxe]; rfl
      · rw [if_neg hxe]
        have hx' : x ∈ e :: s.recycleQ := hx
        simp [hxe] at hx'
        exact h.clear x hx'
    · simp at hst

theorem run_inv : ∀ (ops : List Op) {s t : State}, Inv s → run s ops = some t → Inv t
  | [], s, t, h, hr => by simp [run] at hr; subst hr; exact h
  | op :: ops, s, t, h, hr => by
    simp only [run, Option.bind_eq_some_iff] at hr
    obtain ⟨u, hu, hr⟩ := hr
    exact run_inv ops (step_inv h hu) hr

/-- **C53** After any history of gets, writes, insertions, removals and recyclings, the event
`lf_get_new_event` returns is not in the event queue and not in the hands of another function. -/
theorem C53_not_aliased {ops : List Op} {s : State} (h : run init ops = some s) (k : Nat) :
    (lf_get_new_event s k).1 ∉ s.eventQ ∧ (lf_get_new_event s k).1 ∉ s.held := by
  have hi := run_inv ops inv_init h
  rcases get_cases s k with ⟨_, he⟩ | ⟨e, hm, he⟩
  · rw [he]
    constructor
    · intro hm
      have := hi.fresh s.fresh (by simp [hm]); omega
    · intro hm
      have := hi.fresh s.fresh (by simp [hm]); omega
  · rw [he]
    have hd := List.disjoint_of_nodup_append hi.nodup hm
    exact ⟨fun hx => hd (by simp at hx; simp [hx]), fun hx => hd (by simp at hx; simp [hx])⟩

/-- **C53** It comes back cleared: tag (0, 0), no trigger, no token. -/
theorem C53_cleared {ops : List Op} {s : State} (h : run init ops = some s) (k : Nat) :
    (lf_get_new_event s k).2.mem (lf_get_new_event s k).1 =
      { time := 0, microstep := 0, trigger := none, token := none } := by
  have hi := run_inv ops inv_init h
  rcases get_cases s k with ⟨_, he⟩ | ⟨e, hm, he⟩
  · rw [he]; simp [zeroed]
  · rw [he]; exact hi.clear e hm

/-- **C53** Getting an event changes no other event, and in particular none that is queued. -/
theorem C53_others_unchanged {ops : List Op} {s : State} (h : run init ops = some s) (k : Nat) :
    ∀ e ∈ s.eventQ, (lf_get_new_event s k).2.mem e = s.mem e := by
  intro e hm
  have hi := run_inv ops inv_init h
  rcases get_cases s k with ⟨_, he⟩ | ⟨e', hm', he⟩
  · rw [he]
    have := hi.fresh e (by simp [hm])
    show (if e = s.fresh then _ else _) = _
    rw [if_neg (by omega)]
  · rw [he]

/-- **C53** No event is in the queue twice, and every event ever allocated is in exactly one place: recycled,
queued or held (none is lost). -/
theorem C53_every_event_in_one_place {ops : List Op} {s : State} (h : run init ops = some s) (e : Nat) (he : e < s.fresh) :
    s.recycleQ.count e + s.eventQ.count e + s.held.count e = 1 := by
  have hi := run_inv ops inv_init h
  have := List.count_eq_one_of_mem hi.nodup (hi.all e he)
  simp only [List.count_append] at this
  omega

/-- A history: two events are scheduled, one is processed and recycled, and a third reuses it. -/
example : ∃ s, run init [.get 0, .write 0 ⟨5, 1, some 3, some 7⟩, .insert 0, .get 0, .write 1 ⟨9, 0, some 2, none⟩,
    .insert 1, .remove 0, .recycle 0] = some s ∧ s.eventQ = [1] ∧ s.recycleQ = [0] ∧
    (lf_get_new_event s 0).1 = 0 ∧ (lf_get_new_event s 0).2.held = [0] := by
  refine ⟨_, rfl, rfl, rfl, rfl, rfl⟩

end ReactorC.Recycle
