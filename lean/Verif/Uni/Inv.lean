import Verif.Uni.Model
import Verif.Np.Good

/-!
# What always holds of the runtime without threads
-/

set_option linter.unusedVariables false

namespace ReactorC.Uni

open Np (Ev starts finishes thisTag Order Good Complete)

variable {C : Config} {s s' : State}

theorem Order.begin {first : Nat → Nat → Prop} {q : List Ev} (h : Order first q) {w r : Nat}
    (h1 : ∀ e, starts e q ≠ 0 → ¬ first r e) (h2 : ∀ y, first y r → starts y q ≠ 0 → finishes y q ≠ 0) (h3 : ¬ first r r) :
    Order first (.start w r :: q) := by
  intro a x r' b k y hy hs
  simp only [starts] at hs
  cases a with
  | nil =>
    cases k
    by_cases e : r = y
    · subst e; exact absurd hy h3
    · rw [if_neg e] at hs; exact h2 y hy (by omega)
  | cons z a =>
    have k2 := (List.cons.inj k).2
    by_cases e : r = y
    · subst e
      refine absurd hy (h1 r' ?_)
      rw [k2]
      clear k k2 hs h1 h2 h
      induction a with
      | nil => simp [starts]
      | cons z a ih => cases z <;> first | exact ih | (show _ + starts _ _ ≠ 0; omega)
    · rw [if_neg e] at hs; exact h a x r' b k2 y hy (by omega)

theorem finishes_le (r : Nat) (a b : List Ev) : finishes r b ≤ finishes r (a ++ b) := by
  induction a with
  | nil => exact Nat.le_refl _
  | cons z a ih => cases z <;> simp only [List.cons_append, finishes] <;> omega

theorem starts_split {r : Nat} : ∀ {q : List Ev}, starts r q ≠ 0 → ∃ a w b, q = a ++ .start w r :: b
  | [], h => absurd rfl h
  | .start w r' :: q, h => by
    by_cases e : r' = r
    · subst e; exact ⟨[], w, q, rfl⟩
    · obtain ⟨a, x, b, k⟩ := starts_split (r := r) (q := q) (by simpa only [starts, if_neg e, Nat.zero_add] using h)
      exact ⟨_ :: a, x, b, by rw [k]; rfl⟩
  | .trigger _ :: q, h => by
    obtain ⟨a, x, b, k⟩ := starts_split (r := r) (q := q) h
    exact ⟨_ :: a, x, b, by rw [k]; rfl⟩
  | .finish _ _ :: q, h => by
    obtain ⟨a, x, b, k⟩ := starts_split (r := r) (q := q) h
    exact ⟨_ :: a, x, b, by rw [k]; rfl⟩
  | .advance :: q, h => by
    obtain ⟨a, x, b, k⟩ := starts_split (r := r) (q := q) h
    exact ⟨_ :: a, x, b, by rw [k]; rfl⟩
  | .stop :: q, h => by
    obtain ⟨a, x, b, k⟩ := starts_split (r := r) (q := q) h
    exact ⟨_ :: a, x, b, by rw [k]; rfl⟩

/-- A reaction that has started comes after no reaction that is still executing. -/
theorem Order.running {first : Nat → Nat → Prop} {q : List Ev} (h : Order first q) {x e : Nat} (hx : starts x q ≠ 0)
    (hf : finishes x q = 0) (he : starts e q ≠ 0) : ¬ first x e := by
  intro k
  obtain ⟨a, w, b, hq⟩ := starts_split he
  have := h a w e b hq x k hx
  have := finishes_le x (a ++ [.start w e]) b
  rw [List.append_assoc] at this
  rw [hq] at hf
  simp only [List.singleton_append] at this
  omega

/-- A reaction that waits: it has been triggered, has not started, and none that has started comes after it. -/
def Waits (C : Config) (q : List Ev) (r : Nat) : Prop :=
  Ev.trigger r ∈ q ∧ starts r q = 0 ∧ ∀ e, starts e q ≠ 0 → ¬ C.dep r e

/-- What always holds. -/
structure Inv (C : Config) (s : State) : Prop where
  good : Good C.dep s.hist
  unstopped : s.phase ≠ .stopped → Ev.stop ∉ s.hist
  rest : s.phase ≠ .loop → s.active = none
  free : s.active = none → s.exec = none ∧ s.cand = none
  busy : s.active ≠ none → s.exec ≠ none ∨ s.cand ≠ none
  empty : s.phase = .tag → s.queue = []
  opening : s.phase = .opening → ∀ r, starts r (thisTag s.hist) = 0
  nodup : s.queue.Nodup
  queue : ∀ r ∈ s.queue, Waits C (thisTag s.hist) r
  cand : ∀ d, s.cand = some d → Waits C (thisTag s.hist) d ∧ d ∉ s.queue ∧
    ∃ r, C.last d = some r ∧ starts r (thisTag s.hist) ≠ 0 ∧ (s.exec = none ∨ s.exec = some r)
  exec : ∀ r, s.exec = some r → starts r (thisTag s.hist) = 1 ∧ finishes r (thisTag s.hist) = 0
  over : ∀ r, s.exec ≠ some r → starts r (thisTag s.hist) = finishes r (thisTag s.hist)
  all : ∀ r, Ev.trigger r ∈ thisTag s.hist → r ∈ s.queue ∨ s.cand = some r ∨ starts r (thisTag s.hist) ≠ 0
  head : ∀ r, s.active = some r → starts r (thisTag s.hist) ≠ 0
  sole : ∀ d r, C.last d = some r → Ev.trigger d ∈ thisTag s.hist → starts r (thisTag s.hist) ≠ 0
  fresh : ∀ r, s.exec = some r → s.num = 0 → s.cand = none ∧ ∀ d, C.last d = some r → Ev.trigger d ∉ thisTag s.hist

theorem Inv.complete (h : Inv C s) (hp : s.phase = .tag) : Complete (thisTag s.hist) := by
  have hf := h.free (h.rest (by rw [hp]; simp))
  intro r
  have h1 := h.over r (by rw [hf.1]; simp)
  have h2 := h.good.once r
  constructor
  · intro ht
    rcases h.all r ht with k | k | k
    · rw [h.empty hp] at k; cases k
    · rw [hf.2] at k; cases k
    · omega
  · intro ht
    have : starts r (thisTag s.hist) = 0 := Decidable.byContradiction fun k => ht (h.good.asked r k)
    omega

theorem Inv.init : Inv C init where
  good := .init _
  unstopped _ := by simp [Uni.init]
  rest _ := rfl
  free _ := ⟨rfl, rfl⟩
  busy h := absurd rfl h
  empty h := rfl
  opening _ _ := rfl
  nodup := .nil
  queue r h := by cases h
  cand d h := by cases h
  exec r h := by cases h
  over _ _ := rfl
  all r h := by cases h
  head r h := by cases h
  sole d r _ h := by cases h
  fresh r h := by cases h

theorem tag_trigger (h : List Ev) (r : Nat) : thisTag (.trigger r :: h) = .trigger r :: thisTag h := rfl

/-- A trigger changes nothing else in the record. -/
theorem Good.trigger (h : Good C.dep s.hist) (hs : Ev.stop ∉ s.hist) (r : Nat) : Good C.dep (.trigger r :: s.hist) :=
  h.more (by simp) h.once (fun x k => List.mem_cons_of_mem _ (h.asked x k)) (h.order.more (by simp)) (by simp) hs

theorem Waits.trigger {q : List Ev} {r : Nat} (h : Waits C q r) (d : Nat) : Waits C (.trigger d :: q) r :=
  ⟨List.mem_cons_of_mem _ h.1, h.2.1, h.2.2⟩

theorem insert_mem (s : State) (r x : Nat) : x ∈ s.insert r ↔ x ∈ s.queue ∨ (x = r ∧ s.active ≠ some r) := by
  unfold State.insert
  by_cases h : r ∈ s.queue ∨ s.active = some r
  · rw [if_pos h]
    constructor
    · exact .inl
    · rintro (k | ⟨k, ka⟩)
      · exact k
      · subst k; exact h.resolve_right ka
  · rw [if_neg h, List.mem_cons]
    constructor
    · rintro (k | k)
      · exact .inr ⟨k, fun e => h (.inr e)⟩
      · exact .inl k
    · rintro (k | k)
      · exact .inr k
      · exact .inl k.1

theorem insert_nodup {s : State} (h : s.queue.Nodup) (r : Nat) : (s.insert r).Nodup := by
  unfold State.insert
  by_cases k : r ∈ s.queue ∨ s.active = some r
  · rw [if_pos k]; exact h
  · rw [if_neg k]; exact List.nodup_cons.2 ⟨fun e => k (.inl e), h⟩

theorem Inv.step_event (h : Inv C s) {r : Nat} (hp : s.phase = .opening) (hl : C.last r = none) :
    Inv C { s with queue := s.insert r, hist := .trigger r :: s.hist } := by
  have ha := h.rest (by rw [hp]; simp)
  have h0 := h.opening hp
  exact {
    good := Good.trigger h.good (h.unstopped (by rw [hp]; simp)) r
    unstopped := fun k => by have := h.unstopped k; simp [this]
    rest := h.rest
    free := h.free
    busy := h.busy
    empty := fun k => by dsimp only at k; rw [hp] at k; cases k
    opening := h.opening
    nodup := insert_nodup h.nodup r
    queue := by
      intro x hx
      rcases (insert_mem s r x).1 hx with k | ⟨k, _⟩
      · exact (h.queue x k).trigger r
      · subst k; exact ⟨List.mem_cons_self, h0 x, fun e k => absurd (h0 e) k⟩
    cand := fun d k => by have := (h.free ha).2; rw [this] at k; cases k
    exec := h.exec
    over := h.over
    all := by
      intro x hx
      rcases List.mem_cons.1 hx with k | k
      · cases k; exact .inl ((insert_mem s r r).2 (.inr ⟨rfl, by rw [ha]; simp⟩))
      · rcases h.all x k with k | k | k
        · exact .inl ((insert_mem s r x).2 (.inl k))
        · exact .inr (.inl k)
        · exact .inr (.inr k)
    head := h.head
    sole := by
      intro d q hd hx
      rcases List.mem_cons.1 hx with k | k
      · cases k; rw [hl] at hd; cases hd
      · exact h.sole d q hd k
    fresh := fun q k => by have := (h.free ha).1; rw [this] at k; cases k }

theorem Inv.step_start (hC : C.Ok) (h : Inv C s) {r : Nat} (hp : s.phase = .loop) (ha : s.active = none) (hr : r ∈ s.queue)
    (hm : ∀ x ∈ s.queue, C.index r ≤ C.index x) :
    Inv C { s with
        queue := s.queue.erase r, active := some r, exec := some r, cand := none, num := 0, hist := .start 0 r :: s.hist } := by
  obtain ⟨w1, w2, w3⟩ := h.queue r hr
  obtain ⟨f1, f2⟩ := h.free ha
  have hs0 : ∀ x, starts x (.start 0 r :: thisTag s.hist) = (if r = x then 1 else 0) + starts x (thisTag s.hist) := fun _ => rfl
  have hf0 : ∀ x, finishes x (.start 0 r :: thisTag s.hist) = finishes x (thisTag s.hist) := fun _ => rfl
  have hov : ∀ x, starts x (thisTag s.hist) = finishes x (thisTag s.hist) := fun x => h.over x (by rw [f1]; simp)
  have hirr : ¬ C.dep r r := fun k => Nat.lt_irrefl _ (hC.index r r k)
  have ht : thisTag (.start 0 r :: s.hist) = .start 0 r :: thisTag s.hist := rfl
  exact {
    good := by
      refine h.good.more (by simp) (fun x => ?_) (fun x k => ?_) (Order.begin h.good.order w3 (fun y _ k => ?_) hirr) (by simp)
        (h.unstopped (by rw [hp]; simp))
      · rw [hs0, hf0]
        have := h.good.once x
        by_cases e : r = x
        · subst e; rw [if_pos rfl]; omega
        · rw [if_neg e]; omega
      · rw [hs0] at k
        by_cases e : r = x
        · subst e; exact List.mem_cons_of_mem _ w1
        · rw [if_neg e] at k; exact List.mem_cons_of_mem _ (h.good.asked x (by omega))
      · rw [← hov]; exact k
    unstopped := fun k => by have := h.unstopped k; simp [this]
    rest := fun k => absurd hp k
    free := fun k => by cases k
    busy := fun _ => .inl (by simp)
    empty := fun k => by dsimp only at k; rw [hp] at k; cases k
    opening := fun k => by dsimp only at k; rw [hp] at k; cases k
    nodup := h.nodup.erase r
    queue := by
      intro x hx
      have hne : r ≠ x := fun e => by subst e; exact h.nodup.not_mem_erase hx
      obtain ⟨k1, k2, k3⟩ := h.queue x (List.mem_of_mem_erase hx)
      refine ⟨List.mem_cons_of_mem _ k1, ?_, fun e ke => ?_⟩
      · dsimp only; rw [ht, hs0, if_neg hne, k2]
      · dsimp only at ke
        rw [ht, hs0] at ke
        by_cases e' : r = e
        · subst e'
          intro kd
          have := hC.index x r kd
          have := hm x (List.mem_of_mem_erase hx)
          omega
        · rw [if_neg e'] at ke; exact k3 e (by omega)
    cand := fun d k => by cases k
    exec := by
      intro x k
      cases k
      dsimp only
      rw [ht, hs0, hf0, if_pos rfl, ← hov, w2]
      exact ⟨rfl, rfl⟩
    over := by
      intro x k
      dsimp only
      rw [ht, hs0, hf0, if_neg (fun e => k (by rw [e])), hov]
      omega
    all := by
      intro x k
      dsimp only at k ⊢
      rw [ht] at k ⊢
      by_cases e : r = x
      · subst e; exact .inr (.inr (by rw [hs0, if_pos rfl]; omega))
      · rcases List.mem_cons.1 k with k | k
        · cases k
        · rcases h.all x k with k | k | k
          · exact .inl ((List.mem_erase_of_ne (Ne.symm e)).2 k)
          · rw [f2] at k; cases k
          · exact .inr (.inr (by rw [hs0]; omega))
    head := by
      intro x k
      cases k
      dsimp only
      rw [ht, hs0, if_pos rfl]; omega
    sole := by
      intro d q hd hx
      dsimp only at hx ⊢
      rw [ht] at hx ⊢
      rcases List.mem_cons.1 hx with k | k
      · cases k
      · have := h.sole d q hd k
        rw [hs0]; omega
    fresh := by
      intro x k _
      cases k
      refine ⟨rfl, fun d hd hx => ?_⟩
      rcases List.mem_cons.1 hx with k | k
      · cases k
      · exact h.sole d r hd k w2 }

theorem Inv.step_chain (hC : C.Ok) (h : Inv C s) {d : Nat} (he : s.exec = none) (hd : s.cand = some d) :
    Inv C { s with exec := some d, cand := none, num := 0, hist := .start 0 d :: s.hist } := by
  obtain ⟨⟨w1, w2, w3⟩, hq, r, hl, hr, _⟩ := h.cand d hd
  have hact : s.active ≠ none := fun k => by rw [(h.free k).2] at hd; cases hd
  have hp : s.phase = .loop := Decidable.byContradiction fun k => hact (h.rest k)
  have hs0 : ∀ x, starts x (.start 0 d :: thisTag s.hist) = (if d = x then 1 else 0) + starts x (thisTag s.hist) := fun _ => rfl
  have hf0 : ∀ x, finishes x (.start 0 d :: thisTag s.hist) = finishes x (thisTag s.hist) := fun _ => rfl
  have hov : ∀ x, starts x (thisTag s.hist) = finishes x (thisTag s.hist) := fun x => h.over x (by rw [he]; simp)
  have hirr : ¬ C.dep d d := fun k => Nat.lt_irrefl _ (hC.index d d k)
  have ht : thisTag (.start 0 d :: s.hist) = .start 0 d :: thisTag s.hist := rfl
  exact {
    good := by
      refine h.good.more (by simp) (fun x => ?_) (fun x k => ?_) (Order.begin h.good.order w3 (fun y _ k => ?_) hirr) (by simp)
        (h.unstopped (by rw [hp]; simp))
      · rw [hs0, hf0]
        have := h.good.once x
        by_cases e : d = x
        · subst e; rw [if_pos rfl]; omega
        · rw [if_neg e]; omega
      · rw [hs0] at k
        by_cases e : d = x
        · subst e; exact List.mem_cons_of_mem _ w1
        · rw [if_neg e] at k; exact List.mem_cons_of_mem _ (h.good.asked x (by omega))
      · rw [← hov]; exact k
    unstopped := fun k => by have := h.unstopped k; simp [this]
    rest := fun k => absurd hp k
    free := fun k => absurd k hact
    busy := fun _ => .inl (by simp)
    empty := fun k => by dsimp only at k; rw [hp] at k; cases k
    opening := fun k => by dsimp only at k; rw [hp] at k; cases k
    nodup := h.nodup
    queue := by
      intro x hx
      have hne : d ≠ x := fun e => by subst e; exact hq hx
      obtain ⟨k1, k2, k3⟩ := h.queue x hx
      refine ⟨List.mem_cons_of_mem _ k1, ?_, fun e ke => ?_⟩
      · dsimp only; rw [ht, hs0, if_neg hne, k2]
      · dsimp only at ke
        rw [ht, hs0] at ke
        by_cases e' : d = e
        · subst e'
          intro kd
          rcases hC.last d r hl x kd with k | k
          · subst k; exact hr k2
          · exact k3 r hr k
        · rw [if_neg e'] at ke; exact k3 e (by omega)
    cand := fun d k => by cases k
    exec := by
      intro x k
      cases k
      dsimp only
      rw [ht, hs0, hf0, if_pos rfl, ← hov, w2]
      exact ⟨rfl, rfl⟩
    over := by
      intro x k
      dsimp only
      rw [ht, hs0, hf0, if_neg (fun e => k (by rw [e])), hov]
      omega
    all := by
      intro x k
      dsimp only at k ⊢
      rw [ht] at k ⊢
      by_cases e : d = x
      · subst e; exact .inr (.inr (by rw [hs0, if_pos rfl]; omega))
      · rcases List.mem_cons.1 k with k | k
        · cases k
        · rcases h.all x k with k | k | k
          · exact .inl k
          · rw [hd] at k; cases k; exact absurd rfl e
          · exact .inr (.inr (by rw [hs0]; omega))
    head := by
      intro x k
      have := h.head x k
      dsimp only
      rw [ht, hs0]; omega
    sole := by
      intro d' q hd hx
      dsimp only at hx ⊢
      rw [ht] at hx ⊢
      rcases List.mem_cons.1 hx with k | k
      · cases k
      · have := h.sole d' q hd k
        rw [hs0]; omega
    fresh := by
      intro x k _
      cases k
      refine ⟨rfl, fun d' hd hx => ?_⟩
      rcases List.mem_cons.1 hx with k | k
      · cases k
      · exact h.sole d' d hd k w2 }

theorem Inv.step_finish (h : Inv C s) {r : Nat} (he : s.exec = some r) :
    Inv C { s with exec := none, active := if s.cand = none then none else s.active, hist := .finish 0 r :: s.hist } := by
  obtain ⟨x1, x2⟩ := h.exec r he
  have hact : s.active ≠ none := fun k => by rw [(h.free k).1] at he; cases he
  have hp : s.phase = .loop := Decidable.byContradiction fun k => hact (h.rest k)
  have hs0 : ∀ x, starts x (.finish 0 r :: thisTag s.hist) = starts x (thisTag s.hist) := fun _ => rfl
  have hf0 : ∀ x, finishes x (.finish 0 r :: thisTag s.hist) = (if r = x then 1 else 0) + finishes x (thisTag s.hist) := fun _ => rfl
  have ht : thisTag (.finish 0 r :: s.hist) = .finish 0 r :: thisTag s.hist := rfl
  have hw : ∀ x, Waits C (thisTag s.hist) x → Waits C (.finish 0 r :: thisTag s.hist) x :=
    fun x k => ⟨List.mem_cons_of_mem _ k.1, k.2.1, k.2.2⟩
  have hm : ∀ x, Ev.trigger x ∈ Ev.finish 0 r :: thisTag s.hist → Ev.trigger x ∈ thisTag s.hist := by
    intro x k
    rcases List.mem_cons.1 k with k | k
    · cases k
    · exact k
  exact {
    good := by
      refine h.good.more (by simp) (fun x => ?_) (fun x k => List.mem_cons_of_mem _ (h.good.asked x k))
        (h.good.order.more (by simp)) (by simp) (h.unstopped (by rw [hp]; simp))
      rw [hs0, hf0]
      have := h.good.once x
      by_cases e : r = x
      · subst e; rw [if_pos rfl]; omega
      · rw [if_neg e]; omega
    unstopped := fun k => by have := h.unstopped k; simp [this]
    rest := fun k => absurd hp k
    free := by
      intro k
      dsimp only at k ⊢
      by_cases hc : s.cand = none
      · exact ⟨rfl, hc⟩
      · rw [if_neg hc] at k; exact absurd k hact
    busy := by
      intro k
      dsimp only at k ⊢
      by_cases hc : s.cand = none
      · rw [if_pos hc] at k; exact absurd rfl k
      · exact .inr hc
    empty := fun k => by dsimp only at k; rw [hp] at k; cases k
    opening := fun k => by dsimp only at k; rw [hp] at k; cases k
    nodup := h.nodup
    queue := fun x hx => hw x (h.queue x hx)
    cand := by
      intro d k
      obtain ⟨k1, k2, q, k3, k4, k5⟩ := h.cand d k
      exact ⟨hw d k1, k2, q, k3, k4, .inl rfl⟩
    exec := fun x k => by cases k
    over := by
      intro x _
      dsimp only
      rw [ht, hs0, hf0]
      by_cases e : r = x
      · subst e; rw [if_pos rfl]; omega
      · rw [if_neg e, h.over x (by rw [he]; simpa using e)]; omega
    all := fun x k => h.all x (hm x k)
    head := by
      intro x k
      dsimp only at k
      by_cases hc : s.cand = none
      · rw [if_pos hc] at k; cases k
      · rw [if_neg hc] at k; exact h.head x k
    sole := fun d q hd hx => h.sole d q hd (hm d hx)
    fresh := fun x k => by cases k }

/-- What an output triggers waits then. -/
theorem Inv.out_waits (hC : C.Ok) (h : Inv C s) {r d : Nat} (he : s.exec = some r) (hdep : C.dep r d) :
    Waits C (.trigger d :: thisTag s.hist) d := by
  obtain ⟨x1, x2⟩ := h.exec r he
  have hr : ∀ e, starts e (thisTag s.hist) ≠ 0 → ¬ C.dep r e :=
    fun e => Order.running h.good.order (by omega) x2
  refine ⟨List.mem_cons_self, Decidable.byContradiction fun k => hr d k hdep, fun e k kd => hr e k (hC.trans _ _ _ hdep kd)⟩

theorem exec_output {r : Nat} (he : s.exec = some r) (d : Nat) : Uni.exec C s (.output d) =
    if s.cand = some d then some { s with hist := .trigger d :: s.hist }
    else if s.num = 0 ∧ C.last d = some r then some { s with cand := some d, num := 1, hist := .trigger d :: s.hist }
    else some (match s.cand with
      | some c => { s with
          queue := State.insert { s with queue := s.insert c, cand := none } d, cand := none, num := s.num + 1,
          hist := .trigger d :: s.hist }
      | none => { s with queue := s.insert d, num := s.num + 1, hist := .trigger d :: s.hist }) := by
  obtain ⟨p, q, a, e, c, n, l⟩ := s
  cases he
  cases c <;> rfl

theorem Inv.step_output (hC : C.Ok) (h : Inv C s) {r d : Nat} (he : s.exec = some r) (hdep : C.dep r d)
    (hl : C.last d = none ∨ C.last d = some r) (hx : Uni.exec C s (.output d) = some s') : Inv C s' := by
  obtain ⟨x1, x2⟩ := h.exec r he
  have hact : s.active ≠ none := fun k => by rw [(h.free k).1] at he; cases he
  have hp : s.phase = .loop := Decidable.byContradiction fun k => hact (h.rest k)
  have hwd := h.out_waits hC he hdep
  have hgood := Good.trigger h.good (h.unstopped (by rw [hp]; simp)) d
  have hun : Ev.stop ∉ Ev.trigger d :: s.hist := by have := h.unstopped (by rw [hp]; simp); simp [this]
  have had : s.active ≠ some d := fun k => h.head d k hwd.2.1
  have hsole : ∀ d' q, C.last d' = some q → Ev.trigger d' ∈ Ev.trigger d :: thisTag s.hist → starts q (thisTag s.hist) ≠ 0 := by
    intro d' q hd hx
    rcases List.mem_cons.1 hx with k | k
    · cases k
      rcases hl with hl | hl <;> rw [hl] at hd <;> cases hd
      omega
    · exact h.sole d' q hd k
  rw [exec_output he] at hx
  by_cases hc : s.cand = some d
  · rw [if_pos hc] at hx
    cases hx
    exact {
      good := hgood, unstopped := fun _ => hun, rest := h.rest, free := h.free, busy := h.busy, empty := h.empty,
      opening := h.opening, nodup := h.nodup, exec := h.exec, over := h.over, head := h.head, sole := hsole
      queue := fun x k => (h.queue x k).trigger d
      cand := fun x k => by obtain ⟨k1, k2, k3⟩ := h.cand x k; exact ⟨k1.trigger d, k2, k3⟩
      all := by
        intro x hx
        rcases List.mem_cons.1 hx with k | k
        · cases k; exact .inr (.inl hc)
        · exact h.all x k
      fresh := by
        intro x k kn
        have := (h.fresh x k kn).1
        rw [hc] at this; cases this }
  rw [if_neg hc] at hx
  by_cases hn : s.num = 0 ∧ C.last d = some r
  · rw [if_pos hn] at hx
    cases hx
    obtain ⟨f1, f2⟩ := h.fresh r he hn.1
    exact {
      good := hgood, unstopped := fun _ => hun, rest := h.rest, empty := h.empty,
      opening := h.opening, nodup := h.nodup, exec := h.exec, over := h.over, head := h.head, sole := hsole
      free := fun k => absurd k hact
      busy := fun _ => .inr (by simp)
      queue := fun x k => (h.queue x k).trigger d
      cand := by
        intro x k
        cases k
        exact ⟨hwd, fun k => f2 d hn.2 (h.queue d k).1, r, hn.2, by show starts r (thisTag s.hist) ≠ 0; omega, .inr he⟩
      all := by
        intro x hx
        rcases List.mem_cons.1 hx with k | k
        · cases k; exact .inr (.inl rfl)
        · rcases h.all x k with k | k | k
          · exact .inl k
          · rw [f1] at k; cases k
          · exact .inr (.inr k)
      fresh := fun x k kn => by cases kn }
  rw [if_neg hn] at hx
  cases hcand : s.cand with
  | none =>
    have hx : some { s with queue := s.insert d, num := s.num + 1, hist := .trigger d :: s.hist } = some s' := by
      rw [← hx]; split
      · rename_i k; rw [hcand] at k; cases k
      · rfl
    cases hx
    exact {
      good := hgood, unstopped := fun _ => hun, rest := h.rest, empty := fun k => by dsimp only at k; rw [hp] at k; cases k
      opening := h.opening, exec := h.exec, over := h.over, head := h.head, sole := hsole
      free := h.free, busy := h.busy
      nodup := insert_nodup h.nodup d
      queue := by
        intro x hx
        rcases (insert_mem s d x).1 hx with k | ⟨k, _⟩
        · exact (h.queue x k).trigger d
        · subst k; exact hwd
      cand := fun x k => by dsimp only at k; rw [hcand] at k; cases k
      all := by
        intro x hx
        rcases List.mem_cons.1 hx with k | k
        · cases k; exact .inl ((insert_mem s d d).2 (.inr ⟨rfl, had⟩))
        · rcases h.all x k with k | k | k
          · exact .inl ((insert_mem s d x).2 (.inl k))
          · exact .inr (.inl k)
          · exact .inr (.inr k)
      fresh := fun x k kn => by cases kn }
  | some c =>
    have hx : some { s with
          queue := State.insert { s with queue := s.insert c, cand := none } d, cand := none, num := s.num + 1,
          hist := .trigger d :: s.hist } = some s' := by
      rw [← hx]; split
      · rename_i k; rw [hcand] at k; cases k; rfl
      · rename_i k; rw [hcand] at k; cases k
    cases hx
    obtain ⟨c1, c2, q, c3, c4, c5⟩ := h.cand c hcand
    have hac : s.active ≠ some c := fun k => h.head c k c1.2.1
    have hmem : ∀ x, x ∈ State.insert { s with queue := s.insert c, cand := none } d ↔ (x ∈ s.queue ∨ x = c) ∨ x = d := by
      intro x
      rw [insert_mem]
      dsimp only
      rw [insert_mem]
      simp only [had, hac, ne_eq, not_false_eq_true, and_true]
    exact {
      good := hgood, unstopped := fun _ => hun, rest := h.rest, empty := fun k => by dsimp only at k; rw [hp] at k; cases k
      opening := h.opening, exec := h.exec, over := h.over, head := h.head, sole := hsole
      free := fun k => absurd k hact
      busy := fun _ => .inl (by dsimp only; rw [he]; simp)
      nodup := insert_nodup (s := { s with queue := s.insert c, cand := none }) (insert_nodup h.nodup c) d
      queue := by
        intro x hx
        rcases (hmem x).1 hx with (k | k) | k
        · exact (h.queue x k).trigger d
        · subst k; exact c1.trigger d
        · subst k; exact hwd
      cand := fun x k => by cases k
      all := by
        intro x hx
        rcases List.mem_cons.1 hx with k | k
        · cases k; exact .inl ((hmem _).2 (.inr rfl))
        · rcases h.all x k with k | k | k
          · exact .inl ((hmem _).2 (.inl (.inl k)))
          · rw [hcand] at k; cases k; exact .inl ((hmem _).2 (.inl (.inr rfl)))
          · exact .inr (.inr k)
      fresh := fun x k kn => by cases kn }

theorem Reach.inv (hC : C.Ok) (h : Reach C s) : Inv C s := by
  induction h with
  | init => exact .init
  | @step s s' a _ ha hx ih =>
    cases a with
    | event r =>
      simp only [Uni.exec] at hx
      by_cases hp : s.phase = .opening
      · rw [if_pos hp] at hx; cases hx; exact ih.step_event hp ha.2
      · rw [if_neg hp] at hx; cases hx
    | opened =>
      simp only [Uni.exec] at hx
      by_cases hp : s.phase = .opening
      · rw [if_pos hp] at hx
        cases hx
        exact { ih with
          unstopped := fun _ => ih.unstopped (by rw [hp]; simp)
          rest := fun k => absurd rfl k
          empty := fun k => by cases k
          opening := fun k => by cases k }
      · rw [if_neg hp] at hx; cases hx
    | start r =>
      simp only [Uni.exec] at hx
      by_cases hp : s.phase = .loop ∧ s.active = none ∧ r ∈ s.queue ∧ ∀ x ∈ s.queue, C.index r ≤ C.index x
      · rw [if_pos hp] at hx; cases hx; exact ih.step_start hC hp.1 hp.2.1 hp.2.2.1 hp.2.2.2
      · rw [if_neg hp] at hx; cases hx
    | output d =>
      cases he : s.exec with
      | none => simp only [Uni.exec, he] at hx; cases hx
      | some r => exact ih.step_output hC he (ha.2 r he).1 (ha.2 r he).2 hx
    | finish =>
      cases he : s.exec with
      | none => simp only [Uni.exec, he] at hx; cases hx
      | some r => simp only [Uni.exec, he] at hx; cases hx; exact ih.step_finish he
    | chain =>
      cases he : s.exec with
      | some r => simp only [Uni.exec, he] at hx; cases hx
      | none =>
        cases hd : s.cand with
        | none => simp only [Uni.exec, he, hd] at hx; cases hx
        | some d => simp only [Uni.exec, he, hd] at hx; cases hx; have := ih.step_chain hC he hd; exact this
    | close =>
      simp only [Uni.exec] at hx
      by_cases hp : s.phase = .loop ∧ s.active = none ∧ s.queue = []
      · rw [if_pos hp] at hx
        cases hx
        exact { ih with
          unstopped := fun _ => ih.unstopped (by rw [hp.1]; simp)
          rest := fun _ => hp.2.1
          empty := fun _ => hp.2.2
          opening := fun k => by cases k }
      · rw [if_neg hp] at hx; cases hx
    | advance =>
      simp only [Uni.exec] at hx
      by_cases hp : s.phase = .tag
      · rw [if_pos hp] at hx
        cases hx
        have hu := ih.unstopped (by rw [hp]; simp)
        have ha := ih.rest (by rw [hp]; simp)
        obtain ⟨f1, f2⟩ := ih.free ha
        exact {
          good := ih.good.close (ih.complete hp) hu
          unstopped := fun _ => by simp [hu]
          rest := fun _ => ha
          free := fun _ => ⟨f1, f2⟩
          busy := fun k => absurd ha k
          empty := fun k => by cases k
          opening := fun _ _ => rfl
          nodup := ih.nodup
          queue := fun x k => by dsimp only at k; rw [ih.empty hp] at k; cases k
          cand := fun x k => by dsimp only at k; rw [f2] at k; cases k
          exec := fun x k => by dsimp only at k; rw [f1] at k; cases k
          over := fun _ _ => rfl
          all := fun x k => by cases k
          head := fun x k => by dsimp only at k; rw [ha] at k; cases k
          sole := fun d q _ k => by cases k
          fresh := fun x k => by dsimp only at k; rw [f1] at k; cases k }
      · rw [if_neg hp] at hx; cases hx
    | stop =>
      simp only [Uni.exec] at hx
      by_cases hp : s.phase = .tag
      · rw [if_pos hp] at hx
        cases hx
        have hu := ih.unstopped (by rw [hp]; simp)
        have ha := ih.rest (by rw [hp]; simp)
        obtain ⟨f1, f2⟩ := ih.free ha
        have ht : thisTag (.stop :: s.hist) = .stop :: thisTag s.hist := rfl
        have hm : ∀ x, Ev.trigger x ∈ Ev.stop :: thisTag s.hist → Ev.trigger x ∈ thisTag s.hist := by
          intro x k
          rcases List.mem_cons.1 k with k | k
          · cases k
          · exact k
        exact {
          good := ih.good.more (by simp) ih.good.once (fun x k => List.mem_cons_of_mem _ (ih.good.asked x k))
            (ih.good.order.more (by simp)) (fun _ => ih.complete hp) hu
          unstopped := fun k => absurd rfl k
          rest := fun _ => ha
          free := fun _ => ⟨f1, f2⟩
          busy := fun k => absurd ha k
          empty := fun k => by cases k
          opening := fun k => by cases k
          nodup := ih.nodup
          queue := fun x k => by dsimp only at k; rw [ih.empty hp] at k; cases k
          cand := fun x k => by dsimp only at k; rw [f2] at k; cases k
          exec := fun x k => by dsimp only at k; rw [f1] at k; cases k
          over := fun x k => ih.over x k
          all := fun x k => ih.all x (hm x k)
          head := fun x k => by dsimp only at k; rw [ha] at k; cases k
          sole := fun d q hd k => ih.sole d q hd (hm d k)
          fresh := fun x k => by dsimp only at k; rw [f1] at k; cases k }
      · rw [if_neg hp] at hx; cases hx

end ReactorC.Uni
