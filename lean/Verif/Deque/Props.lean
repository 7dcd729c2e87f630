import Verif.Deque.Model
import Mathlib.Tactic.Common
import Mathlib.Data.List.Nodup

/-! # C37: the deque behaves as a double-ended queue -/

namespace ReactorC.Deque

/-! ## Specification: a list -/

/-- Double-ended queue operations on a list; 0 stands for NULL. -/
def spec (l : List Nat) : Op → List Nat × Nat
  | .pushFront v => (v :: l, 0)
  | .pushBack v => (l ++ [v], 0)
  | .popFront => (l.tail, l.headD 0)
  | .popBack => (l.dropLast, l.getLastD 0)
  | .peekFront => (l, l.headD 0)
  | .peekBack => (l, l.getLastD 0)
  | .size => (l, l.length)
  | .isEmpty => (l, if l = [] then 1 else 0)

def specRun (l : List Nat) : List Op → List Nat × List Nat
  | [] => (l, [])
  | o :: os =>
    let r := spec l o
    let q := specRun r.1 os
    (q.1, r.2 :: q.2)

/-! ## Lemmas -/

theorem upd_same {α : Type} (f : Nat → α) (i : Nat) (v : α) : upd f i v i = v := by simp [upd]
theorem upd_other {α : Type} (f : Nat → α) {i j : Nat} (v : α) (h : j ≠ i) : upd f i v j = f j := by simp [upd, h]

/-- The deque represents the values `l`, stored at the addresses `A`. -/
structure Rep (s : State) (A : List Nat) (l : List Nat) : Prop where
  nf : s.fault = false
  nodup : A.Nodup
  lt : ∀ a ∈ A, a < s.fresh
  vals : A.map (fun a => (s.mem a).map Node.value) = l.map some
  front : s.front = A.head?
  back : s.back = A.getLast?
  next : ∀ u a b v, A = u ++ a :: b :: v → (s.mem a).bind Node.next = some b
  prev : ∀ u a b v, A = u ++ a :: b :: v → (s.mem b).bind Node.prev = some a
  size : s.size = A.length
  only : ∀ a, s.mem a ≠ none → a ∈ A

theorem Rep.len {s : State} {A l : List Nat} (h : Rep s A l) : A.length = l.length := by
  have := congrArg List.length h.vals; simpa using this

theorem Rep.node {s : State} {A l : List Nat} (h : Rep s A l) {a : Nat} (ha : a ∈ A) : ∃ n, s.mem a = some n := by
  have h1 : (s.mem a).map Node.value ∈ A.map (fun a => (s.mem a).map Node.value) :=
    List.mem_map.mpr ⟨a, ha, rfl⟩
  rw [h.vals] at h1
  obtain ⟨v, _, hv⟩ := List.mem_map.mp h1
  cases hm : s.mem a with
  | none => rw [hm] at hv; simp at hv
  | some n => exact ⟨n, rfl⟩

/-- Changing only links and unrelated nodes keeps the values. -/
theorem vals_congr {m m' : Nat → Option Node} {A : List Nat}
    (h : ∀ a ∈ A, (m' a).map Node.value = (m a).map Node.value) :
    A.map (fun a => (m' a).map Node.value) = A.map (fun a => (m a).map Node.value) :=
  List.map_congr_left h

theorem rep_empty : Rep empty [] [] := by
  refine ⟨rfl, List.nodup_nil, by simp, rfl, rfl, rfl, ?_, ?_, rfl, ?_⟩
  · intro u a b v h; simp at h
  · intro u a b v h; simp at h
  · intro a h; exact absurd rfl h

theorem pushFront_rep {s : State} {A l : List Nat} (h : Rep s A l) (v : Nat) :
    ∃ A', Rep (pushFront s v) A' (v :: l) := by
  refine ⟨s.fresh :: A, ?_⟩
  have hfr : s.fresh ∉ A := fun hx => by have := h.lt _ hx; omega
  unfold pushFront
  dsimp only
  have e1 : (create s v).front = s.front := rfl
  rw [e1, h.front]
  cases A with
  | nil =>
    have hl : l = [] := by have := h.len; simpa using this.symm
    subst hl
    refine ⟨h.nf, by simp, by simp [create], by simp [create, upd_same], rfl, rfl, ?_, ?_, rfl, ?_⟩
    · intro u a b w he; cases u <;> simp at he
    · intro u a b w he; cases u <;> simp at he
    · intro a ha
      by_cases hx : a = s.fresh
      · simp [hx]
      · change upd s.mem s.fresh _ a ≠ none at ha
        rw [upd_other _ _ hx] at ha
        have := h.only a ha; simp at this
  | cons f A =>
    obtain ⟨n, hn⟩ := h.node (List.mem_cons_self (a := f) (l := A))
    have hf1 : f ≠ s.fresh := fun hx => hfr (by rw [← hx]; simp)
    have hm1 : (create s v).mem f = some n := by simp only [create, upd_other _ _ hf1]; exact hn
    have em1 : modify (create s v) f (fun x => { x with prev := some s.fresh }) =
        { create s v with mem := upd (create s v).mem f (some { n with prev := some s.fresh }) } := by
      simp only [modify, hm1]
    have hm2 : (upd (create s v).mem f (some { n with prev := some s.fresh })) s.fresh = some ⟨none, none, v⟩ := by
      rw [upd_other _ _ hf1.symm]; simp [create, upd_same]
    simp only [List.head?_cons]
    rw [em1]
    simp only [modify, hm2]
    -- the final memory
    generalize hM : upd (upd (create s v).mem f (some { n with prev := some s.fresh })) s.fresh
      (some ⟨some f, none, v⟩) = M
    have hMn : M s.fresh = some ⟨some f, none, v⟩ := by rw [← hM, upd_same]
    have hMf : M f = some { n with prev := some s.fresh } := by rw [← hM, upd_other _ _ hf1, upd_same]
    have hMo : ∀ a, a ≠ s.fresh → a ≠ f → M a = s.mem a := by
      intro a h1 h2
      rw [← hM, upd_other _ _ h1, upd_other _ _ h2]; simp [create, upd_other _ _ h1]
    have hval : ∀ a ∈ f :: A, (M a).map Node.value = (s.mem a).map Node.value := by
      intro a ha
      by_cases haf : a = f
      · subst haf; rw [hMf, hn]; rfl
      · rw [hMo a (fun hx => hfr (by rw [← hx]; exact ha)) haf]
    refine ⟨h.nf, List.nodup_cons.mpr ⟨hfr, h.nodup⟩, ?_, ?_, rfl, ?_, ?_, ?_, ?_, ?_⟩
    · intro a ha
      rcases List.mem_cons.mp ha with rfl | ha
      · simp [create]
      · have := h.lt a ha; simp only [create]; omega
    · simp only [List.map_cons, hMn, Option.map_some]
      congr 1
      have := (vals_congr hval).trans h.vals
      simpa using this
    · show s.back = _
      rw [h.back]; simp [List.getLast?_cons_cons]
    · intro u a b w he
      cases u with
      | nil =>
        simp only [List.nil_append, List.cons.injEq] at he
        obtain ⟨rfl, rfl, _⟩ := he
        show (M s.fresh).bind Node.next = _
        rw [hMn]; rfl
      | cons c u =>
        simp only [List.cons_append, List.cons.injEq] at he
        have := h.next u a b w he.2
        have ha : a ∈ f :: A := by rw [he.2]; simp
        show (M a).bind Node.next = _
        by_cases haf : a = f
        · subst haf; rw [hMf]; rw [hn] at this; exact this
        · rw [hMo a (fun hx => hfr (by rw [← hx]; exact ha)) haf]; exact this
    · intro u a b w he
      cases u with
      | nil =>
        simp only [List.nil_append, List.cons.injEq] at he
        obtain ⟨rfl, rfl, _⟩ := he
        show (M f).bind Node.prev = _
        rw [hMf]; rfl
      | cons c u =>
        simp only [List.cons_append, List.cons.injEq] at he
        have := h.prev u a b w he.2
        have hb : b ∈ f :: A := by rw [he.2]; simp
        have hbf : b ≠ f := by
          rintro rfl
          have hnd := h.nodup
          rw [he.2] at hnd
          cases u with
          | nil =>
            simp only [List.nil_append, List.cons.injEq] at he
            rw [List.nil_append, ← he.2.1] at hnd
            simp at hnd
          | cons d u =>
            simp only [List.cons_append, List.cons.injEq] at he
            rw [List.cons_append, ← he.2.1] at hnd
            simp at hnd
        show (M b).bind Node.prev = _
        rw [hMo b (fun hx => hfr (by rw [← hx]; exact hb)) hbf]; exact this
    · show s.size + 1 = _
      rw [h.size]; rfl
    · intro a ha
      change M a ≠ none at ha
      by_cases hx : a = s.fresh
      · simp [hx]
      · by_cases hy : a = f
        · simp [hy]
        · rw [hMo a hx hy] at ha
          have := h.only a ha
          simp only [List.mem_cons] at this ⊢
          tauto

theorem append_two {A u v : List Nat} {n a b : Nat} (h : A ++ [n] = u ++ a :: b :: v) :
    (v = [] ∧ b = n ∧ A = u ++ [a]) ∨ ∃ v', v = v' ++ [n] ∧ A = u ++ a :: b :: v' := by
  rcases List.eq_nil_or_concat v with rfl | ⟨v', x, rfl⟩
  · left
    have h2 : A ++ [n] = (u ++ [a]) ++ [b] := by simpa using h
    obtain ⟨h3, h4⟩ := List.append_inj' h2 rfl
    simp only [List.cons.injEq, and_true] at h4
    exact ⟨rfl, h4.symm, h3⟩
  · right
    have h2 : A ++ [n] = (u ++ a :: b :: v') ++ [x] := by simpa using h
    obtain ⟨h3, h4⟩ := List.append_inj' h2 rfl
    simp only [List.cons.injEq, and_true] at h4
    exact ⟨v', by rw [h4]; simp, h3⟩

theorem pushBack_rep {s : State} {A l : List Nat} (h : Rep s A l) (v : Nat) :
    ∃ A', Rep (pushBack s v) A' (l ++ [v]) := by
  refine ⟨A ++ [s.fresh], ?_⟩
  have hfr : s.fresh ∉ A := fun hx => by have := h.lt _ hx; omega
  unfold pushBack
  dsimp only
  have e1 : (create s v).back = s.back := rfl
  rw [e1, h.back]
  rcases List.eq_nil_or_concat A with rfl | ⟨A0, f, rfl⟩
  · have hl : l = [] := by have := h.len; simpa using this.symm
    subst hl
    have hsz := h.size
    refine ⟨h.nf, by simp, by simp [create], by simp [create, upd_same], rfl, rfl, ?_, ?_, ?_, ?_⟩
    · intro u a b w he; cases u <;> simp at he
    · intro u a b w he; cases u <;> simp at he
    · show s.size + 1 = _
      rw [hsz]; rfl
    · intro a ha
      by_cases hx : a = s.fresh
      · simp [hx]
      · change upd s.mem s.fresh _ a ≠ none at ha
        rw [upd_other _ _ hx] at ha
        have := h.only a ha; simp at this
  · have hfm : f ∈ A0.concat f := by simp
    obtain ⟨n, hn⟩ := h.node hfm
    have hf1 : f ≠ s.fresh := fun hx => hfr (by rw [← hx]; exact hfm)
    have hm1 : (create s v).mem f = some n := by simp only [create, upd_other _ _ hf1]; exact hn
    have em1 : modify (create s v) f (fun x => { x with next := some s.fresh }) =
        { create s v with mem := upd (create s v).mem f (some { n with next := some s.fresh }) } := by
      simp only [modify, hm1]
    have hm2 : (upd (create s v).mem f (some { n with next := some s.fresh })) s.fresh = some ⟨none, none, v⟩ := by
      rw [upd_other _ _ hf1.symm]; simp [create, upd_same]
    have hgl : (A0.concat f).getLast? = some f := by simp
    rw [hgl]
    dsimp only
    rw [em1]
    simp only [modify, hm2]
    generalize hM : upd (upd (create s v).mem f (some { n with next := some s.fresh })) s.fresh
      (some ⟨none, some f, v⟩) = M
    have hMn : M s.fresh = some ⟨none, some f, v⟩ := by rw [← hM, upd_same]
    have hMf : M f = some { n with next := some s.fresh } := by rw [← hM, upd_other _ _ hf1, upd_same]
    have hMo : ∀ a, a ≠ s.fresh → a ≠ f → M a = s.mem a := by
      intro a h1 h2
      rw [← hM, upd_other _ _ h1, upd_other _ _ h2]; simp [create, upd_other _ _ h1]
    have hval : ∀ a ∈ A0.concat f, (M a).map Node.value = (s.mem a).map Node.value := by
      intro a ha
      by_cases haf : a = f
      · subst haf; rw [hMf, hn]; rfl
      · rw [hMo a (fun hx => hfr (by rw [← hx]; exact ha)) haf]
    have hnd0 : (A0 ++ [f]).Nodup := by have := h.nodup; rwa [List.concat_eq_append] at this
    have hnf : ∀ a ∈ A0, a ≠ f := by
      intro a ha hx; subst hx
      rw [List.nodup_append] at hnd0
      exact hnd0.2.2 a ha a (by simp) rfl
    refine ⟨h.nf, ?_, ?_, ?_, ?_, ?_, ?_, ?_, ?_, ?_⟩
    · rw [List.nodup_append]
      refine ⟨h.nodup, by simp, ?_⟩
      intro a ha b hb hx
      simp only [List.mem_singleton] at hb
      subst hb; subst hx; exact hfr ha
    · intro a ha
      rcases List.mem_append.mp ha with ha | ha
      · have := h.lt a ha; simp only [create]; omega
      · simp only [List.mem_singleton] at ha; subst ha; simp [create]
    · rw [List.map_append, List.map_append]
      have := (vals_congr hval).trans h.vals
      simp only [List.map_cons, List.map_nil, hMn, Option.map_some]
      rw [this]
    · show s.front = _
      rw [h.front]; cases A0 <;> simp
    · simp
    · intro u a b w he
      show (M a).bind Node.next = _
      rcases append_two he with ⟨rfl, rfl, h3⟩ | ⟨w', rfl, h3⟩
      · have : f = a := by
          rw [List.concat_eq_append] at h3
          obtain ⟨_, h4⟩ := List.append_inj' h3 rfl
          simpa using h4
        subst this
        rw [hMf]; rfl
      · have hx := h.next u a b w' h3
        have ha : a ∈ A0.concat f := by rw [h3]; simp
        by_cases haf : a = f
        · exfalso
          have hnd := h.nodup
          rw [List.concat_eq_append] at h3
          have hmem : a ∈ A0 := by
            rcases List.eq_nil_or_concat w' with rfl | ⟨w2, y, rfl⟩
            · have h5 : A0 ++ [f] = (u ++ [a]) ++ [b] := by simpa using h3
              obtain ⟨h6, _⟩ := List.append_inj' h5 rfl
              rw [h6]; simp
            · have h5 : A0 ++ [f] = (u ++ a :: b :: w2) ++ [y] := by simpa using h3
              obtain ⟨h6, _⟩ := List.append_inj' h5 rfl
              rw [h6]; simp
          exact hnf a hmem haf
        · rw [hMo a (fun hx => hfr (by rw [← hx]; exact ha)) haf]; exact hx
    · intro u a b w he
      show (M b).bind Node.prev = _
      rcases append_two he with ⟨rfl, rfl, h3⟩ | ⟨w', rfl, h3⟩
      · have : f = a := by
          rw [List.concat_eq_append] at h3
          obtain ⟨_, h4⟩ := List.append_inj' h3 rfl
          simpa using h4
        subst this
        rw [hMn]; rfl
      · have hx := h.prev u a b w' h3
        have hb : b ∈ A0.concat f := by rw [h3]; simp
        by_cases hbf : b = f
        · subst hbf; rw [hMf]; rw [hn] at hx; exact hx
        · rw [hMo b (fun hx => hfr (by rw [← hx]; exact hb)) hbf]; exact hx
    · show s.size + 1 = _
      rw [h.size]; simp
    · intro a ha
      change M a ≠ none at ha
      by_cases hx : a = s.fresh
      · simp [hx]
      · by_cases hy : a = f
        · simp [hy]
        · rw [hMo a hx hy] at ha
          have := h.only a ha
          simp only [List.mem_append, List.concat_eq_append, List.mem_singleton] at this ⊢
          tauto

theorem popFront_rep {s : State} {A l : List Nat} (h : Rep s A l) :
    (∃ A', Rep (popFront s).1 A' l.tail) ∧ (popFront s).2 = l.headD 0 := by
  unfold popFront
  rw [h.front]
  cases A with
  | nil =>
    have hl : l = [] := by have := h.len; simpa using this.symm
    subst hl
    exact ⟨⟨[], h⟩, rfl⟩
  | cons f A =>
    obtain ⟨n, hn⟩ := h.node (List.mem_cons_self (a := f) (l := A))
    have hnd := List.nodup_cons.mp h.nodup
    cases l with
    | nil => have := h.len; simp at this
    | cons x l =>
      have hv := h.vals
      simp only [List.map_cons, hn, Option.map_some, List.cons.injEq, Option.some.injEq] at hv
      simp only [List.head?_cons, hn, List.headD_cons, List.tail_cons]
      refine ⟨⟨A, ?_⟩, hv.1⟩
      have hother : ∀ a ∈ A, upd s.mem f none a = s.mem a := fun a ha =>
        upd_other _ _ (by rintro rfl; exact hnd.1 ha)
      have hvals : A.map (fun a => (upd s.mem f none a).map Node.value) = l.map some := by
        rw [vals_congr (m := s.mem) (fun a ha => by rw [hother a ha])]; exact hv.2
      have hnext : ∀ u a b v, A = u ++ a :: b :: v → (upd s.mem f none a).bind Node.next = some b := by
        intro u a b v he
        rw [hother a (by rw [he]; simp)]
        exact h.next (f :: u) a b v (by rw [he]; rfl)
      have hprev : ∀ u a b v, A = u ++ a :: b :: v → (upd s.mem f none b).bind Node.prev = some a := by
        intro u a b v he
        rw [hother b (by rw [he]; simp)]
        exact h.prev (f :: u) a b v (by rw [he]; rfl)
      have hsz : s.size - 1 = A.length := by rw [h.size]; simp
      have honly : ∀ a, upd s.mem f none a ≠ none → a ∈ A := by
        intro a ha
        by_cases hx : a = f
        · rw [hx, upd_same] at ha; exact absurd rfl ha
        · rw [upd_other _ _ hx] at ha
          exact (List.mem_cons.mp (h.only a ha)).resolve_left hx
      cases A with
      | nil =>
        have heq : s.front = s.back := by rw [h.front, h.back]; simp
        refine ⟨h.nf, List.nodup_nil, by simp, hvals, ?_, ?_, hnext, hprev, hsz, honly⟩
        · simp [unlinkFront, heq]
        · simp [unlinkFront, heq]
      | cons g A =>
        have hne : ¬ (some f = (f :: g :: A).getLast?) := by
          rw [List.getLast?_cons_cons]
          intro hx
          have := List.mem_of_getLast? hx.symm
          exact hnd.1 this
        have hne' : ¬ s.front = s.back := by rw [h.front, h.back]; simpa using hne
        refine ⟨h.nf, hnd.2, fun a ha => h.lt a (List.mem_cons_of_mem _ ha), hvals, ?_, ?_, hnext, hprev, hsz, honly⟩
        · show (if s.front = s.back then none else n.next) = _
          rw [if_neg hne']
          have := h.next [] f g A rfl
          rw [hn] at this; exact this
        · show (if s.front = s.back then none else s.back) = _
          rw [if_neg hne', h.back, List.getLast?_cons_cons]

theorem popBack_rep {s : State} {A l : List Nat} (h : Rep s A l) :
    (∃ A', Rep (popBack s).1 A' l.dropLast) ∧ (popBack s).2 = l.getLastD 0 := by
  unfold popBack
  rw [h.back]
  rcases List.eq_nil_or_concat A with rfl | ⟨A0, f, rfl⟩
  · have hl : l = [] := by have := h.len; simpa using this.symm
    subst hl
    exact ⟨⟨[], h⟩, rfl⟩
  · rw [List.concat_eq_append] at h ⊢
    obtain ⟨n, hn⟩ := h.node (show f ∈ A0 ++ [f] by simp)
    have hnd := List.nodup_append.mp h.nodup
    have hnf : ∀ a ∈ A0, a ≠ f := fun a ha => hnd.2.2 a ha f (by simp)
    rcases List.eq_nil_or_concat l with rfl | ⟨l0, x, rfl⟩
    · have := h.len; simp at this
    · rw [List.concat_eq_append] at h ⊢
      have hv := h.vals
      rw [List.map_append, List.map_append] at hv
      obtain ⟨hv1, hv2⟩ := List.append_inj' hv rfl
      simp only [List.map_cons, List.map_nil, hn, Option.map_some, List.cons.injEq, Option.some.injEq, and_true] at hv2
      simp only [List.getLast?_append_of_ne_nil _ (List.cons_ne_nil f []), List.getLast?_singleton, hn]
      refine ⟨⟨A0, ?_⟩, ?_⟩
      · have hother : ∀ a ∈ A0, upd s.mem f none a = s.mem a := fun a ha => upd_other _ _ (hnf a ha)
        have hdl : (l0 ++ [x]).dropLast = l0 := by simp
        rw [hdl]
        have hvals : A0.map (fun a => (upd s.mem f none a).map Node.value) = l0.map some := by
          rw [vals_congr (m := s.mem) (fun a ha => by rw [hother a ha])]; exact hv1
        have hnext : ∀ u a b v, A0 = u ++ a :: b :: v → (upd s.mem f none a).bind Node.next = some b := by
          intro u a b v he
          rw [hother a (by rw [he]; simp)]
          exact h.next u a b (v ++ [f]) (by rw [he]; simp)
        have hprev : ∀ u a b v, A0 = u ++ a :: b :: v → (upd s.mem f none b).bind Node.prev = some a := by
          intro u a b v he
          rw [hother b (by rw [he]; simp)]
          exact h.prev u a b (v ++ [f]) (by rw [he]; simp)
        have hsz : s.size - 1 = A0.length := by rw [h.size]; simp
        have honly : ∀ a, upd s.mem f none a ≠ none → a ∈ A0 := by
          intro a ha
          by_cases hx : a = f
          · rw [hx, upd_same] at ha; exact absurd rfl ha
          · rw [upd_other _ _ hx] at ha
            have := h.only a ha
            simp only [List.mem_append, List.mem_singleton] at this
            exact this.resolve_right hx
        rcases List.eq_nil_or_concat A0 with rfl | ⟨A1, g, rfl⟩
        · have heq : s.front = s.back := by rw [h.front, h.back]; simp
          refine ⟨h.nf, List.nodup_nil, by simp, hvals, ?_, ?_, hnext, hprev, hsz, honly⟩
          · simp [unlinkBack, heq]
          · simp [unlinkBack, heq]
        · rw [List.concat_eq_append] at *
          have hne : ¬ ((A1 ++ [g] ++ [f]).head? = some f) := by
            intro hx
            have h1 : (A1 ++ [g] ++ [f]).head? = (A1 ++ [g]).head? := by cases A1 <;> simp
            rw [h1] at hx
            exact hnf f (List.mem_of_head? hx) rfl
          have hne' : ¬ s.front = s.back := by
            rw [h.front, h.back]
            rw [List.getLast?_append_of_ne_nil _ (List.cons_ne_nil f []), List.getLast?_singleton]; exact hne
          refine ⟨h.nf, hnd.1, fun a ha => h.lt a (List.mem_append_left _ ha), hvals, ?_, ?_, hnext, hprev, hsz, honly⟩
          · show (if s.front = s.back then none else s.front) = _
            rw [if_neg hne', h.front]; cases A1 <;> simp
          · show (if s.front = s.back then none else n.prev) = _
            rw [if_neg hne']
            have := h.prev A1 g f [] (by simp)
            rw [hn] at this
            simp only [Option.bind_some] at this
            rw [this]; simp
      · simp [hv2]

theorem exec_rep {s : State} {A l : List Nat} (h : Rep s A l) (o : Op) :
    (∃ A', Rep (exec s o).1 A' (spec l o).1) ∧ (exec s o).2 = (spec l o).2 := by
  cases o with
  | pushFront v => exact ⟨pushFront_rep h v, rfl⟩
  | pushBack v => exact ⟨pushBack_rep h v, rfl⟩
  | popFront => exact popFront_rep h
  | popBack => exact popBack_rep h
  | peekFront =>
    simp only [exec, spec, peekFront, h.front]
    cases A with
    | nil =>
      have hl : l = [] := by have := h.len; simpa using this.symm
      subst hl; exact ⟨⟨[], h⟩, rfl⟩
    | cons f A =>
      obtain ⟨n, hn⟩ := h.node (List.mem_cons_self (a := f) (l := A))
      cases l with
      | nil => have := h.len; simp at this
      | cons x l =>
        have hv := h.vals
        simp only [List.map_cons, hn, Option.map_some, List.cons.injEq, Option.some.injEq] at hv
        simp only [List.head?_cons, peek, hn]
        exact ⟨⟨_, h⟩, hv.1⟩
  | peekBack =>
    simp only [exec, spec, peekBack, h.back]
    rcases List.eq_nil_or_concat A with rfl | ⟨A0, f, rfl⟩
    · have hl : l = [] := by have := h.len; simpa using this.symm
      subst hl; exact ⟨⟨[], h⟩, rfl⟩
    · rw [List.concat_eq_append] at h ⊢
      obtain ⟨n, hn⟩ := h.node (show f ∈ A0 ++ [f] by simp)
      rcases List.eq_nil_or_concat l with rfl | ⟨l0, x, rfl⟩
      · have := h.len; simp at this
      · rw [List.concat_eq_append] at h ⊢
        have hv := h.vals
        rw [List.map_append, List.map_append] at hv
        obtain ⟨hv1, hv2⟩ := List.append_inj' hv rfl
        simp only [List.map_cons, List.map_nil, hn, Option.map_some, List.cons.injEq, Option.some.injEq, and_true] at hv2
        simp only [List.getLast?_append_of_ne_nil _ (List.cons_ne_nil f []), List.getLast?_singleton, peek, hn]
        exact ⟨⟨_, h⟩, by simp [hv2]⟩
  | size => exact ⟨⟨A, h⟩, by simp only [exec, spec, h.size, h.len]⟩
  | isEmpty =>
    refine ⟨⟨A, h⟩, ?_⟩
    simp only [exec, spec, isEmpty, h.front]
    have hl := h.len
    cases A <;> cases l <;> simp at hl ⊢

theorem run_rep {s : State} {A l : List Nat} (h : Rep s A l) (ops : List Op) :
    (∃ A', Rep (run s ops).1 A' (specRun l ops).1) ∧ (run s ops).2 = (specRun l ops).2 := by
  induction ops generalizing s A l with
  | nil => exact ⟨⟨A, h⟩, rfl⟩
  | cons o os ih =>
    obtain ⟨⟨A', h1⟩, h2⟩ := exec_rep h o
    obtain ⟨h3, h4⟩ := ih h1
    exact ⟨h3, by simp only [run, specRun, h2, h4]⟩

/-! ## The property -/

/-- **C37** In every history of operations on a new deque, all results are those of a list used as a
double-ended queue (0, that is NULL, from an empty one), and no freed or unallocated node is accessed. -/
theorem C37_deque_is_list (ops : List Op) :
    (run empty ops).2 = (specRun [] ops).2 ∧ (run empty ops).1.fault = false := by
  obtain ⟨⟨A, h⟩, h2⟩ := run_rep rep_empty ops
  exact ⟨h2, h.nf⟩

/-- **C37** Nodes are freed exactly when they are popped: the allocated nodes are those of the elements in
the deque, if the heap held no node at the start. -/
theorem C37_no_node_leaks (ops : List Op) : ∃ A : List Nat, A.Nodup ∧
    A.length = (specRun [] ops).1.length ∧ ∀ a, (run empty ops).1.mem a ≠ none ↔ a ∈ A := by
  obtain ⟨⟨A, h⟩, _⟩ := run_rep rep_empty ops
  refine ⟨A, h.nodup, h.len, fun a => ⟨h.only a, fun ha => ?_⟩⟩
  obtain ⟨n, hn⟩ := h.node ha
  rw [hn]; simp

/-- **C37** Whatever was in the memory of the deque before, after `deque_initialize` its results are those of a list, and no node is accessed that is not its own. -/
theorem C37_initialized_deque_is_list (front back : Option Nat) (size : Nat) (ops : List Op) :
    (run (init { empty with front := front, back := back, size := size }) ops).2 = (specRun [] ops).2 ∧
    (run (init { empty with front := front, back := back, size := size }) ops).1.fault = false :=
  C37_deque_is_list ops

/-- An address and a size in memory that has not been cleared. -/
example : (run (init { empty with front := some 7, back := none, size := 99 }) [.isEmpty, .size, .popFront, .pushBack 4, .size]).2 = [1, 0, 0, 0, 1] := by decide

/-- A history using both ends, going through the empty deque. -/
example : (run empty [.pushBack 1, .pushFront 2, .pushBack 3, .popFront, .popBack, .peekFront, .size, .popBack,
    .popBack, .isEmpty, .pushFront 9, .popBack]).2 = [0, 0, 0, 2, 3, 1, 1, 1, 0, 1, 0, 9] := by decide

end ReactorC.Deque
