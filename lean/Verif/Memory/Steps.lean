import Verif.Memory.Order

/-! # Proper histories are safe and keep the ownership -/

namespace Verif.Memory

theorem set_split {l : List Env} {i : Nat} {e : Env} (h : l[i]? = some e) (e' : Env) :
    ∃ l1 l2, l = l1 ++ e :: l2 ∧ l.set i e' = l1 ++ e' :: l2 := by
  obtain ⟨hi, rfl⟩ := List.getElem?_eq_some_iff.1 h
  obtain ⟨l1, l2, h1, -, h2⟩ := List.exists_of_set (a' := e') hi
  exact ⟨l1, l2, h1, h2⟩

theorem envs_count {l1 l2 : List Env} {e e' : Env} {new : List Nat}
    (h : ∀ a, e'.memory.count a = new.count a + e.memory.count a) (a : Nat) :
    ((l1 ++ e' :: l2).flatMap Env.memory).count a =
      new.count a + ((l1 ++ e :: l2).flatMap Env.memory).count a := by
  simp only [List.flatMap_append, List.flatMap_cons, List.count_append, h]
  omega

theorem step_newReactor {s : St} (i : Inv s) : ∃ s', apply s .newReactor = some s' ∧ Inv s' := by
  refine ⟨_, rfl, ?_⟩
  have hm : s.mutex (s.next + 1) = none := by
    by_contra h
    have := i.fresh _ h
    omega
  have ha : s.allocs (s.next + 1) = [] := by
    by_contra h
    have := i.freshA _ h
    omega
  obtain ⟨k1, k2, k3⟩ := grow (s' := { s with
        next := s.next + 2
        heap := allocated s.heap [s.next, s.next + 1]
        toFree := (s.next, s.next + 1) :: s.toFree }) i [s.next, s.next + 1] (by
    rw [List.perm_iff_count]
    intro a
    rw [List.count_append, owned_count, owned_count]
    dsimp only
    simp only [List.flatMap_cons, List.map_cons, List.filterMap_cons, hm, memOf, ha, recs, List.flatMap_nil,
      List.count_append, List.count_cons, List.count_nil, List.cons_append, List.nil_append]
    omega) (by simp) (by simp) (by simp) rfl
  refine ⟨k1, k2, k3, ?_, i.ptrs, ?_, ?_, i.notYet⟩
  · intro e he b hb
    obtain ⟨h1, h2, h3⟩ := i.wd e he b hb
    exact ⟨by simp only [List.map_cons, List.mem_cons]; exact .inr h1, h2, h3⟩
  · intro r hr
    have := i.fresh r hr
    show r < s.next + 2
    omega
  · intro r hr
    have := i.freshA r hr
    show r < s.next + 2
    omega

theorem step_ownReactor {s : St} (i : Inv s) : ∃ s', apply s .ownReactor = some s' ∧ Inv s' := by
  refine ⟨_, rfl, ?_⟩
  have ha : s.allocs s.next = [] := by
    by_contra h
    have := i.freshA _ h
    omega
  obtain ⟨k1, k2, k3⟩ := grow (s' := { s with
        next := s.next + 1
        heap := allocated s.heap [s.next]
        own := s.next :: s.own }) i [s.next] (by
    rw [List.perm_iff_count]
    intro a
    rw [List.count_append, owned_count, owned_count]
    dsimp only
    simp only [List.flatMap_cons, memOf, ha, recs, List.flatMap_nil,
      List.count_append, List.count_cons, List.count_nil, List.cons_append, List.nil_append]
    omega) (by simp) (by simp) (by simp) rfl
  refine ⟨k1, k2, k3, i.wd, i.ptrs, ?_, ?_, i.notYet⟩
  · intro r hr
    have := i.fresh r hr
    show r < s.next + 1
    omega
  · intro r hr
    have := i.freshA r hr
    show r < s.next + 1
    omega

theorem step_allocateLoose {s : St} (i : Inv s) : ∃ s', apply s .allocateLoose = some s' ∧ Inv s' := by
  refine ⟨_, rfl, ?_⟩
  obtain ⟨k1, k2, k3⟩ := grow (s' := { s with
        next := s.next + 1
        heap := allocated s.heap [s.next]
        loose := s.next :: s.loose }) i [s.next] (by
    rw [List.perm_iff_count]
    intro a
    rw [List.count_append, owned_count, owned_count]
    dsimp only
    simp only [List.count_cons, List.count_nil]
    omega) (by simp) (by simp) (by simp) rfl
  refine ⟨k1, k2, k3, i.wd, i.ptrs, ?_, ?_, i.notYet⟩
  · intro r hr
    have := i.fresh r hr
    show r < s.next + 1
    omega
  · intro r hr
    have := i.freshA r hr
    show r < s.next + 1
    omega

theorem step_freeLoose {s : St} {a : Nat} (i : Inv s) (h : a ∈ s.loose) :
    ∃ s', apply s (.freeLoose a) = some s' ∧ Inv s' := by
  have hl : s.heap a = true := (i.live a).2 (by simp [owned, h])
  refine ⟨{ s with heap := Function.update s.heap a false, loose := s.loose.erase a },
    by simp [apply, exec, Act.exec, hl], ?_⟩
  obtain ⟨k1, k2, k3⟩ := shrink (s' := { s with
        heap := Function.update s.heap a false
        loose := s.loose.erase a }) i [a] (by
    rw [List.perm_iff_count]
    intro b
    have h1 := (List.perm_cons_erase h).count_eq b
    rw [List.count_append, owned_count, owned_count]
    dsimp only
    simp only [List.count_cons, List.count_nil] at h1 ⊢
    omega) rfl (by
    intro b
    by_cases hb : b = a
    · subst hb
      simp
    · simp [Function.update_of_ne hb, hb])
  exact ⟨k1, k2, k3, i.wd, i.ptrs, i.fresh, i.freshA, i.notYet⟩

theorem step_allocate {s : St} {r : Nat} (i : Inv s) (h : r ∈ s.toFree.map Prod.snd ∨ r ∈ s.own) :
    ∃ s', apply s (.allocate r) = some s' ∧ Inv s' := by
  have hl : s.heap r = true := (i.live r).2 (mem_owned_self h)
  refine ⟨{ s with
          next := s.next + 2
          heap := allocated s.heap [s.next, s.next + 1]
          allocs := Function.update s.allocs r ((s.next, s.next + 1) :: s.allocs r) },
    by simp [apply, exec, Act.exec, hl], ?_⟩
  generalize hs' : ({ s with
          next := s.next + 2
          heap := allocated s.heap [s.next, s.next + 1]
          allocs := Function.update s.allocs r ((s.next, s.next + 1) :: s.allocs r) } : St) = s'
  have e1 : memOf s'.allocs r = r :: s.next :: (s.next + 1) :: recs (s.allocs r) := by
    subst hs'
    simp [memOf, recs]
  have e2 : ∀ x, x ≠ r → memOf s'.allocs x = memOf s.allocs x := by
    subst hs'
    intro x hx
    simp [memOf, Function.update_of_ne hx]
  have hc : ∀ a, (memOf s'.allocs r).count a = [s.next, s.next + 1].count a + (memOf s.allocs r).count a := by
    intro a
    rw [e1]
    simp only [memOf, List.count_cons, List.count_nil]
    omega
  have once := selfs_once i r
  have key : ∀ a, (s.toFree.flatMap fun q => q.1 :: memOf s'.allocs q.2).count a +
      (s.own.flatMap (memOf s'.allocs)).count a =
      [s.next, s.next + 1].count a + ((s.toFree.flatMap fun q => q.1 :: memOf s.allocs q.2).count a +
      (s.own.flatMap (memOf s.allocs)).count a) := by
    intro a
    rcases h with h | h
    · have h0 : r ∉ s.own := by
        apply not_mem_of_count
        have := List.count_pos_iff.2 h
        omega
      have h1 : s.own.flatMap (memOf s'.allocs) = s.own.flatMap (memOf s.allocs) := by
        apply flatMap_congr'
        intro x hx
        exact e2 x (by rintro rfl; exact h0 hx)
      obtain ⟨q, hq, hq2⟩ := List.mem_map.1 h
      obtain ⟨l1, l2, hl12⟩ := List.append_of_mem hq
      rw [hl12] at once
      simp only [List.map_append, List.map_cons, List.count_append, List.count_cons, hq2, beq_self_eq_true, if_true]
        at once
      have n1 : r ∉ l1.map Prod.snd := not_mem_of_count (by omega)
      have n2 : r ∉ l2.map Prod.snd := not_mem_of_count (by omega)
      rw [h1, hl12, flatMap_count (f := fun q => q.1 :: memOf s.allocs q.2) (new := [s.next, s.next + 1])]
      · omega
      · intro b
        have := hc b
        rw [hq2]
        simp only [List.count_cons (a := b) (b := q.1)]
        omega
      · intro y hy
        rw [e2]
        intro e
        exact n1 (List.mem_map.2 ⟨y, hy, e⟩)
      · intro y hy
        rw [e2]
        intro e
        exact n2 (List.mem_map.2 ⟨y, hy, e⟩)
    · have h0 : r ∉ s.toFree.map Prod.snd := by
        apply not_mem_of_count
        have := List.count_pos_iff.2 h
        omega
      have h1 : (s.toFree.flatMap fun q => q.1 :: memOf s'.allocs q.2) =
          s.toFree.flatMap fun q => q.1 :: memOf s.allocs q.2 := by
        apply flatMap_congr'
        intro x hx
        rw [e2]
        intro e
        exact h0 (List.mem_map.2 ⟨x, hx, e⟩)
      obtain ⟨l1, l2, hl12⟩ := List.append_of_mem h
      rw [hl12] at once
      simp only [List.count_append, List.count_cons, beq_self_eq_true, if_true] at once
      have n1 : r ∉ l1 := not_mem_of_count (by omega)
      have n2 : r ∉ l2 := not_mem_of_count (by omega)
      rw [h1, hl12, flatMap_count (f := memOf s.allocs) (new := [s.next, s.next + 1]) hc]
      · omega
      · intro y hy
        exact e2 y (by rintro rfl; exact n1 hy)
      · intro y hy
        exact e2 y (by rintro rfl; exact n2 hy)
  have hn : s'.next = s.next + 2 := by subst hs'; rfl
  obtain ⟨k1, k2, k3⟩ := grow (s' := s') i [s.next, s.next + 1] (by
    rw [List.perm_iff_count]
    intro a
    have := key a
    rw [List.count_append, owned_count, owned_count]
    subst hs'
    dsimp only at this ⊢
    omega) (by simp) (by simp [hn]) (by omega) (by subst hs'; rfl)
  have hr := i.bound r (mem_owned_self h)
  refine ⟨k1, k2, k3, by subst hs'; exact i.wd, by subst hs'; exact i.ptrs, ?_, ?_, by subst hs'; exact i.notYet⟩
  · intro x hx
    rw [hn]
    have := i.fresh x (by subst hs'; exact hx)
    omega
  · intro x hx
    rw [hn]
    by_cases hxr : x = r
    · omega
    · have := i.freshA x (by
        subst hs'
        simpa [Function.update_of_ne hxr] using hx)
      omega

theorem step_freeReactor {s : St} {r : Nat} (i : Inv s) (h : r ∈ s.own) :
    ∃ s', apply s (.freeReactor r) = some s' ∧ Inv s' := by
  have hmem : ∀ a ∈ memOf s.allocs r, a ∈ owned s := by
    intro a ha
    simp only [owned, List.mem_append]
    exact .inl (.inl (.inl (.inr (List.mem_flatMap.2 ⟨r, h, ha⟩))))
  have hnd : (memOf s.allocs r).Nodup := by
    have := i.nodup
    simp only [owned, List.nodup_append] at this
    exact (List.nodup_flatMap.1 this.1.1.1.2.1).1 r h
  obtain ⟨h', e, hh⟩ := exec_ok (freeReactor_ordered hnd) fun a ha =>
    (i.live a).2 (hmem a (freeReactor_targets ha))
  refine ⟨{ s with heap := h', own := s.own.erase r }, by simp [apply, e], ?_⟩
  obtain ⟨k1, k2, k3⟩ := shrink (s' := { s with heap := h', own := s.own.erase r }) i (memOf s.allocs r) (by
    rw [List.perm_iff_count]
    intro a
    have h1 := ((List.perm_cons_erase h).flatMap_right (memOf s.allocs)).count_eq a
    rw [List.flatMap_cons, List.count_append] at h1
    rw [List.count_append, owned_count, owned_count]
    dsimp only
    omega) rfl (by
    intro a
    rw [hh, freeReactor_frees])
  exact ⟨k1, k2, k3, i.wd, i.ptrs, i.fresh, i.freshA, i.notYet⟩

theorem step_newMutex {s : St} {r : Nat} (i : Inv s) (h : r ∈ s.toFree.map Prod.snd) (hm : s.mutex r = none) :
    ∃ s', apply s (.newMutex r) = some s' ∧ Inv s' := by
  have hl : s.heap r = true := (i.live r).2 (mem_owned_self (.inl h))
  refine ⟨{ s with
          next := s.next + 1
          heap := allocated s.heap [s.next]
          mutex := Function.update s.mutex r (some s.next) },
    by simp [apply, exec, Act.exec, hl], ?_⟩
  have once := selfs_once i r
  obtain ⟨l1, l2, hl12⟩ := List.append_of_mem h
  rw [hl12] at once
  simp only [List.count_append, List.count_cons, beq_self_eq_true, if_true] at once
  have n1 : r ∉ l1 := not_mem_of_count (by omega)
  have n2 : r ∉ l2 := not_mem_of_count (by omega)
  have f1 : l1.filterMap (Function.update s.mutex r (some s.next)) = l1.filterMap s.mutex :=
    filterMap_congr' fun x hx => Function.update_of_ne (by rintro rfl; exact n1 hx) _ _
  have f2 : l2.filterMap (Function.update s.mutex r (some s.next)) = l2.filterMap s.mutex :=
    filterMap_congr' fun x hx => Function.update_of_ne (by rintro rfl; exact n2 hx) _ _
  obtain ⟨k1, k2, k3⟩ := grow (s' := { s with
          next := s.next + 1
          heap := allocated s.heap [s.next]
          mutex := Function.update s.mutex r (some s.next) }) i [s.next] (by
    rw [List.perm_iff_count]
    intro a
    rw [List.count_append, owned_count, owned_count]
    dsimp only
    simp only [hl12, List.filterMap_append, List.filterMap_cons, Function.update_self, hm, f1, f2,
      List.count_append, List.count_cons, List.count_nil]
    omega) (by simp) (by simp) (by simp) rfl
  refine ⟨k1, k2, k3, ?_, i.ptrs, ?_, ?_, i.notYet⟩
  · intro e he b hb
    obtain ⟨h1, h2, h3⟩ := i.wd e he b hb
    refine ⟨h1, ?_, h3⟩
    by_cases hbr : b = r
    · subst hbr
      simp
    · simpa [Function.update_of_ne hbr] using h2
  · intro x hx
    show x < s.next + 1
    by_cases hxr : x = r
    · have := i.bound r (mem_owned_self (.inl h))
      omega
    · have := i.fresh x (by simpa [Function.update_of_ne hxr] using hx)
      omega
  · intro x hx
    have := i.freshA x hx
    show x < s.next + 1
    omega

theorem step_initEnv {s : St} (i : Inv s) (c : Cfg) : ∃ s', apply s (.initEnv c) = some s' ∧ Inv s' := by
  refine ⟨_, rfl, ?_⟩
  obtain ⟨k1, k2, k3⟩ := grow (s' := initEnv s c) i
      (Field.all.filterMap fun f => if c.allocates f then some (s.next + Field.all.idxOf f) else none) (by
    rw [List.perm_iff_count]
    intro a
    rw [List.count_append, owned_count, owned_count]
    simp only [initEnv, List.flatMap_append, List.flatMap_cons, List.flatMap_nil, List.append_nil,
      Env.memory, List.count_append]
    omega) (init_nodup c s.next) (by
    intro a ha
    obtain ⟨f, -, hf⟩ := List.mem_filterMap.1 ha
    split at hf <;> simp at hf
    have := idx_lt f
    show s.next ≤ a ∧ a < s.next + Field.all.length
    omega) (by show s.next ≤ s.next + Field.all.length; omega) rfl
  refine ⟨k1, k2, k3, ?_, ?_, ?_, ?_, i.notYet⟩
  · intro e he b hb
    simp only [initEnv, List.mem_append, List.mem_singleton] at he
    rcases he with he | rfl
    · exact i.wd e he b hb
    · simp at hb
  · intro e he f
    simp only [initEnv, List.mem_append, List.mem_singleton] at he
    rcases he with he | rfl
    · exact i.ptrs e he f
    · dsimp only
      cases c.allocates f <;> rfl
  · intro x hx
    have := i.fresh x hx
    show x < s.next + Field.all.length
    omega
  · intro x hx
    have := i.freshA x hx
    show x < s.next + Field.all.length
    omega

theorem step_addWatchdog {s : St} {k r : Nat} {e : Env} (i : Inv s) (he : s.envs[k]? = some e)
    (hw : e.bases.length < e.cfg.watchdogs) (h : r ∈ s.toFree.map Prod.snd) (hm : (s.mutex r).isSome) :
    ∃ s', apply s (.addWatchdog k r) = some s' ∧ Inv s' := by
  refine ⟨{ s with envs := s.envs.set k { e with bases := e.bases ++ [r] } }, by simp [apply, he], ?_⟩
  obtain ⟨l1, l2, h1, h2⟩ := set_split he { e with bases := e.bases ++ [r] }
  obtain ⟨k1, k2, k3⟩ := grow (s' := { s with envs := s.envs.set k { e with bases := e.bases ++ [r] } }) i [] (by
    rw [List.perm_iff_count]
    intro a
    have := envs_count (l1 := l1) (l2 := l2) (e := e) (e' := { e with bases := e.bases ++ [r] }) (new := [])
      (by simp [Env.memory]) a
    rw [← h1, ← h2] at this
    rw [List.count_append, owned_count, owned_count]
    dsimp only
    simp only [List.count_nil] at this ⊢
    omega) (by simp) (by simp) (by simp) (by funext a; simp [allocated])
  refine ⟨k1, k2, k3, ?_, ?_, i.fresh, i.freshA, i.notYet⟩
  · intro e' he' b hb
    simp only [h2, List.mem_append, List.mem_cons] at he'
    have old : ∀ e0 ∈ s.envs, b ∈ e0.bases → _ := fun e0 h0 hb => i.wd e0 h0 b hb
    rw [h1] at old
    rcases he' with he' | rfl | he'
    · exact old e' (by simp [he']) hb
    · simp only [List.mem_append, List.mem_singleton] at hb
      rcases hb with hb | rfl
      · exact old e (by simp) hb
      · refine ⟨h, hm, ?_⟩
        rw [i.ptrs e (by rw [h1]; simp)]
        simp only [Cfg.allocates, gt_iff_lt, decide_eq_true_eq]
        omega
    · exact old e' (by simp [he']) hb
  · intro e' he' f
    simp only [h2, List.mem_append, List.mem_cons] at he'
    have old := i.ptrs
    rw [h1] at old
    rcases he' with he' | rfl | he'
    · exact old e' (by simp [he']) f
    · exact old e (by simp) f
    · exact old e' (by simp [he']) f

/-- Changing the events of an environment. -/
theorem step_events {s s' : St} {k : Nat} {e e' : Env} (i : Inv s) (he : s.envs[k]? = some e) (new : List Nat)
    (hs' : s' = { s with
      next := s'.next
      heap := allocated s.heap new
      envs := s.envs.set k e' })
    (hc : e'.cfg = e.cfg) (hp : e'.ptr = e.ptr) (hb : e'.bases = e.bases)
    (hev : ∀ a, (e'.events ++ e'.recycled).count a = new.count a + (e.events ++ e.recycled).count a)
    (hn : new.Nodup) (h1 : ∀ a ∈ new, s.next ≤ a ∧ a < s'.next) (h2 : s.next ≤ s'.next) : Inv s' := by
  obtain ⟨l1, l2, g1, g2⟩ := set_split he e'
  have E : s'.envs = l1 ++ e' :: l2 := by rw [hs']; exact g2
  have A : s'.allocs = s.allocs := by rw [hs']
  have M : s'.mutex = s.mutex := by rw [hs']
  have T : s'.toFree = s.toFree := by rw [hs']
  have R : memOf s'.allocs = memOf s.allocs := by
    funext x
    simp [memOf, A]
  have O : s'.own = s.own := by rw [hs']
  have L : s'.loose = s.loose := by rw [hs']
  obtain ⟨k1, k2, k3⟩ := grow (s' := s') i new (by
    rw [List.perm_iff_count]
    intro a
    have := envs_count (l1 := l1) (l2 := l2) (e := e) (e' := e') (new := new) (by
      intro a
      have := hev a
      unfold Env.memory
      rw [hp]
      simp only [List.count_append] at this ⊢
      omega) a
    rw [List.count_append, owned_count, owned_count, E, M, T, R, O, L, this, g1]
    omega) hn h1 h2 (by rw [hs'])
  refine ⟨k1, k2, k3, ?_, ?_, ?_, ?_, ?_⟩
  · intro e0 he0 b hb0
    rw [M, T]
    rw [E] at he0
    have old := i.wd
    rw [g1] at old
    simp only [List.mem_append, List.mem_cons] at he0
    rcases he0 with he0 | rfl | he0
    · exact old e0 (by simp [he0]) b hb0
    · rw [hp]
      exact old e (by simp) b (by rw [← hb]; exact hb0)
    · exact old e0 (by simp [he0]) b hb0
  · intro e0 he0 f
    rw [E] at he0
    have old := i.ptrs
    rw [g1] at old
    simp only [List.mem_append, List.mem_cons] at he0
    rcases he0 with he0 | rfl | he0
    · exact old e0 (by simp [he0]) f
    · rw [hp, hc]
      exact old e (by simp) f
    · exact old e0 (by simp [he0]) f
  · intro x hx
    rw [M] at hx
    have := i.fresh x hx
    omega
  · intro x hx
    rw [A] at hx
    have := i.freshA x hx
    omega
  · rw [hs']
    exact i.notYet

theorem step_newEvent {s : St} (i : Inv s) (k : Nat) : ∃ s', apply s (.newEvent k) = some s' ∧ Inv s' := by
  refine ⟨_, rfl, ?_⟩
  unfold newEvent
  split
  · exact i
  · rename_i e he
    split
    · rename_i x l hr
      refine step_events i he [] (e' := { e with events := e.events ++ [x], recycled := l }) ?_ rfl rfl rfl ?_ (by simp)
        (by simp) (Nat.le_refl _)
      · have : allocated s.heap [] = s.heap := by
          funext a
          simp [allocated]
        rw [this]
      · intro a
        simp only [hr, List.count_append, List.count_cons, List.count_nil]
        omega
    · rename_i hr
      refine step_events i he [s.next] (e' := { e with events := e.events ++ [s.next] }) ?_ rfl rfl rfl ?_ (by simp)
        (by simp) (by simp)
      · rfl
      · intro a
        simp only [hr, List.count_append, List.count_cons, List.count_nil]
        omega

theorem step_recycle {s : St} (i : Inv s) (k : Nat) : ∃ s', apply s (.recycle k) = some s' ∧ Inv s' := by
  refine ⟨_, rfl, ?_⟩
  unfold recycle
  split
  · exact i
  · rename_i e he
    split
    · exact i
    · rename_i x l hr
      refine step_events i he [] (e' := { e with events := l, recycled := e.recycled ++ [x] }) ?_ rfl rfl rfl ?_
        (by simp) (by simp) (Nat.le_refl _)
      · have : allocated s.heap [] = s.heap := by
          funext a
          simp [allocated]
        rw [this]
      · intro a
        simp only [hr, List.count_append, List.count_cons, List.count_nil]
        omega

theorem step_ok {s : St} (i : Inv s) (o : Op) (hp : Proper s o) : ∃ s', apply s o = some s' ∧ Inv s' := by
  cases o with
  | newReactor => exact step_newReactor i
  | ownReactor => exact step_ownReactor i
  | allocate r => exact step_allocate i hp
  | allocateLoose => exact step_allocateLoose i
  | freeLoose a => exact step_freeLoose i hp
  | freeReactor r => exact step_freeReactor i hp
  | newMutex r => exact step_newMutex i hp.1 hp.2
  | initEnv c => exact step_initEnv i c
  | addWatchdog k r =>
      obtain ⟨e, he, h1, h2, h3⟩ := hp
      exact step_addWatchdog i he h1 h2 h3
  | newEvent k => exact step_newEvent i k
  | recycle k => exact step_recycle i k

theorem inv_init : Inv St.init := by
  refine ⟨by simp [owned, St.init], by simp [owned, St.init], by simp [owned, St.init], by simp [St.init],
    by simp [St.init], by simp [St.init], by simp [St.init], rfl⟩

theorem reach_inv {s : St} (h : Reach s) : Inv s := by
  induction h with
  | init => exact inv_init
  | step o _ hp e ih =>
      obtain ⟨s2, e2, i2⟩ := step_ok ih o hp
      rw [e] at e2
      cases e2
      exact i2

end Verif.Memory
