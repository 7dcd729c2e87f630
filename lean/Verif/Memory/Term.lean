import Verif.Memory.Steps

/-! # The accesses of `termination` -/

namespace Verif.Memory

theorem mem_targets_append {x y : List Act} {a : Nat} : a ∈ targets (x ++ y) ↔ a ∈ targets x ∨ a ∈ targets y := by
  simp only [mem_targets, List.mem_append]
  tauto

theorem mem_frees_append {x y : List Act} {a : Nat} : a ∈ frees (x ++ y) ↔ a ∈ frees x ∨ a ∈ frees y := by
  simp only [mem_frees, List.mem_append]

theorem mem_targets_flatMap {α : Type} {l : List α} {f : α → List Act} {a : Nat} :
    a ∈ targets (l.flatMap f) ↔ ∃ x ∈ l, a ∈ targets (f x) := by
  induction l with
  | nil => simp [targets]
  | cons x l ih => simp [mem_targets_append, ih]

theorem mem_frees_flatMap {α : Type} {l : List α} {f : α → List Act} {a : Nat} :
    a ∈ frees (l.flatMap f) ↔ ∃ x ∈ l, a ∈ frees (f x) := by
  induction l with
  | nil => simp [frees]
  | cons x l ih => simp [mem_frees_append, ih]

theorem ordered_pairwise {α : Type} {f : α → List Act} {l : List α} (h1 : ∀ x ∈ l, Ordered (f x))
    (h2 : l.Pairwise fun x y => ∀ a ∈ frees (f x), a ∉ targets (f y)) : Ordered (l.flatMap f) := by
  induction l with
  | nil => trivial
  | cons x l ih =>
      rw [List.flatMap_cons]
      obtain ⟨p1, p2⟩ := List.pairwise_cons.1 h2
      refine ordered_append (h1 x (by simp)) (ih (fun y hy => h1 y (by simp [hy])) p2) ?_
      intro a ha ht
      obtain ⟨y, hy, hya⟩ := mem_targets_flatMap.1 ht
      exact p1 y hy a ha hya

/-- Two sources of the same element would put it into the list twice. -/
theorem filterMap_inj {α : Type} {g : α → Option Nat} {b c : α} {a : Nat} {l : List α}
    (hn : (l.filterMap g).Nodup) (hb : b ∈ l) (hc : c ∈ l) (hgb : g b = some a) (hgc : g c = some a) : b = c := by
  induction l with
  | nil => simp at hb
  | cons x l ih =>
      rcases List.mem_cons.1 hb with h | hb'
      · rcases List.mem_cons.1 hc with h' | hc'
        · rw [h, h']
        · rw [List.filterMap_cons_some (h ▸ hgb)] at hn
          exact absurd (List.mem_filterMap.2 ⟨c, hc', hgc⟩) (List.nodup_cons.1 hn).1
      · rcases List.mem_cons.1 hc with h' | hc'
        · rw [List.filterMap_cons_some (h' ▸ hgc)] at hn
          exact absurd (List.mem_filterMap.2 ⟨b, hb', hgb⟩) (List.nodup_cons.1 hn).1
        · refine ih ?_ hb' hc'
          cases hx : g x with
          | none => rwa [List.filterMap_cons_none hx] at hn
          | some d =>
              rw [List.filterMap_cons_some hx] at hn
              exact (List.nodup_cons.1 hn).2

/-! ## An environment -/

/-- Accesses to some pointers of an environment, which are all freed, and to events. -/
structure Piece (e : Env) (F : List Field) (l : List Act) : Prop where
  ord : Ordered l
  tgt : ∀ a ∈ targets l, (∃ f ∈ F, e.ptr f = some a) ∨ a ∈ e.events ∨ a ∈ e.recycled
  fr : ∀ a, a ∈ frees l ↔ ∃ f ∈ F, e.ptr f = some a

/-- The memory of the environment is different memory. -/
structure Apart (e : Env) : Prop where
  inj : ∀ f g a, e.ptr f = some a → e.ptr g = some a → f = g
  ev : ∀ f a, e.ptr f = some a → a ∉ e.events ∧ a ∉ e.recycled

theorem Piece.append {e : Env} {F G : List Field} {x y : List Act} (ap : Apart e) (hx : Piece e F x)
    (hy : Piece e G y) (hd : ∀ f ∈ F, f ∉ G) : Piece e (F ++ G) (x ++ y) := by
  refine ⟨ordered_append hx.ord hy.ord ?_, ?_, ?_⟩
  · intro a ha ht
    obtain ⟨f, hf, hfa⟩ := (hx.fr a).1 ha
    rcases hy.tgt a ht with ⟨g, hg, hga⟩ | h
    · have := ap.inj f g a hfa hga
      subst this
      exact hd f hf hg
    · have := ap.ev f a hfa
      tauto
  · intro a ha
    rcases mem_targets_append.1 ha with ha | ha
    · rcases hx.tgt a ha with ⟨f, hf, h⟩ | h
      · exact .inl ⟨f, by simp [hf], h⟩
      · exact .inr h
    · rcases hy.tgt a ha with ⟨f, hf, h⟩ | h
      · exact .inl ⟨f, by simp [hf], h⟩
      · exact .inr h
  · intro a
    rw [mem_frees_append, hx.fr, hy.fr]
    constructor
    · rintro (⟨f, hf, h⟩ | ⟨f, hf, h⟩)
      · exact ⟨f, by simp [hf], h⟩
      · exact ⟨f, by simp [hf], h⟩
    · rintro ⟨f, hf, h⟩
      rcases List.mem_append.1 hf with hf | hf
      · exact .inl ⟨f, hf, h⟩
      · exact .inr ⟨f, hf, h⟩

theorem Piece.nil (e : Env) : Piece e [] [] := ⟨trivial, by simp [targets], by simp [frees]⟩

theorem Piece.free (e : Env) (f : Field) : Piece e [f] [.free (e.ptr f)] := by
  cases h : e.ptr f with
  | none => exact ⟨trivial, by simp [targets], by simp [frees, h]⟩
  | some a =>
      refine ⟨⟨by simp [targets], trivial⟩, ?_, ?_⟩
      · intro b hb
        simp only [targets, List.mem_singleton] at hb
        subst hb
        exact .inl ⟨f, by simp, h⟩
      · intro b
        simp only [frees, List.mem_singleton, exists_eq_left, h, Option.some.injEq]
        exact eq_comm

/-- Pointers that are null can be added. -/
theorem Piece.null {e : Env} {F G : List Field} {x : List Act} (h : Piece e F x)
    (hF : ∀ f ∈ F, f ∈ G) (hG : ∀ f ∈ G, f ∉ F → e.ptr f = none) : Piece e G x := by
  refine ⟨h.ord, ?_, ?_⟩
  · intro a ha
    rcases h.tgt a ha with ⟨f, hf, hfa⟩ | h
    · exact .inl ⟨f, hF f hf, hfa⟩
    · exact .inr h
  · intro a
    rw [h.fr]
    constructor
    · rintro ⟨f, hf, hfa⟩
      exact ⟨f, hF f hf, hfa⟩
    · rintro ⟨f, hf, hfa⟩
      by_cases hfF : f ∈ F
      · exact ⟨f, hfF, hfa⟩
      · rw [hG f hf hfF] at hfa
        cases hfa

theorem Piece.frees {e : Env} (ap : Apart e) {F : List Field} (hF : F.Nodup) :
    Piece e F (F.map fun f => .free (e.ptr f)) := by
  induction F with
  | nil => exact Piece.nil e
  | cons f F ih =>
      obtain ⟨h1, h2⟩ := List.nodup_cons.1 hF
      have := (Piece.free e f).append ap (ih h2) (by simpa using h1)
      simpa using this

/-- Reading through pointers and events that exist before anything is freed. -/
theorem Piece.reads {e : Env} {F : List Field} {x : List Act} (r : List Act) (h : Piece e F x)
    (hr : ∀ y ∈ r, ∃ a, y = .read (some a) ∧ ((∃ f ∈ F, e.ptr f = some a) ∨ a ∈ e.events ∨ a ∈ e.recycled)) :
    Piece e F (r ++ x) := by
  have hf : Verif.Memory.frees r = [] := by
    apply List.eq_nil_iff_forall_not_mem.2
    intro a ha
    obtain ⟨b, hb, -⟩ := hr _ (mem_frees.1 ha)
    cases hb
  refine ⟨ordered_append ?_ h.ord (by simp [hf]), ?_, ?_⟩
  · clear hf
    induction r with
    | nil => trivial
    | cons y r ih =>
        obtain ⟨a, rfl, -⟩ := hr y (by simp)
        exact ⟨by simp, ih fun z hz => hr z (by simp [hz])⟩
  · intro a ha
    rcases mem_targets_append.1 ha with ha | ha
    · rcases mem_targets.1 ha with ha | ha
      · obtain ⟨b, hb, hb2⟩ := hr _ ha
        cases hb
        exact hb2
      · obtain ⟨b, hb, -⟩ := hr _ ha
        cases hb
    · exact h.tgt a ha
  · intro a
    rw [mem_frees_append, hf, h.fr]
    simp

theorem pqueue_piece {e : Env} (ap : Apart e) {q d : Field} (hqd : d ≠ q) (hq : (e.ptr q).isSome) (l : List Nat)
    (hl : ∀ a ∈ l, a ∈ e.events ∨ a ∈ e.recycled) :
    Piece e [d, q] (pqueueTagFree (e.ptr q) (e.ptr d) l) := by
  obtain ⟨b, hb⟩ := Option.isSome_iff_exists.1 hq
  have h := Piece.reads (.read (e.ptr q) :: (l.map fun x => .read (some x)) ++ [.read (e.ptr q)])
    ((Piece.free e d).append ap (Piece.free e q) (by simpa using hqd)) (by
      intro y hy
      simp only [List.cons_append, List.mem_cons, List.mem_append, List.mem_map, List.not_mem_nil, or_false] at hy
      rcases hy with rfl | ⟨x, hx, rfl⟩ | rfl
      · exact ⟨b, by rw [hb], .inl ⟨q, by simp, hb⟩⟩
      · exact ⟨x, rfl, .inr (hl x hx)⟩
      · exact ⟨b, by rw [hb], .inl ⟨q, by simp, hb⟩⟩)
  simpa [pqueueTagFree] using h

/-- `environment_free` of an environment is safe and frees all but the events and the array of watchdogs. -/
theorem env_piece {e : Env} (ap : Apart e) (hp : ∀ f, (e.ptr f).isSome = e.cfg.allocates f) :
    Piece e ([.name, .timers, .startup, .shutdown, .reset, .present, .presentAbbreviated] ++ [.eventD, .eventQ] ++
      [.recycleD, .recycleQ] ++ [.reactionD, .reactionQ, .threadIds] ++ [.modeStates, .modeResets, .modes] ++
      [.intended]) (environmentFree e) := by
  have none_of : ∀ f, e.cfg.allocates f = false → e.ptr f = none := by
    intro f hf
    have := hp f
    rw [hf] at this
    simpa using this
  have P1 := Piece.frees ap (F := [.name, .timers, .startup, .shutdown, .reset, .present, .presentAbbreviated])
    (by decide)
  have P2 := pqueue_piece ap (q := .eventQ) (d := .eventD) (by decide) (by rw [hp]; rfl) e.events
    fun _ h => .inl h
  have P3 := pqueue_piece ap (q := .recycleQ) (d := .recycleD) (by decide) (by rw [hp]; rfl) e.recycled
    fun _ h => .inr h
  have P4 : Piece e [.reactionD, .reactionQ, .threadIds]
      (if e.cfg.singleThreaded then [.read (e.ptr .reactionQ), .free (e.ptr .reactionD), .free (e.ptr .reactionQ)]
        else [.free (e.ptr .threadIds)]) := by
    split
    · rename_i h
      have hs : (e.ptr .reactionQ).isSome := by rw [hp]; exact h
      obtain ⟨b, hb⟩ := Option.isSome_iff_exists.1 hs
      have := Piece.reads [.read (e.ptr .reactionQ)]
        ((Piece.free e .reactionD).append ap (Piece.free e .reactionQ) (by decide)) (by
          intro y hy
          simp only [List.mem_singleton] at hy
          subst hy
          exact ⟨b, by rw [hb], .inl ⟨.reactionQ, by simp, hb⟩⟩)
      refine Piece.null this (by simp) ?_
      intro f hf hf2
      simp only [List.mem_cons, List.not_mem_nil, or_false, List.cons_append, List.nil_append] at hf hf2
      have : f = .threadIds := by tauto
      subst this
      exact none_of _ (by simp [Cfg.allocates, h])
    · rename_i h
      refine Piece.null (Piece.free e .threadIds) (by simp) ?_
      intro f hf hf2
      simp only [List.mem_cons, List.not_mem_nil, or_false] at hf hf2
      have h' : e.cfg.singleThreaded = false := by simpa using h
      rcases hf with rfl | rfl | rfl
      · exact none_of _ (by simp [Cfg.allocates, h'])
      · exact none_of _ (by simp [Cfg.allocates, h'])
      · exact absurd rfl hf2
  have P5 : Piece e [.modeStates, .modeResets, .modes]
      (if e.cfg.modal && (e.ptr .modes).isSome then
        [.read (e.ptr .modes), .free (e.ptr .modeStates), .read (e.ptr .modes), .free (e.ptr .modeResets),
          .free (e.ptr .modes)]
        else []) := by
    split
    · rename_i h
      simp only [Bool.and_eq_true] at h
      obtain ⟨b, hb⟩ := Option.isSome_iff_exists.1 h.2
      have hr : ∀ y ∈ [Act.read (e.ptr .modes)], ∃ a, y = .read (some a) ∧
          ((∃ f ∈ [Field.modeResets, .modes], e.ptr f = some a) ∨ a ∈ e.events ∨ a ∈ e.recycled) := by
        intro y hy
        simp only [List.mem_singleton] at hy
        subst hy
        exact ⟨b, by rw [hb], .inl ⟨.modes, by simp, hb⟩⟩
      have h1 := Piece.reads [.read (e.ptr .modes)]
        ((Piece.free e .modeResets).append ap (Piece.free e .modes) (by decide)) hr
      have h2 := (Piece.free e .modeStates).append ap h1 (by decide)
      have h3 := Piece.reads [.read (e.ptr .modes)] h2 (by
        intro y hy
        simp only [List.mem_singleton] at hy
        subst hy
        exact ⟨b, by rw [hb], .inl ⟨.modes, by simp, hb⟩⟩)
      simpa using h3
    · rename_i h
      refine Piece.null (Piece.nil e) (by simp) ?_
      intro f hf _
      have hm : e.cfg.modal = false ∨ e.cfg.allocates .modes = false := by
        rw [← hp]
        simp only [Bool.and_eq_true, not_and, Bool.not_eq_true] at h
        cases hmod : e.cfg.modal
        · exact .inl rfl
        · exact .inr (h hmod)
      have hz : (e.cfg.modal && decide (e.cfg.numModes > 0)) = false := by
        rcases hm with hm | hm
        · simp [hm]
        · exact hm
      simp only [List.mem_cons, List.not_mem_nil, or_false] at hf
      rcases hf with rfl | rfl | rfl
      · exact none_of _ (by simp only [Cfg.allocates, hz])
      · exact none_of _ (by simp only [Cfg.allocates, hz, Bool.false_and])
      · exact none_of _ (by simp only [Cfg.allocates, hz])
  have P6 : Piece e [.intended] (if e.cfg.decentralized then [.free (e.ptr .intended)] else []) := by
    split
    · exact Piece.free e .intended
    · rename_i h
      refine Piece.null (Piece.nil e) (by simp) ?_
      intro f hf _
      simp only [List.mem_singleton] at hf
      subst hf
      exact none_of _ (by
        have : e.cfg.decentralized = false := by simpa using h
        simp [Cfg.allocates, this])
  exact (((((P1.append ap P2 (by decide)).append ap P3 (by decide)).append ap P4 (by decide)).append ap P5
    (by decide)).append ap P6 (by decide))

/-! ## The whole -/

theorem eq_of_common {l : List Env} {a : Nat} (h : l.Pairwise (Function.onFun List.Disjoint Env.memory)) {e e' : Env}
    (he : e ∈ l) (he' : e' ∈ l) (ha : a ∈ e.memory) (ha' : a ∈ e'.memory) : e = e' := by
  induction l with
  | nil => simp at he
  | cons x l ih =>
      obtain ⟨h1, h2⟩ := List.pairwise_cons.1 h
      rcases List.mem_cons.1 he with p | p
      · rcases List.mem_cons.1 he' with q | q
        · rw [p, q]
        · exact (h1 e' q (p ▸ ha) ha').elim
      · rcases List.mem_cons.1 he' with q | q
        · exact (h1 e p (q ▸ ha') ha).elim
        · exact ih h2 p q

theorem mem_env_memory {e : Env} {a : Nat} :
    a ∈ e.memory ↔ (∃ f, e.ptr f = some a) ∨ a ∈ e.events ∨ a ∈ e.recycled := by
  simp only [Env.memory, List.mem_append, List.mem_filterMap]
  constructor
  · rintro ((⟨f, -, h⟩ | h) | h)
    · exact .inl ⟨f, h⟩
    · exact .inr (.inl h)
    · exact .inr (.inr h)
  · rintro (⟨f, h⟩ | h | h)
    · exact .inl (.inl ⟨f, mem_all f, h⟩)
    · exact .inl (.inr h)
    · exact .inr h

theorem apart_of {e : Env} (h : e.memory.Nodup) : Apart e := by
  simp only [Env.memory, List.nodup_append, List.mem_append] at h
  obtain ⟨⟨h1, h2, h3⟩, h4, h5⟩ := h
  have mem : ∀ f a, e.ptr f = some a → a ∈ Field.all.filterMap e.ptr := fun f a hf =>
    List.mem_filterMap.2 ⟨f, mem_all f, hf⟩
  refine ⟨?_, ?_⟩
  · intro f g a hf hg
    exact filterMap_inj h1 (mem_all f) (mem_all g) hf hg
  · intro f a hf
    exact ⟨fun h => h3 a (mem f a hf) a h rfl, fun h => h5 a (.inl (mem f a hf)) a h rfl⟩

/-- The parts of the memory. -/
structure Parts (s : St) : Prop where
  n1 : (s.toFree.flatMap fun q => q.1 :: memOf s.allocs q.2).Nodup
  n3 : ((s.toFree.map Prod.snd).filterMap s.mutex).Nodup
  n4 : (s.envs.flatMap Env.memory).Nodup
  d13 : ∀ a ∈ (s.toFree.flatMap fun q => q.1 :: memOf s.allocs q.2), a ∉ (s.toFree.map Prod.snd).filterMap s.mutex
  d14 : ∀ a ∈ (s.toFree.flatMap fun q => q.1 :: memOf s.allocs q.2), a ∉ s.envs.flatMap Env.memory
  d34 : ∀ a ∈ (s.toFree.map Prod.snd).filterMap s.mutex, a ∉ s.envs.flatMap Env.memory

theorem parts_of {s : St} (i : Inv s) : Parts s := by
  have h := i.nodup
  simp only [owned, List.nodup_append, List.mem_append] at h
  obtain ⟨⟨⟨⟨h1, h2, h3⟩, h4, h5⟩, h6, h7⟩, h8, h9⟩ := h
  exact ⟨h1, h4, h6, fun a ha hb => h5 a (.inl ha) a hb rfl, fun a ha hb => h7 a (.inl (.inl ha)) a hb rfl,
    fun a ha hb => h7 a (.inr ha) a hb rfl⟩

theorem block_targets {s : St} {q : Nat × Nat} {a : Nat}
    (h : a ∈ targets (.read (some q.1) :: freeReactor s q.2 ++ [.read (some q.1), .free (some q.1)])) :
    a ∈ q.1 :: memOf s.allocs q.2 := by
  simp only [List.cons_append, targets, List.mem_cons, mem_targets_append, List.not_mem_nil, or_false] at h
  rcases h with h | h | h | h
  · simp [h]
  · exact List.mem_cons_of_mem _ (freeReactor_targets h)
  · simp [h]
  · simp [h]

theorem block_frees {s : St} {q : Nat × Nat} {a : Nat} :
    a ∈ frees (.read (some q.1) :: freeReactor s q.2 ++ [.read (some q.1), .free (some q.1)]) ↔
    a ∈ q.1 :: memOf s.allocs q.2 := by
  refine ⟨fun h => block_targets (frees_targets h), ?_⟩
  intro h
  simp only [List.cons_append, frees, mem_frees_append, List.mem_cons, List.not_mem_nil, or_false,
    freeReactor_frees] at h ⊢
  tauto

theorem freeAll_ordered {s : St} (p : Parts s) : Ordered (freeAllReactors s) := by
  refine ordered_flatMap (obj := fun q => q.1 :: memOf s.allocs q.2) ?_ (fun q _ a ha => block_targets ha) p.n1
  intro q hq
  have h := (List.nodup_flatMap.1 p.n1).1 q hq
  obtain ⟨h1, h2⟩ := List.nodup_cons.1 h
  refine ⟨by simp, ordered_append (freeReactor_ordered h2) ?_ ?_⟩
  · exact ⟨by simp, by simp [targets], trivial⟩
  · intro a ha
    rw [freeReactor_frees] at ha
    simp only [targets, List.mem_cons, List.not_mem_nil, or_false, or_self]
    rintro rfl
    exact h1 ha

theorem freeAll_targets {s : St} {a : Nat} (h : a ∈ targets (freeAllReactors s)) :
    a ∈ s.toFree.flatMap fun q => q.1 :: memOf s.allocs q.2 := by
  obtain ⟨q, hq, h⟩ := mem_targets_flatMap.1 h
  exact List.mem_flatMap.2 ⟨q, hq, block_targets h⟩

theorem freeAll_frees {s : St} {a : Nat} :
    a ∈ frees (freeAllReactors s) ↔ a ∈ s.toFree.flatMap fun q => q.1 :: memOf s.allocs q.2 := by
  rw [freeAllReactors, mem_frees_flatMap, List.mem_flatMap]
  simp only [block_frees]

theorem envs_piece {s : St} (i : Inv s) {e : Env} (he : e ∈ s.envs) :
    Ordered (environmentFree e) ∧ (∀ a ∈ targets (environmentFree e), a ∈ e.memory) ∧
      ∀ a, a ∈ frees (environmentFree e) ↔ ∃ f, f ≠ .watchdogs ∧ e.ptr f = some a := by
  have hn := (List.nodup_flatMap.1 (parts_of i).n4).1 e he
  have p := env_piece (apart_of hn) (i.ptrs e he)
  refine ⟨p.ord, ?_, ?_⟩
  · intro a ha
    rw [mem_env_memory]
    rcases p.tgt a ha with ⟨f, -, h⟩ | h
    · exact .inl ⟨f, h⟩
    · exact .inr h
  · intro a
    rw [p.fr]
    constructor
    · rintro ⟨f, hf, h⟩
      exact ⟨f, by rintro rfl; revert hf; decide, h⟩
    · rintro ⟨f, hf, h⟩
      exact ⟨f, by cases f <;> first | decide | exact absurd rfl hf, h⟩

theorem envs_ordered {s : St} (i : Inv s) : Ordered (s.envs.flatMap environmentFree) :=
  ordered_flatMap (obj := Env.memory) (fun _ he => (envs_piece i he).1) (fun _ he => (envs_piece i he).2.1)
    (parts_of i).n4

/-- The mutexes that are freed. -/
theorem mutexes {s : St} (i : Inv s) (hw : (watched s).Nodup) :
    Ordered (freeMutexes s) ∧
    (∀ a ∈ targets (freeMutexes s), a ∈ owned s) ∧
    (∀ a, a ∈ frees (freeMutexes s) ↔ ∃ b ∈ watched s, s.mutex b = some a) := by
  have p := parts_of i
  cases hE : s.envs with
  | nil => simp [freeMutexes, watched, hE, Ordered, targets, frees]
  | cons e l =>
      simp only [freeMutexes, watched, hE] at hw ⊢
      split
      · simp [Ordered, targets, frees]
      · rename_i hst
        rw [if_neg hst] at hw
        have he : e ∈ s.envs := by simp [hE]
        have W : ∀ b ∈ e.bases, b ∈ s.toFree.map Prod.snd ∧ (s.mutex b).isSome ∧ (e.ptr .watchdogs).isSome :=
          i.wd e he
        have hwp : ∀ a, e.ptr .watchdogs = some a → a ∈ s.envs.flatMap Env.memory := fun a ha =>
          List.mem_flatMap.2 ⟨e, he, mem_env_memory.2 (.inl ⟨_, ha⟩)⟩
        have hbm : ∀ b ∈ e.bases, b ∈ s.toFree.flatMap fun q => q.1 :: memOf s.allocs q.2 := by
          intro b hb
          obtain ⟨q, hq, rfl⟩ := List.mem_map.1 (W b hb).1
          exact List.mem_flatMap.2 ⟨q, hq, by simp [memOf]⟩
        have hmm : ∀ b ∈ e.bases, ∀ m, s.mutex b = some m → m ∈ (s.toFree.map Prod.snd).filterMap s.mutex :=
          fun b hb m hm => List.mem_filterMap.2 ⟨b, (W b hb).1, hm⟩
        have tgt : ∀ b ∈ e.bases, ∀ a, a ∈ targets (.read (e.ptr .watchdogs) :: .read (some b) ::
            (if (s.mutex b).isSome then [.free (s.mutex b)] else [])) →
            e.ptr .watchdogs = some a ∨ a = b ∨ s.mutex b = some a := by
          intro b hb a ha
          obtain ⟨-, h2, h3⟩ := W b hb
          obtain ⟨w, hw'⟩ := Option.isSome_iff_exists.1 h3
          obtain ⟨m, hm⟩ := Option.isSome_iff_exists.1 h2
          simp only [hw', hm, Option.isSome_some, if_true, targets, List.mem_cons, List.not_mem_nil, or_false] at ha
          rcases ha with rfl | rfl | rfl
          · exact .inl hw'
          · exact .inr (.inl rfl)
          · exact .inr (.inr hm)
        have fr : ∀ b a, a ∈ frees (.read (e.ptr .watchdogs) :: .read (some b) ::
            (if (s.mutex b).isSome then [.free (s.mutex b)] else [])) ↔ s.mutex b = some a := by
          intro b a
          cases hm : s.mutex b with
          | none => simp [frees]
          | some m =>
              simp only [Option.isSome_some, if_true, frees, List.mem_singleton, Option.some.injEq]
              exact eq_comm
        refine ⟨ordered_pairwise ?_ ?_, ?_, ?_⟩
        · intro b hb
          obtain ⟨-, h2, h3⟩ := W b hb
          refine ⟨by intro h; rw [h] at h3; simp at h3, by simp, ?_⟩
          obtain ⟨m, hm⟩ := Option.isSome_iff_exists.1 h2
          rw [hm]
          exact ⟨by simp [targets], trivial⟩
        · refine List.Pairwise.imp_of_mem ?_ hw
          intro b c hb hc hne a ha ht
          rw [fr] at ha
          have hma := hmm b hb a ha
          rcases tgt c hc a ht with h | rfl | h
          · exact p.d34 a hma (hwp a h)
          · exact p.d13 a (hbm a hc) hma
          · exact hne (filterMap_inj p.n3 (W b hb).1 (W c hc).1 ha h)
        · intro a ha
          obtain ⟨b, hb, h⟩ := mem_targets_flatMap.1 ha
          simp only [owned, List.mem_append]
          rcases tgt b hb a h with h | rfl | h
          · exact .inl (.inr (hwp a h))
          · exact .inl (.inl (.inl (.inl (hbm a hb))))
          · exact .inl (.inl (.inr (hmm b hb a h)))
        · intro a
          rw [mem_frees_flatMap]
          simp only [fr]

theorem termination_safe {s : St} (i : Inv s) (hw : (watched s).Nodup) :
    ∃ h, exec (terminationActs s) s.heap = some h ∧ ∀ a, h a = true ↔ Leaks s a := by
  have p := parts_of i
  obtain ⟨m1, m2, m3⟩ := mutexes i hw
  have wt : ∀ b ∈ watched s, b ∈ s.toFree.map Prod.snd := by
    intro b hb
    unfold watched at hb
    cases hE : s.envs with
    | nil => simp [hE] at hb
    | cons e l =>
        simp only [hE] at hb
        split at hb
        · simp at hb
        · exact (i.wd e (by simp [hE]) b hb).1
  have mm : ∀ a ∈ frees (freeMutexes s), a ∈ (s.toFree.map Prod.snd).filterMap s.mutex := by
    intro a ha
    obtain ⟨b, hb, h⟩ := (m3 a).1 ha
    exact List.mem_filterMap.2 ⟨b, wt b hb, h⟩
  have et : ∀ a ∈ targets (s.envs.flatMap environmentFree), a ∈ s.envs.flatMap Env.memory := by
    intro a ha
    obtain ⟨e, he, h⟩ := mem_targets_flatMap.1 ha
    exact List.mem_flatMap.2 ⟨e, he, (envs_piece i he).2.1 a h⟩
  have ho : Ordered (terminationActs s) := by
    refine ordered_append (ordered_append m1 (freeAll_ordered p) ?_) (envs_ordered i) ?_
    · intro a ha ht
      exact p.d13 a (freeAll_targets ht) (mm a ha)
    · intro a ha ht
      rcases mem_frees_append.1 ha with ha | ha
      · exact p.d34 a (mm a ha) (et a ht)
      · exact p.d14 a (freeAll_frees.1 ha) (et a ht)
  obtain ⟨h, e, hh⟩ := exec_ok ho fun a ha => (i.live a).2 (by
    rcases mem_targets_append.1 ha with ha | ha
    · rcases mem_targets_append.1 ha with ha | ha
      · exact m2 a ha
      · simp only [owned, List.mem_append]
        exact .inl (.inl (.inl (.inl (freeAll_targets ha))))
    · simp only [owned, List.mem_append]
      exact .inl (.inr (et a ha)))
  refine ⟨h, e, ?_⟩
  intro a
  have hfe : a ∈ frees (s.envs.flatMap environmentFree) ↔ ∃ e ∈ s.envs, ∃ f, f ≠ .watchdogs ∧ e.ptr f = some a := by
    rw [mem_frees_flatMap]
    constructor
    · rintro ⟨e, he, h⟩
      exact ⟨e, he, ((envs_piece i he).2.2 a).1 h⟩
    · rintro ⟨e, he, h⟩
      exact ⟨e, he, ((envs_piece i he).2.2 a).2 h⟩
  rw [hh, i.live]
  unfold terminationActs
  rw [mem_frees_append, mem_frees_append, m3, freeAll_frees, hfe]
  have hnd := i.nodup
  simp only [owned, List.nodup_append, List.mem_append] at hnd
  obtain ⟨⟨⟨⟨h1, h2, h3⟩, h4, h5⟩, h6, h7⟩, h8, h9⟩ := hnd
  unfold Leaks
  constructor
  · rintro ⟨hm, hn⟩
    push Not at hn
    obtain ⟨⟨hn1, hn2⟩, hn3⟩ := hn
    simp only [owned, List.mem_append] at hm
    rcases hm with (((hm | hm) | hm) | hm) | hm
    · exact absurd hm hn2
    · obtain ⟨r, hr, hra⟩ := List.mem_flatMap.1 hm
      exact .inr (.inl ⟨r, hr, hra⟩)
    · obtain ⟨r, hr, hra⟩ := List.mem_filterMap.1 hm
      exact .inr (.inr (.inr ⟨r, hr, hra, fun hb => hn1 r hb hra⟩))
    · obtain ⟨e, he, hea⟩ := List.mem_flatMap.1 hm
      refine .inr (.inr (.inl ⟨e, he, ?_⟩))
      rcases mem_env_memory.1 hea with ⟨f, hf⟩ | h | h
      · by_cases hfw : f = .watchdogs
        · subst hfw
          exact .inr (.inr hf)
        · exact absurd hf (hn3 e he f hfw)
      · exact .inl h
      · exact .inr (.inl h)
    · exact .inl hm
  · intro hl
    have em : ∀ e ∈ s.envs, ∀ f, e.ptr f = some a → a ∈ s.envs.flatMap Env.memory := fun e he f hf =>
      List.mem_flatMap.2 ⟨e, he, mem_env_memory.2 (.inl ⟨f, hf⟩)⟩
    have mx : ∀ b ∈ watched s, s.mutex b = some a → a ∈ (s.toFree.map Prod.snd).filterMap s.mutex := fun b hb h =>
      List.mem_filterMap.2 ⟨b, wt b hb, h⟩
    rcases hl with hl | ⟨r, hr, hra⟩ | ⟨e, he, hea⟩ | ⟨r, hr, hra, hrw⟩
    · refine ⟨by simp [owned, hl], ?_⟩
      rintro ((⟨b, hb, h⟩ | h) | ⟨e, he, f, -, hf⟩)
      · exact h9 a (.inl (.inr (mx b hb h))) a hl rfl
      · exact h9 a (.inl (.inl (.inl h))) a hl rfl
      · exact h9 a (.inr (em e he f hf)) a hl rfl
    · have hm : a ∈ s.own.flatMap (memOf s.allocs) := List.mem_flatMap.2 ⟨r, hr, hra⟩
      refine ⟨by simp only [owned, List.mem_append]; exact .inl (.inl (.inl (.inr hm))), ?_⟩
      rintro ((⟨b, hb, h⟩ | h) | ⟨e, he, f, -, hf⟩)
      · exact h5 a (.inr hm) a (mx b hb h) rfl
      · exact h3 a h a hm rfl
      · exact h7 a (.inl (.inr hm)) a (em e he f hf) rfl
    · have hm : a ∈ e.memory := by
        rw [mem_env_memory]
        rcases hea with h | h | h
        · exact .inr (.inl h)
        · exact .inr (.inr h)
        · exact .inl ⟨_, h⟩
      have hm2 : a ∈ s.envs.flatMap Env.memory := List.mem_flatMap.2 ⟨e, he, hm⟩
      refine ⟨by simp only [owned, List.mem_append]; exact .inl (.inr hm2), ?_⟩
      rintro ((⟨b, hb, h⟩ | h) | ⟨e', he', f, hfw, hf⟩)
      · exact p.d34 a (mx b hb h) hm2
      · exact p.d14 a h hm2
      · -- the same memory in the same environment
        have hm' : a ∈ e'.memory := mem_env_memory.2 (.inl ⟨f, hf⟩)
        obtain ⟨q1, q2⟩ := List.nodup_flatMap.1 p.n4
        by_cases hee : e = e'
        · subst hee
          have ap := apart_of (q1 e he)
          rcases hea with h | h | h
          · exact (ap.ev f a hf).1 h
          · exact (ap.ev f a hf).2 h
          · exact hfw (ap.inj f _ a hf h)
        · exact hee (eq_of_common q2 he he' hm hm')
    · have hm : a ∈ (s.toFree.map Prod.snd).filterMap s.mutex := List.mem_filterMap.2 ⟨r, hr, hra⟩
      refine ⟨by simp only [owned, List.mem_append]; exact .inl (.inl (.inr hm)), ?_⟩
      rintro ((⟨b, hb, h⟩ | h) | ⟨e, he, f, -, hf⟩)
      · by_cases hbr : b = r
        · subst hbr
          exact hrw hb
        · exact hbr (filterMap_inj p.n3 (wt b hb) hr h hra)
      · exact p.d13 a h hm
      · exact p.d34 a hm (em e he f hf)

end Verif.Memory
