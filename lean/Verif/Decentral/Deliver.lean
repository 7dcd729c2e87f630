import Verif.Decentral.Timely

/-! # What messages in time bring about: each is processed once, at its tag -/

namespace ReactorC.Decentral

open ReactorC.Level (Config Port Phase MIN_SLEEP_DURATION Small bump upd exempt waitOver newKnown actualTag)

structure Del (c : Config) (s : State) : Prop where
  last : ∀ i, s.last i = NEVER_TAG
  q : ∀ e ∈ s.q, ∀ i, e.port = some i → e.tag = e.intended ∧ e.intended ≤ s.said i ∧ (i, e.intended, e.val) ∈ s.got
  qs : s.q.Pairwise fun e e' => ∀ i, e.port = some i → e'.port = some i → e.intended < e'.intended
  out : ∀ d ∈ s.out, d.at_ = d.intended ∧ d.intended ≤ s.said d.port ∧ (d.port, d.intended, d.val) ∈ s.got
  outs : s.out.Pairwise fun d d' => d.port = d'.port → d.intended < d'.intended
  fresh : ∀ i g v, (i, g, v) ∈ s.reading → (∀ e ∈ s.q, e.port = some i → e.intended < g) ∧
    (∀ d ∈ s.out, d.port = i → d.intended < g)
  got : ∀ i g v, (i, g, v) ∈ s.got → (⟨some i, g, g, v⟩ ∈ s.q ∨ ⟨i, g, v, g, false⟩ ∈ s.out ∨ s.stop < g)

theorem Del.init (c : Config) (now : Int) (stop : Tag) : Del c (Decentral.init c now stop) where
  last := fun _ => rfl
  q := fun _ h => (by cases h)
  qs := List.Pairwise.nil
  out := fun _ h => (by cases h)
  outs := List.Pairwise.nil
  fresh := fun _ _ _ h => (by cases h)
  got := fun _ _ _ h => (by cases h)

/-- If only what has been announced and read changes. -/
theorem Del.same {c : Config} {s s' : State} (h : Del c s) (h1 : s'.last = s.last) (h2 : s'.q = s.q) (h3 : s'.out = s.out)
    (h4 : s'.got = s.got) (h5 : s'.stop ≤ s.stop) (h6 : ∀ i, s.said i ≤ s'.said i)
    (h7 : ∀ i g v, (i, g, v) ∈ s'.reading → (i, g, v) ∈ s.reading ∨ s.said i < g) : Del c s' := by
  refine ⟨?_, ?_, ?_, ?_, ?_, ?_, ?_⟩
  · rw [h1]; exact h.last
  · rw [h2, h4]
    intro e he i hi
    obtain ⟨a, b, d⟩ := h.q e he i hi
    exact ⟨a, Tag.le_trans b (h6 i), d⟩
  · rw [h2]; exact h.qs
  · rw [h3, h4]
    intro d hd
    obtain ⟨a, b, e⟩ := h.out d hd
    exact ⟨a, Tag.le_trans b (h6 _), e⟩
  · rw [h3]; exact h.outs
  · rw [h2, h3]
    intro i g v hr
    rcases h7 i g v hr with hr | hr
    · exact h.fresh i g v hr
    · refine ⟨fun e he hp => Tag.lt_of_le_of_lt (h.q e he i hp).2.1 hr, fun d hd hp => ?_⟩
      have := (h.out d hd).2.1
      rw [hp] at this
      exact Tag.lt_of_le_of_lt this hr
  · rw [h2, h3, h4]
    intro i g v hg
    rcases h.got i g v hg with h | h | h
    · exact Or.inl h
    · exact Or.inr (Or.inl h)
    · exact Or.inr (Or.inr (Tag.lt_of_le_of_lt h5 h))

/-- Events at one tag belong to different ports. -/
theorem Del.one {c : Config} {s : State} (h : Del c s) (t : Tag) : OnePerPort (due s.q t) := by
  have h1 : (due s.q t).Pairwise fun e e' => (e.tag = t ∧ e ∈ s.q) ∧ (e'.tag = t ∧ e' ∈ s.q) ∧
      ∀ i, e.port = some i → e'.port = some i → e.intended < e'.intended := by
    have h2 : (due s.q t).Pairwise fun e e' => ∀ i, e.port = some i → e'.port = some i → e.intended < e'.intended :=
      h.qs.sublist List.filter_sublist
    have h3 : ∀ e ∈ due s.q t, e.tag = t ∧ e ∈ s.q := fun e he => ((mem_due _ _ _).1 he).symm
    exact List.Pairwise.imp_of_mem (fun ha hb hr => ⟨h3 _ ha, h3 _ hb, hr⟩) h2
  refine h1.imp ?_
  rintro e e' ⟨⟨a1, a2⟩, ⟨b1, b2⟩, hr⟩ i hi hi'
  have := hr i hi hi'
  rw [← (h.q e a2 i hi).1, ← (h.q e' b2 i hi').1, a1, b1] at this
  exact Tag.lt_irrefl _ this

/-- The events at a tag are delivered: each one, and nothing else. -/
theorem Del.pops {c : Config} {s : State} (h : Del c s) {t : Tag} {l : List Ev} (hl : l.Perm (due s.q t)) :
    (∀ d ∈ pops t l, d.at_ = t ∧ d.intended = t ∧ d.late = false ∧ ⟨some d.port, t, t, d.val⟩ ∈ s.q) ∧
    (∀ e ∈ s.q, e.tag = t → ∀ i, e.port = some i → ⟨i, t, e.val, t, false⟩ ∈ Decentral.pops t l) := by
  have hone := (h.one t).perm hl.symm
  have hmem : ∀ e, e ∈ l ↔ e ∈ s.q ∧ e.tag = t := fun e => by rw [hl.mem_iff, mem_due]
  have key : ∀ e ∈ s.q, e.tag = t → ∀ i, e.port = some i → ⟨i, t, e.val, t, false⟩ ∈ Decentral.pops t l := by
    intro e he ht i hi
    have := pops_all t l hone e ((hmem e).2 ⟨he, ht⟩) i hi
    have hint : e.intended = t := by rw [← (h.q e he i hi).1, ht]
    rw [hint, decide_eq_false (Tag.lt_irrefl t)] at this
    exact this
  refine ⟨?_, key⟩
  intro d hd
  obtain ⟨e, he, h1, h2, h3, h4⟩ := pops_mem _ _ d hd
  obtain ⟨h5, h6⟩ := (hmem e).1 he
  have hk := key e h5 h6 d.port h1
  have hd' : d = ⟨d.port, t, e.val, t, false⟩ := by
    have hnd := pops_ports t l
    obtain ⟨n, hn, hn'⟩ := List.mem_iff_getElem.1 hd
    obtain ⟨m, hm, hm'⟩ := List.mem_iff_getElem.1 hk
    have : n = m := by
      rw [List.nodup_iff_injective_get] at hnd
      have := @hnd ⟨n, by rw [List.length_map]; exact hn⟩ ⟨m, by rw [List.length_map]; exact hm⟩ (by
        simp only [List.get_eq_getElem, List.getElem_map, hn', hm'])
      simpa using this
    subst this
    rw [← hn', hm']
  have hint : e.intended = t := by rw [← (h.q e h5 _ h1).1, h6]
  refine ⟨h3, by rw [h2, hint], by rw [hd'], ?_⟩
  have : d.val = e.val := by rw [hd']
  rw [this, ← h1]
  have he' : e = ⟨e.port, t, t, e.val⟩ := by cases e; simp only [] at h6 hint; rw [h6, hint]
  rw [← he']; exact h5

theorem Del.popped {c : Config} {s s' : State} (h : Del c s) {t : Tag} {l : List Ev} (hl : l.Perm (due s.q t))
    (hold : ∀ d ∈ s.out, d.at_ < t) (h1 : s'.last = s.last) (h2 : s'.q = rest s.q t)
    (h3 : s'.out = s.out ++ Decentral.pops t l) (h4 : s'.got = s.got) (h5 : s'.stop = s.stop) (h6 : s'.said = s.said)
    (h7 : s'.reading = s.reading) : Del c s' := by
  obtain ⟨p1, p2⟩ := h.pops hl
  refine ⟨?_, ?_, ?_, ?_, ?_, ?_, ?_⟩
  · rw [h1]; exact h.last
  · rw [h2, h4, h6]; intro e he; exact h.q e ((mem_rest _ _ _).1 he).1
  · rw [h2]; exact h.qs.sublist List.filter_sublist
  · rw [h3, h4, h6]
    intro d hd
    rcases List.mem_append.1 hd with hd | hd
    · exact h.out d hd
    · obtain ⟨a1, a2, _, a4⟩ := p1 d hd
      obtain ⟨_, b2, b3⟩ := h.q _ a4 d.port rfl
      rw [a1, a2]
      exact ⟨rfl, b2, b3⟩
  · rw [h3, List.pairwise_append]
    refine ⟨h.outs, ?_, ?_⟩
    · have := pops_ports t l
      rw [List.Nodup, List.pairwise_map] at this
      exact this.imp fun hne heq => absurd heq hne
    · intro d hd d' hd' _
      rw [← (h.out d hd).1, (p1 d' hd').2.1]
      exact hold d hd
  · rw [h2, h3, h7]
    intro i g v hr
    obtain ⟨a, b⟩ := h.fresh i g v hr
    refine ⟨fun e he => a e ((mem_rest _ _ _).1 he).1, ?_⟩
    intro d hd hp
    rcases List.mem_append.1 hd with hd | hd
    · exact b d hd hp
    · obtain ⟨_, a2, _, a4⟩ := p1 d hd
      rw [a2]
      exact a _ a4 (by show some d.port = _; rw [hp])
  · rw [h2, h3, h4, h5]
    intro i g v hg
    rcases h.got i g v hg with h8 | h8 | h8
    · by_cases ht : g = t
      · right; left
        rw [List.mem_append]
        right
        have := p2 _ h8 ht i rfl
        rw [ht]; exact this
      · left; exact (mem_rest _ _ _).2 ⟨h8, ht⟩
    · right; left; exact List.mem_append_left _ h8
    · exact Or.inr (Or.inr h8)

theorem Del.step {c : Config} (hw : WF c) {a : Assume} (ha : Good a) {s s' : State} (h : Gen c s) (hn : Net c s) (hd : Del c s)
    (st : Step c a s s') : Del c s' := by
  cases st with
  | @header i g v hi hp hg hF hm hx hr ho ht =>
    obtain ⟨y, he, _⟩ := raise_cases s g h.lv.curMicro
    have ho := ho ha.ordered
    rw [he]
    refine hd.same rfl rfl rfl rfl (Tag.le_refl _) ?_ ?_
    · intro j
      show s.said j ≤ upd s.said i g j
      unfold upd
      split
      · rename_i hj; subst hj; exact Tag.le_of_lt ho.1
      · exact Tag.le_refl _
    · intro j g' v' hj
      rcases List.mem_cons.1 hj with hj | hj
      · simp only [Prod.mk.injEq] at hj
        obtain ⟨rfl, rfl, rfl⟩ := hj
        exact Or.inr ho.1
      · exact Or.inl hj
  | @complete i g v hr hs ht hc hsp =>
    obtain ⟨x, y, he, _⟩ := release_cases { handle c s i g v with reading := s.reading.erase (i, g, v) }
    obtain ⟨l, o, dr, la, hh, hcase⟩ := handle_cases c s i g v
    have hsaid := (hn.pend i g v hr).1
    obtain ⟨hf1, hf2⟩ := hd.fresh i g v hr
    have hports := erase_port h.ports hr
    rw [he, hh]
    have hnf : found s.q i g = false := by
      rw [found_false]
      intro e he hp ht
      have := hf1 e he hp
      rw [← (hd.q e he i hp).1, ht] at this
      exact Tag.lt_irrefl _ this
    -- the three outcomes
    have three : la = s.last ∧ ((l = [] ∧ o = [⟨i, g, v, g, false⟩]) ∨ (l = [⟨some i, g, g, v⟩] ∧ o = []) ∨
        (l = [] ∧ o = [] ∧ s.stop < g)) := by
      rcases complete_cases hw h hn hr (ht ha.timely) (hc ha.calm) with h1 | ⟨h1, h2, h3⟩ | ⟨h1, h2, h3, h4, h5⟩
      · have hnot : ¬ (g ≤ s.lv.cur) := by rw [Tag.not_le]; exact h1
        rcases hcase with ⟨k, _⟩ | ⟨_, k2, ⟨k3, _, k4, k5⟩ | ⟨k3, _⟩ | ⟨_, _, _, _, k3, k4⟩ | ⟨_, k3, _⟩⟩
        · exfalso
          unfold now_ Level.handleMessageNow at k
          simp only [Bool.and_eq_true, decide_eq_true_eq, cmp_eq_zero] at k
          exact hnot (by rw [k.1.1.1.1.2]; exact Tag.le_refl _)
        · refine ⟨k4, Or.inr (Or.inr ⟨k3, k2, ?_⟩)⟩
          rcases k5 with ⟨k5, _⟩ | ⟨k5, _⟩ | ⟨_, k5 | ⟨k5, _⟩⟩
          · exact Tag.lt_of_le_of_lt k5 h1
          · exact absurd k5 hnot
          · exact k5
          · rw [hnf] at k5; cases k5
        · exact absurd k3 hnot
        · exact ⟨k4, Or.inr (Or.inl ⟨k3, k2⟩)⟩
        · rw [hnf] at k3; cases k3
      · have hnow := now_current hw h hr (hd.last i) h2 h1 h3
        rcases hcase with ⟨_, k1, k2, _, k3⟩ | ⟨k, _⟩
        · refine ⟨k3, Or.inl ⟨k1, ?_⟩⟩
          rw [k2, h1, decide_eq_false (Tag.lt_irrefl g)]
        · rw [hnow] at k; cases k
      · have hnr : ¬ s.lv.phase = .running := by rw [h2]; simp
        rcases hcase with ⟨k, _⟩ | ⟨_, k2, ⟨k3, _, k4, k5⟩ | ⟨_, k3, _⟩ | ⟨_, _, _, _, k3, k4⟩ | ⟨_, k3, _⟩⟩
        · exfalso
          unfold now_ Level.handleMessageNow at k
          simp only [Bool.and_eq_true, decide_eq_true_eq] at k
          exact hnr k.1.2
        · refine ⟨k4, Or.inr (Or.inr ⟨k3, k2, ?_⟩)⟩
          rcases k5 with ⟨_, k5⟩ | ⟨_, k5, _⟩ | ⟨_, k5 | ⟨k5, _⟩⟩
          · exact absurd k5 hnr
          · exact absurd k5 hnr
          · exact k5
          · rw [hnf] at k5; cases k5
        · exact absurd k3 hnr
        · exact ⟨k4, Or.inr (Or.inl ⟨k3, k2⟩)⟩
        · rw [hnf] at k3; cases k3
    obtain ⟨hla, three⟩ := three
    have hl : ∀ e ∈ l, e = ⟨some i, g, g, v⟩ := by
      intro e he
      rcases three with ⟨k, _⟩ | ⟨k, _⟩ | ⟨k, _⟩ <;> rw [k] at he
      · cases he
      · exact List.mem_singleton.1 he
      · cases he
    have ho : ∀ d ∈ o, d = ⟨i, g, v, g, false⟩ := by
      intro e he
      rcases three with ⟨_, k⟩ | ⟨_, k⟩ | ⟨_, k, _⟩ <;> rw [k] at he
      · exact List.mem_singleton.1 he
      · cases he
      · cases he
    have hl1 : l.length ≤ 1 := by rcases three with ⟨k, _⟩ | ⟨k, _⟩ | ⟨k, _⟩ <;> rw [k] <;> simp
    have ho1 : o.length ≤ 1 := by rcases three with ⟨_, k⟩ | ⟨_, k⟩ | ⟨_, k, _⟩ <;> rw [k] <;> simp
    refine ⟨?_, ?_, ?_, ?_, ?_, ?_, ?_⟩
    · show ∀ i, la i = _; rw [hla]; exact hd.last
    · intro e he' j hj
      rcases List.mem_append.1 he' with he' | he'
      · obtain ⟨a1, a2, a3⟩ := hd.q e he' j hj
        exact ⟨a1, a2, List.mem_cons_of_mem _ a3⟩
      · rw [hl e he'] at hj ⊢
        simp only [Option.some.injEq] at hj
        subst hj
        exact ⟨rfl, by rw [← hsaid]; exact Tag.le_refl _, List.mem_cons_self⟩
    · show (s.q ++ l).Pairwise _
      rw [List.pairwise_append]
      refine ⟨hd.qs, ?_, ?_⟩
      · match l, hl1 with
        | [], _ => exact List.Pairwise.nil
        | [e], _ => exact List.pairwise_singleton _ _
      · intro e he' e' hel j hj hj'
        rw [hl e' hel] at hj' ⊢
        simp only [Option.some.injEq] at hj'
        subst hj'
        exact hf1 e he' hj
    · intro d hdm
      rcases List.mem_append.1 hdm with hdm | hdm
      · obtain ⟨a1, a2, a3⟩ := hd.out d hdm
        exact ⟨a1, a2, List.mem_cons_of_mem _ a3⟩
      · rw [ho d hdm]
        exact ⟨rfl, by rw [← hsaid]; exact Tag.le_refl _, List.mem_cons_self⟩
    · show (s.out ++ o).Pairwise _
      rw [List.pairwise_append]
      refine ⟨hd.outs, ?_, ?_⟩
      · match o, ho1 with
        | [], _ => exact List.Pairwise.nil
        | [e], _ => exact List.pairwise_singleton _ _
      · intro d hdm d' hdo hp
        rw [ho d' hdo] at hp ⊢
        exact hf2 d hdm hp
    · intro j g' v' hj
      have hne : j ≠ i := hports _ hj
      obtain ⟨a1, a2⟩ := hd.fresh j g' v' (List.mem_of_mem_erase hj)
      refine ⟨?_, ?_⟩
      · intro e he' hp
        rcases List.mem_append.1 he' with he' | he'
        · exact a1 e he' hp
        · rw [hl e he'] at hp
          simp only [Option.some.injEq] at hp
          exact absurd hp.symm hne
      · intro d hdm hp
        rcases List.mem_append.1 hdm with hdm | hdm
        · exact a2 d hdm hp
        · rw [ho d hdm] at hp
          exact absurd hp.symm hne
    · intro j g' v' hj
      rcases List.mem_cons.1 hj with hj | hj
      · simp only [Prod.mk.injEq] at hj
        obtain ⟨rfl, rfl, rfl⟩ := hj
        rcases three with ⟨_, k⟩ | ⟨k, _⟩ | ⟨_, _, k⟩
        · right; left
          show _ ∈ s.out ++ o
          rw [k]; exact List.mem_append_right _ List.mem_cons_self
        · left
          show _ ∈ s.q ++ l
          rw [k]; exact List.mem_append_right _ List.mem_cons_self
        · exact Or.inr (Or.inr k)
      · rcases hd.got j g' v' hj with k | k | k
        · exact Or.inl (List.mem_append_left _ k)
        · exact Or.inr (Or.inl (List.mem_append_left _ k))
        · exact Or.inr (Or.inr k)
  | @abort r hr =>
    obtain ⟨x, y, he, _⟩ := release_cases { s with reading := s.reading.erase r }
    rw [he]
    exact hd.same rfl rfl rfl rfl (Tag.le_refl _) (fun _ => Tag.le_refl _) (fun i g v hr' => Or.inl (List.mem_of_mem_erase hr'))
  | @absent i g hi hg hm hr hs ho ht =>
    refine hd.same rfl rfl rfl rfl (Tag.le_refl _) ?_ (fun i g v hr' => Or.inl hr')
    intro j
    show s.said j ≤ upd s.said i g j
    unfold upd
    split
    · rename_i hj; subst hj; exact Tag.le_of_lt (ho ha.ordered).1
    · exact Tag.le_refl _
  | @gone i hi hr hs => exact hd.same rfl rfl rfl rfl (Tag.le_refl _) (fun _ => Tag.le_refl _) (fun i g v hr' => Or.inl hr')
  | @local_ t v hc hst =>
    refine ⟨hd.last, ?_, ?_, hd.out, hd.outs, ?_, ?_⟩
    · intro e he i hi
      rcases List.mem_append.1 he with he | he
      · exact hd.q e he i hi
      · rw [List.mem_singleton] at he; subst he; cases hi
    · show (s.q ++ _).Pairwise _
      rw [List.pairwise_append]
      refine ⟨hd.qs, List.pairwise_singleton _ _, ?_⟩
      intro e _ e' he' i _ hi'
      rw [List.mem_singleton] at he'; subst he'; cases hi'
    · intro i g v' hr
      obtain ⟨a1, a2⟩ := hd.fresh i g v' hr
      refine ⟨?_, a2⟩
      intro e he hp
      rcases List.mem_append.1 he with he | he
      · exact a1 e he hp
      · rw [List.mem_singleton] at he; subst he; cases hp
    · intro i g v' hg
      rcases hd.got i g v' hg with k | k | k
      · exact Or.inl (List.mem_append_left _ k)
      · exact Or.inr (Or.inl k)
      · exact Or.inr (Or.inr k)
  | @setStop t hc hst hle => exact hd.same rfl rfl rfl rfl hle (fun _ => Tag.le_refl _) (fun i g v hr' => Or.inl hr')
  | @clock t ht hF => exact hd.same rfl rfl rfl rfl (Tag.le_refl _) (fun _ => Tag.le_refl _) (fun i g v hr' => Or.inl hr')
  | begin hp hwt => exact hd.same rfl rfl rfl rfl (Tag.le_refl _) (fun _ => Tag.le_refl _) (fun i g v hr' => Or.inl hr')
  | @start l hp hop hperm =>
    refine hd.popped hperm ?_ rfl rfl rfl rfl rfl rfl rfl
    intro d hdm
    rw [h.early (by rw [hp]; simp)] at hdm; cases hdm
  | wait hp hnone hwt => exact hd.same rfl rfl rfl rfl (Tag.le_refl _) (fun _ => Tag.le_refl _) (fun i g v hr' => Or.inl hr')
  | @advance p l hwt hc hF hm ho hp hperm =>
    refine hd.popped hperm ?_ rfl rfl rfl rfl rfl rfl rfl
    intro d hdm
    exact Tag.lt_of_le_of_lt (h.out d hdm).2.2 hc
  | @stall level hp => exact hd.same rfl rfl rfl rfl (Tag.le_refl _) (fun _ => Tag.le_refl _) (fun i g v hr' => Or.inl hr')
  | @arm v hp => exact hd.same rfl rfl rfl rfl (Tag.le_refl _) (fun _ => Tag.le_refl _) (fun i g v hr' => Or.inl hr')
  | @timeout i t u hi hwt ho hc hst hs =>
    exact hd.same rfl rfl rfl rfl (Tag.le_refl _) (fun _ => Tag.le_refl _) (fun i g v hr' => Or.inl hr')

/-- All of it holds in every reachable state. -/
theorem reach_timely {c : Config} (hw : WF c) {a : Assume} (ha : Good a) {s : State} (h : Reach c a s) :
    Gen c s ∧ Net c s ∧ Del c s := by
  induction h with
  | init now stop h1 h2 h3 => exact ⟨Gen.init hw now stop h1 h2 h3, Net.init c hw now stop, Del.init c now stop⟩
  | step _ st ih =>
    obtain ⟨h1, h2, h3⟩ := ih
    exact ⟨h1.step hw st, h2.step hw ha h1 h3.last (fun e he i hi => (h3.q e he i hi).1) st, h3.step hw ha h1 h2 st⟩

theorem reach_gen {c : Config} (hw : WF c) {a : Assume} {s : State} (h : Reach c a s) : Gen c s := by
  induction h with
  | init now stop h1 h2 h3 => exact Gen.init hw now stop h1 h2 h3
  | step _ st ih => exact ih.step hw st

end ReactorC.Decentral
