import Verif.Decentral.Deliver

/-! # Tardy messages: where they go, in which order, and that none is lost -/

namespace ReactorC.Decentral

open ReactorC.Level (Config Port Phase MIN_SLEEP_DURATION Small bump upd exempt waitOver newKnown actualTag)

/-! ## What is known about a port only grows -/

theorem newKnown_above {cur known tag x : Tag} (h : Small known) (hx : x.time < FOREVER) (hk : x ≤ tag) :
    x ≤ newKnown cur known tag := by
  rcases Level.newKnown_cases cur known tag with ⟨h1, h2, _⟩ | ⟨h1, h2, _⟩ | ⟨_, h2, _⟩
  · rw [h1]; exact Tag.le_trans hk (Tag.le_of_lt h2)
  · rw [h1]; exact Level.bump_gt h hx (Tag.le_trans hk h2)
  · exact Tag.le_trans hk h2

theorem actualTag_ge {c : Config} {l : Level.State} {i : Nat} {g : Tag} (hs : Small (l.known i)) (hF : g.time < FOREVER)
    (hm : l.cur.microstep < UINT_MAX) : g ≤ actualTag c l i g := by
  unfold actualTag
  by_cases h1 : (c.dec && decide (lf_tag_compare g l.cur ≤ 0)) = true
  · rw [if_pos h1]
    simp only [Bool.and_eq_true, decide_eq_true_eq, cmp_le_zero] at h1
    have hb : g ≤ bump l.cur := Tag.le_trans h1.2 (Tag.le_of_lt (lt_bump hm))
    by_cases h2 : lf_tag_compare (bump l.cur) (l.known i) ≤ 0
    · rw [if_pos h2]
      rw [cmp_le_zero] at h2
      exact Level.bump_gt hs hF (Tag.le_trans hb h2)
    · rw [if_neg h2]; exact hb
  · rw [if_neg h1]; exact Tag.le_refl _

theorem bump_mono {x k : Tag} (hk : Small k) (hF : x.time < FOREVER) (hm : x.microstep < UINT_MAX) (h : x ≤ k) : bump x ≤ bump k := by
  rcases Tag.lt_or_eq_of_le h with h | h
  · exact Level.bump_gt hk hF ((bump_le hm).2 h)
  · rw [h]; exact Tag.le_refl _

structure Late (c : Config) (s : State) : Prop where
  time : ∀ e ∈ s.q, ∀ i, e.port = some i → e.tag.time < FOREVER
  said : ∀ e ∈ s.q, ∀ i, e.port = some i → e.intended ≤ s.said i
  saidOut : ∀ d ∈ s.out, d.intended ≤ s.said d.port
  pend : ∀ i g v, (i, g, v) ∈ s.reading → s.said i = g ∧ (∀ e ∈ s.q, e.port = some i → e.intended < g) ∧
    (∀ d ∈ s.out, d.port = i → d.intended < g)
  future : ∀ e ∈ s.q, ∀ i, e.port = some i → s.lv.phase ≠ .running ∨ s.lv.cur < e.intended →
    e.tag = e.intended ∨ e.tag = bump e.intended
  late : s.lv.phase = .running → ∀ e ∈ s.q, ∀ i, e.port = some i → e.intended ≤ s.lv.cur → e.tag.time = s.lv.cur.time ∧
    ∀ m, s.lv.cur.microstep < m → m < e.tag.microstep → found s.q i ⟨s.lv.cur.time, m⟩ = true
  known : ∀ e ∈ s.q, ∀ i, e.port = some i → e.tag ≤ s.lv.known i
  order : s.q.Pairwise fun e e' => ∀ i, e.port = some i → e'.port = some i → e.intended < e'.intended ∧ e.tag < e'.tag
  outq : ∀ d ∈ s.out, ∀ e ∈ s.q, e.port = some d.port → d.intended < e.intended
  outs : s.out.Pairwise fun d d' => d.port = d'.port → d.intended < d'.intended
  got : ∀ i g v, (i, g, v) ∈ s.got → (∃ e ∈ s.q, e.port = some i ∧ e.intended = g ∧ e.val = v) ∨
    (∃ d ∈ s.out, d.port = i ∧ d.intended = g ∧ d.val = v) ∨ (i, g, v) ∈ s.dropped
  drop : ∀ i g v, (i, g, v) ∈ s.dropped → s.stop ≤ g ∨ s.stop.time ≤ s.lv.cur.time
  srcq : ∀ e ∈ s.q, ∀ i, e.port = some i → (i, e.intended, e.val) ∈ s.got
  src : ∀ d ∈ s.out, (d.port, d.intended, d.val) ∈ s.got
  srcd : ∀ r ∈ s.dropped, r ∈ s.got

theorem Late.init (c : Config) (now : Int) (stop : Tag) : Late c (Decentral.init c now stop) where
  time := fun _ h => (by cases h)
  said := fun _ h => (by cases h)
  saidOut := fun _ h => (by cases h)
  pend := fun _ _ _ h => (by cases h)
  future := fun _ h => (by cases h)
  late := fun _ _ h => (by cases h)
  known := fun _ h => (by cases h)
  order := List.Pairwise.nil
  outq := fun _ h => (by cases h)
  outs := List.Pairwise.nil
  got := fun _ _ _ h => (by cases h)
  drop := fun _ _ _ h => (by cases h)
  srcq := fun _ h => (by cases h)
  src := fun _ h => (by cases h)
  srcd := fun _ h => (by cases h)

theorem found_mono {q l : List Ev} {i : Nat} {t : Tag} (h : found q i t = true) : found (q ++ l) i t = true := by
  rw [found_iff] at h ⊢
  obtain ⟨e, he, h⟩ := h
  exact ⟨e, List.mem_append_left _ he, h⟩

/-- If the queue and the current tag stay as they are and what is known grows. -/
theorem Late.same {c : Config} {s s' : State} (h : Late c s) (h1 : s'.q = s.q) (h2 : s'.out = s.out) (h3 : s'.got = s.got)
    (h4 : s'.dropped = s.dropped) (h5 : s'.stop ≤ s.stop) (h6 : ∀ i, s.said i ≤ s'.said i)
    (h7 : ∀ i g v, (i, g, v) ∈ s'.reading → s'.said i = g ∧ ((i, g, v) ∈ s.reading ∨ s.said i < g))
    (h8 : s'.lv.cur = s.lv.cur) (h9 : s'.lv.phase = s.lv.phase)
    (h10 : ∀ i, ∀ x : Tag, x.time < FOREVER → x ≤ s.lv.known i → x ≤ s'.lv.known i) : Late c s' := by
  refine ⟨?_, ?_, ?_, ?_, ?_, ?_, ?_, ?_, ?_, ?_, ?_, ?_, ?_, ?_, ?_⟩
  · rw [h1]; exact h.time
  · rw [h1]; intro e he i hi; exact Tag.le_trans (h.said e he i hi) (h6 i)
  · rw [h2]; intro d hd; exact Tag.le_trans (h.saidOut d hd) (h6 _)
  · rw [h1, h2]
    intro i g v hr
    obtain ⟨hs, hr | hr⟩ := h7 i g v hr
    · exact ⟨hs, (h.pend i g v hr).2⟩
    · refine ⟨hs, fun e he hp => Tag.lt_of_le_of_lt (h.said e he i hp) hr, fun d hd hp => ?_⟩
      have := h.saidOut d hd
      rw [hp] at this
      exact Tag.lt_of_le_of_lt this hr
  · rw [h1, h8, h9]; exact h.future
  · rw [h1, h8, h9]; exact h.late
  · rw [h1]; intro e he i hi; exact h10 i _ (h.time e he i hi) (h.known e he i hi)
  · rw [h1]; exact h.order
  · rw [h1, h2]; exact h.outq
  · rw [h2]; exact h.outs
  · rw [h1, h2, h3, h4]; exact h.got
  · rw [h4, h8]
    intro i g v hd
    rcases h.drop i g v hd with h | h
    · exact Or.inl (Tag.le_trans h5 h)
    · right
      rw [Tag.le_def] at h5
      omega
  · rw [h1, h3]; exact h.srcq
  · rw [h2, h3]; exact h.src
  · rw [h3, h4]; exact h.srcd

/-- Events at one tag belong to different ports. -/
theorem Late.one {c : Config} {s : State} (h : Late c s) (t : Tag) : OnePerPort (due s.q t) := by
  have h2 : (due s.q t).Pairwise fun e e' => ∀ i, e.port = some i → e'.port = some i → e.intended < e'.intended ∧ e.tag < e'.tag :=
    h.order.sublist List.filter_sublist
  have h1 : (due s.q t).Pairwise fun e e' => e.tag = t ∧ e'.tag = t ∧
      ∀ i, e.port = some i → e'.port = some i → e.intended < e'.intended ∧ e.tag < e'.tag :=
    List.Pairwise.imp_of_mem (fun ha hb hr => ⟨((mem_due _ _ _).1 ha).2, ((mem_due _ _ _).1 hb).2, hr⟩) h2
  refine h1.imp ?_
  rintro e e' ⟨a1, b1, hr⟩ i hi hi'
  have := (hr i hi hi').2
  rw [a1, b1] at this
  exact Tag.lt_irrefl _ this

/-- The order of the tags of a port is that of the intended tags. -/
theorem Late.tags {c : Config} {s : State} (h : Late c s) {e e' : Ev} (he : e ∈ s.q) (he' : e' ∈ s.q) {i : Nat}
    (hi : e.port = some i) (hi' : e'.port = some i) (ht : e.tag < e'.tag) : e.intended < e'.intended := by
  have h2 := h.order
  generalize s.q = l at h2 he he'
  induction l with
  | nil => cases he
  | cons x l ih =>
    rw [List.pairwise_cons] at h2
    rcases List.mem_cons.1 he with he1 | he1
    · rcases List.mem_cons.1 he' with he2 | he2
      · rw [he1, he2] at ht; exact absurd ht (Tag.lt_irrefl _)
      · rw [he1] at hi ⊢; exact (h2.1 e' he2 i hi hi').1
    · rcases List.mem_cons.1 he' with he2 | he2
      · rw [he2] at hi' ht
        have := (h2.1 e he1 i hi' hi).2
        rw [← Tag.not_le] at this
        exact absurd (Tag.le_of_lt ht) this
      · exact ih h2.2 he1 he2

/-- The events at a tag are delivered: each one, and nothing else. -/
theorem Late.pops {c : Config} {s : State} (h : Late c s) {t : Tag} {l : List Ev} (hl : l.Perm (due s.q t)) :
    (∀ d ∈ pops t l, ∃ e ∈ s.q, e.tag = t ∧ e.port = some d.port ∧ e.intended = d.intended ∧ e.val = d.val ∧ d.at_ = t) ∧
    (∀ e ∈ s.q, e.tag = t → ∀ i, e.port = some i → ∃ d ∈ Decentral.pops t l, d.port = i ∧ d.intended = e.intended ∧ d.val = e.val) := by
  have hone := (h.one t).perm hl.symm
  have hmem : ∀ e, e ∈ l ↔ e ∈ s.q ∧ e.tag = t := fun e => by rw [hl.mem_iff, mem_due]
  have key : ∀ e ∈ s.q, e.tag = t → ∀ i, e.port = some i →
      ⟨i, e.intended, e.val, t, decide (e.intended < t)⟩ ∈ Decentral.pops t l := by
    intro e he ht i hi
    exact pops_all t l hone e ((hmem e).2 ⟨he, ht⟩) i hi
  refine ⟨?_, fun e he ht i hi => ⟨_, key e he ht i hi, rfl, rfl, rfl⟩⟩
  intro d hd
  obtain ⟨e, he, h1, h2, h3, h4⟩ := pops_mem _ _ d hd
  obtain ⟨h5, h6⟩ := (hmem e).1 he
  have hk := key e h5 h6 d.port h1
  have hd' : d = ⟨d.port, e.intended, e.val, t, decide (e.intended < t)⟩ := by
    have hnd := pops_ports t l
    obtain ⟨n, hn, hn'⟩ := List.mem_iff_getElem.1 hd
    obtain ⟨m, hm, hm'⟩ := List.mem_iff_getElem.1 hk
    have : n = m := by
      rw [List.nodup_iff_injective_get] at hnd
      have := @hnd ⟨n, by rw [List.length_map]; exact hn⟩ ⟨m, by rw [List.length_map]; exact hm⟩ (by
        simp only [List.get_eq_getElem, List.getElem_map, hn', hm'])
      simpa using this
    subst this
    rw [← hn', hm']
  refine ⟨e, h5, h6, h1, h2.symm, ?_, h3⟩
  rw [hd']

/-- The current tag moves to the earliest tag on the queue. -/
theorem Late.popped {c : Config} {s s' : State} (h : Late c s) {t : Tag} {l : List Ev} (hl : l.Perm (due s.q t))
    (hmin : ∀ e ∈ s.q, t ≤ e.tag) (htm : t.microstep < UINT_MAX)
    (hcur : s.lv.cur ≤ t) (h2 : s'.q = rest s.q t) (h3 : s'.out = s.out ++ Decentral.pops t l) (h4 : s'.got = s.got)
    (h5 : s'.stop = s.stop) (h6 : s'.said = s.said) (h7 : s'.reading = s.reading) (h8 : s'.dropped = s.dropped)
    (h9 : s'.lv.cur = t) (h10 : s'.lv.phase = .running) (h11 : ∀ i, s.lv.known i ≤ s'.lv.known i) : Late c s' := by
  obtain ⟨p1, p2⟩ := h.pops hl
  have hgt : ∀ e ∈ rest s.q t, e ∈ s.q ∧ t < e.tag := by
    intro e he
    obtain ⟨he, hne⟩ := (mem_rest _ _ _).1 he
    refine ⟨he, ?_⟩
    rcases Tag.lt_or_eq_of_le (hmin e he) with h1 | h1
    · exact h1
    · exact absurd h1.symm hne
  refine ⟨?_, ?_, ?_, ?_, ?_, ?_, ?_, ?_, ?_, ?_, ?_, ?_, ?_, ?_, ?_⟩
  · rw [h2]; intro e he; exact h.time e (hgt e he).1
  · rw [h2, h6]; intro e he; exact h.said e (hgt e he).1
  · rw [h3, h6]
    intro d hd
    rcases List.mem_append.1 hd with hd | hd
    · exact h.saidOut d hd
    · obtain ⟨e, he, _, a2, a3, _⟩ := p1 d hd
      rw [← a3]; exact h.said e he _ a2
  · rw [h2, h3, h6, h7]
    intro i g v hr
    obtain ⟨a, b, d⟩ := h.pend i g v hr
    refine ⟨a, fun e he => b e (hgt e he).1, ?_⟩
    intro x hx hp
    rcases List.mem_append.1 hx with hx | hx
    · exact d x hx hp
    · obtain ⟨e, he, _, a2, a3, _⟩ := p1 x hx
      rw [← a3]; exact b e he (by rw [a2, hp])
  · rw [h2, h9, h10]
    intro e he i hi hc
    rcases hc with hc | hc
    · exact absurd rfl hc
    · exact h.future e (hgt e he).1 i hi (Or.inr (Tag.lt_of_le_of_lt hcur hc))
  · rw [h2, h9]
    intro _ e he i hi hle
    obtain ⟨he, htag⟩ := hgt e he
    by_cases hf : s.lv.phase ≠ .running ∨ s.lv.cur < e.intended
    · have hti : e.tag = bump t := by
        rcases h.future e he i hi hf with hx | hx
        · rw [hx, ← Tag.not_le] at htag; exact absurd hle htag
        · have hie : e.intended = t := by
            rcases Tag.lt_or_eq_of_le hle with h12 | h12
            · exfalso
              rw [hx] at htag
              by_cases hmu : e.intended.microstep < UINT_MAX
              · rw [← Tag.not_le] at htag; exact htag ((bump_le hmu).2 h12)
              · -- the microstep wraps around
                rw [Tag.lt_def] at htag h12
                have : (bump e.intended).microstep ≤ e.intended.microstep := by
                  show wrapU32 (e.intended.microstep + 1) ≤ _
                  unfold wrapU32; unfold UINT_MAX at hmu; omega
                have h13 : (bump e.intended).time = e.intended.time := rfl
                omega
            · exact h12
          rw [hx, hie]
      rw [hti]
      refine ⟨rfl, ?_⟩
      intro m hm1 hm2
      rw [Level.bump_small htm] at hm2
      replace hm2 : m < t.microstep + 1 := hm2
      omega
    · rw [not_or, not_not, Tag.not_lt] at hf
      obtain ⟨k1, k2⟩ := h.late hf.1 e he i hi hf.2
      have htt : t.time = s.lv.cur.time := by rw [Tag.lt_def] at htag; rw [Tag.le_def] at hcur; omega
      refine ⟨by rw [k1, htt], ?_⟩
      intro m hm1 hm2
      have hcm : s.lv.cur.microstep < m := by rw [Tag.le_def] at hcur; omega
      obtain ⟨e', he', hp', ht'⟩ := (found_iff _ _ _).1 (k2 m hcm hm2)
      rw [found_iff]
      refine ⟨e', (mem_rest _ _ _).2 ⟨he', ?_⟩, hp', by rw [ht', htt]⟩
      rw [ht']
      intro hx
      rw [← hx] at hm1
      exact Nat.lt_irrefl _ hm1
  · rw [h2]; intro e he i hi; exact Tag.le_trans (h.known e (hgt e he).1 i hi) (h11 i)
  · rw [h2]; exact h.order.sublist List.filter_sublist
  · rw [h2, h3]
    intro d hd e he hp
    obtain ⟨he, htag⟩ := hgt e he
    rcases List.mem_append.1 hd with hd | hd
    · exact h.outq d hd e he hp
    · obtain ⟨e', he', a1, a2, a3, _⟩ := p1 d hd
      rw [← a3]
      exact h.tags he' he a2 hp (by rw [a1]; exact htag)
  · rw [h3, List.pairwise_append]
    refine ⟨h.outs, ?_, ?_⟩
    · have := pops_ports t l
      rw [List.Nodup, List.pairwise_map] at this
      exact this.imp fun hne heq => absurd heq hne
    · intro d hd d' hd' hp
      obtain ⟨e', he', a1, a2, a3, _⟩ := p1 d' hd'
      rw [← a3]
      exact h.outq d hd e' he' (by rw [a2, hp])
  · rw [h2, h3, h4, h8]
    intro i g v hg
    rcases h.got i g v hg with ⟨e, he, a1, a2, a3⟩ | ⟨d, hd, a⟩ | h12
    · by_cases ht : e.tag = t
      · obtain ⟨d, hd, b1, b2, b3⟩ := p2 e he ht i a1
        exact Or.inr (Or.inl ⟨d, List.mem_append_right _ hd, b1, by rw [b2, a2], by rw [b3, a3]⟩)
      · exact Or.inl ⟨e, (mem_rest _ _ _).2 ⟨he, ht⟩, a1, a2, a3⟩
    · exact Or.inr (Or.inl ⟨d, List.mem_append_left _ hd, a⟩)
    · exact Or.inr (Or.inr h12)
  · rw [h5, h8, h9]
    intro i g v hd
    rcases h.drop i g v hd with h | h
    · exact Or.inl h
    · right; rw [Tag.le_def] at hcur; omega
  · rw [h2, h4]; intro e he; exact h.srcq e (hgt e he).1
  · rw [h3, h4]
    intro d hd
    rcases List.mem_append.1 hd with hd | hd
    · exact h.src d hd
    · obtain ⟨e, he, _, a2, a3, a4, _⟩ := p1 d hd
      rw [← a3, ← a4]; exact h.srcq e he _ a2
  · rw [h4, h8]; exact h.srcd

/-! ## A message is complete -/

/-- A new event of a port: later than those on the queue. -/
theorem Late.push {c : Config} {s s' : State} (h : Late c s) {i : Nat} {g t : Tag} {v : Nat} (hr : (i, g, v) ∈ s.reading)
    (hports : ∀ r ∈ s.reading.erase (i, g, v), r.1 ≠ i)
    (htF : t.time < FOREVER) (hk : t ≤ s'.lv.known i) (hlt : ∀ e ∈ s.q, e.port = some i → e.tag < t)
    (hfut : s.lv.phase ≠ .running ∨ s.lv.cur < g → t = g ∨ t = bump g)
    (hlate : s.lv.phase = .running → g ≤ s.lv.cur → t.time = s.lv.cur.time ∧
      ∀ m, s.lv.cur.microstep < m → m < t.microstep → found s.q i ⟨s.lv.cur.time, m⟩ = true)
    (h1 : s'.q = s.q ++ [⟨some i, t, g, v⟩]) (h2 : s'.out = s.out) (h3 : s'.got = (i, g, v) :: s.got)
    (h4 : s'.dropped = s.dropped) (h5 : s'.stop = s.stop) (h6 : s'.said = s.said)
    (h7 : s'.reading = s.reading.erase (i, g, v)) (h8 : s'.lv.cur = s.lv.cur) (h9 : s'.lv.phase = s.lv.phase)
    (h10 : ∀ i, ∀ x : Tag, x.time < FOREVER → x ≤ s.lv.known i → x ≤ s'.lv.known i) : Late c s' := by
  obtain ⟨hsaid, hf1, hf2⟩ := h.pend i g v hr
  refine ⟨?_, ?_, ?_, ?_, ?_, ?_, ?_, ?_, ?_, ?_, ?_, ?_, ?_, ?_, ?_⟩
  · rw [h1]
    intro e he j hj
    rcases List.mem_append.1 he with he | he
    · exact h.time e he j hj
    · rw [List.mem_singleton] at he; subst he; exact htF
  · rw [h1, h6]
    intro e he j hj
    rcases List.mem_append.1 he with he | he
    · exact h.said e he j hj
    · rw [List.mem_singleton] at he; subst he
      simp only [Option.some.injEq] at hj
      subst hj
      rw [hsaid]; exact Tag.le_refl _
  · rw [h2, h6]; exact h.saidOut
  · rw [h1, h2, h6, h7]
    intro j g' v' hj
    obtain ⟨a1, a2, a3⟩ := h.pend j g' v' (List.mem_of_mem_erase hj)
    refine ⟨a1, ?_, a3⟩
    intro e he hp
    rcases List.mem_append.1 he with he | he
    · exact a2 e he hp
    · rw [List.mem_singleton] at he; subst he
      simp only [Option.some.injEq] at hp
      exact absurd hp.symm (hports _ hj)
  · rw [h1, h8, h9]
    intro e he j hj hc
    rcases List.mem_append.1 he with he | he
    · exact h.future e he j hj hc
    · rw [List.mem_singleton] at he; subst he; exact hfut hc
  · rw [h1, h8, h9]
    intro hp e he j hj hle
    rcases List.mem_append.1 he with he | he
    · obtain ⟨a1, a2⟩ := h.late hp e he j hj hle
      exact ⟨a1, fun m hm1 hm2 => found_mono (a2 m hm1 hm2)⟩
    · rw [List.mem_singleton] at he; subst he
      simp only [Option.some.injEq] at hj
      subst hj
      obtain ⟨a1, a2⟩ := hlate hp hle
      exact ⟨a1, fun m hm1 hm2 => found_mono (a2 m hm1 hm2)⟩
  · rw [h1]
    intro e he j hj
    rcases List.mem_append.1 he with he | he
    · exact h10 j _ (h.time e he j hj) (h.known e he j hj)
    · rw [List.mem_singleton] at he; subst he
      simp only [Option.some.injEq] at hj
      subst hj
      exact hk
  · rw [h1, List.pairwise_append]
    refine ⟨h.order, List.pairwise_singleton _ _, ?_⟩
    intro e he e' he' j hj hj'
    rw [List.mem_singleton] at he'; subst he'
    simp only [Option.some.injEq] at hj'
    subst hj'
    exact ⟨hf1 e he hj, hlt e he hj⟩
  · rw [h1, h2]
    intro d hd e he hp
    rcases List.mem_append.1 he with he | he
    · exact h.outq d hd e he hp
    · rw [List.mem_singleton] at he; subst he
      simp only [Option.some.injEq] at hp
      exact hf2 d hd hp.symm
  · rw [h2]; exact h.outs
  · rw [h1, h2, h3, h4]
    intro j g' v' hj
    rcases List.mem_cons.1 hj with hj | hj
    · simp only [Prod.mk.injEq] at hj
      obtain ⟨rfl, rfl, rfl⟩ := hj
      exact Or.inl ⟨_, List.mem_append_right _ List.mem_cons_self, rfl, rfl, rfl⟩
    · rcases h.got j g' v' hj with ⟨e, he, a⟩ | a | a
      · exact Or.inl ⟨e, List.mem_append_left _ he, a⟩
      · exact Or.inr (Or.inl a)
      · exact Or.inr (Or.inr a)
  · rw [h4, h5, h8]; exact h.drop
  · rw [h1, h3]
    intro e he j hj
    rcases List.mem_append.1 he with he | he
    · exact List.mem_cons_of_mem _ (h.srcq e he j hj)
    · rw [List.mem_singleton] at he; subst he
      simp only [Option.some.injEq] at hj
      subst hj
      exact List.mem_cons_self
  · rw [h2, h3]; intro d hd; exact List.mem_cons_of_mem _ (h.src d hd)
  · rw [h3, h4]; intro d hd; exact List.mem_cons_of_mem _ (h.srcd d hd)

/-- A tag that is free for a message in the future. -/
theorem Late.room {c : Config} {s : State} (h : Late c s) (hg : Gen c s) {i : Nat} {g : Tag} {v : Nat} (hr : (i, g, v) ∈ s.reading)
    (hf : ¬ (g ≤ s.lv.cur ∧ s.lv.phase = .running)) :
    (found s.q i g = false → ∀ e ∈ s.q, e.port = some i → e.tag < g) ∧
    (found s.q i g = true → found s.q i (bump g) = false → ∀ e ∈ s.q, e.port = some i → e.tag < bump g) := by
  obtain ⟨hi, hp, hgs, hgF, hgm, hx⟩ := hg.pend i g v hr
  obtain ⟨_, hlt, _⟩ := h.pend i g v hr
  -- the others are not later than the tag, or the tags in between are taken
  have key : ∀ e ∈ s.q, e.port = some i → e.tag ≤ g ∨ (s.lv.phase = .running ∧ e.tag.time = s.lv.cur.time ∧
      ∀ m, s.lv.cur.microstep < m → m < e.tag.microstep → found s.q i ⟨s.lv.cur.time, m⟩ = true) := by
    intro e he hpe
    by_cases hc : s.lv.phase ≠ .running ∨ s.lv.cur < e.intended
    · left
      have hig := hlt e he hpe
      have hmu := (hg.net e he i hpe).2.2
      rcases h.future e he i hpe hc with h1 | h1
      · rw [h1]; exact Tag.le_of_lt hig
      · rw [h1]; exact (bump_le hmu).2 hig
    · right
      rw [not_or, not_not, Tag.not_lt] at hc
      exact ⟨hc.1, h.late hc.1 e he i hpe hc.2⟩
  have hcur : s.lv.phase = .running → s.lv.cur < g := fun hpr => by rw [← Tag.not_le]; exact fun h1 => hf ⟨h1, hpr⟩
  refine ⟨?_, ?_⟩
  · intro hnf e he hpe
    have hne := (found_false _ _ _).1 hnf e he hpe
    rcases key e he hpe with h1 | ⟨h1, h2, h3⟩
    · rcases Tag.lt_or_eq_of_le h1 with h1 | h1
      · exact h1
      · exact absurd h1 hne
    · rw [← Tag.not_le]
      intro hle
      have hlt' : g < e.tag := by
        rcases Tag.lt_or_eq_of_le hle with h4 | h4
        · exact h4
        · exact absurd h4.symm hne
      have hcg := hcur h1
      rw [Tag.lt_def] at hlt' hcg
      have hgt : g.time = s.lv.cur.time := by omega
      have := h3 g.microstep (by omega) (by omega)
      rw [← hgt] at this
      replace this : found s.q i g = true := this
      rw [hnf] at this; cases this
  · intro hfo hnf e he hpe
    have hb := lt_bump hgm
    rcases key e he hpe with h1 | ⟨h1, h2, h3⟩
    · exact Tag.lt_of_le_of_lt h1 hb
    · rw [← Tag.not_le]
      intro hle
      have hne := (found_false _ _ _).1 hnf e he hpe
      have hlt' : bump g < e.tag := by
        rcases Tag.lt_or_eq_of_le hle with h4 | h4
        · exact h4
        · exact absurd h4.symm hne
      have hcg := hcur h1
      rw [Level.bump_small hgm] at hlt' hnf
      rw [Tag.lt_def] at hlt' hcg
      replace hlt' : g.time < e.tag.time ∨ (g.time = e.tag.time ∧ g.microstep + 1 < e.tag.microstep) := hlt'
      have hgt : g.time = s.lv.cur.time := by omega
      have := h3 (g.microstep + 1) (by omega) (by omega)
      rw [← hgt, hnf] at this; cases this

/-- If the message is handled at once or discarded. -/
theorem Late.done {c : Config} {s s' : State} (h : Late c s) {i : Nat} {g : Tag} {v : Nat} (hr : (i, g, v) ∈ s.reading)
    (hports : ∀ r ∈ s.reading.erase (i, g, v), r.1 ≠ i) {o : List Delivery} {dr : List Msg}
    (ho : (o = [] ∧ dr = [(i, g, v)]) ∨ (dr = [] ∧ (∃ at_ late, o = [⟨i, g, v, at_, late⟩]) ∧ ∀ e ∈ s.q, e.port ≠ some i))
    (hdr : ∀ r ∈ dr, s.stop ≤ r.2.1 ∨ s.stop.time ≤ s.lv.cur.time)
    (h1 : s'.q = s.q) (h2 : s'.out = s.out ++ o) (h3 : s'.got = (i, g, v) :: s.got)
    (h4 : s'.dropped = dr ++ s.dropped) (h5 : s'.stop = s.stop) (h6 : s'.said = s.said)
    (h7 : s'.reading = s.reading.erase (i, g, v)) (h8 : s'.lv.cur = s.lv.cur) (h9 : s'.lv.phase = s.lv.phase)
    (h10 : ∀ i, ∀ x : Tag, x.time < FOREVER → x ≤ s.lv.known i → x ≤ s'.lv.known i) : Late c s' := by
  obtain ⟨hsaid, hf1, hf2⟩ := h.pend i g v hr
  have hom : ∀ d ∈ o, d.port = i ∧ d.intended = g ∧ d.val = v ∧ ∀ e ∈ s.q, e.port ≠ some i := by
    rcases ho with ⟨k, _⟩ | ⟨_, ⟨a, l, k⟩, k'⟩ <;> rw [k]
    · intro d hd; cases hd
    · intro d hd; rw [List.mem_singleton] at hd; subst hd; exact ⟨rfl, rfl, rfl, k'⟩
  have hdm : ∀ r ∈ dr, r = (i, g, v) := by
    rcases ho with ⟨_, k⟩ | ⟨k, _⟩ <;> rw [k]
    · intro d hd; exact List.mem_singleton.1 hd
    · intro d hd; cases hd
  refine ⟨?_, ?_, ?_, ?_, ?_, ?_, ?_, ?_, ?_, ?_, ?_, ?_, ?_, ?_, ?_⟩
  · rw [h1]; exact h.time
  · rw [h1, h6]; exact h.said
  · rw [h2, h6]
    intro d hd
    rcases List.mem_append.1 hd with hd | hd
    · exact h.saidOut d hd
    · obtain ⟨a1, a2, _⟩ := hom d hd
      rw [a1, a2, hsaid]; exact Tag.le_refl _
  · rw [h1, h2, h6, h7]
    intro j g' v' hj
    obtain ⟨a1, a2, a3⟩ := h.pend j g' v' (List.mem_of_mem_erase hj)
    refine ⟨a1, a2, ?_⟩
    intro d hd hp
    rcases List.mem_append.1 hd with hd | hd
    · exact a3 d hd hp
    · rw [(hom d hd).1] at hp; exact absurd hp.symm (hports _ hj)
  · rw [h1, h8, h9]; exact h.future
  · rw [h1, h8, h9]; exact h.late
  · rw [h1]; intro e he j hj; exact h10 j _ (h.time e he j hj) (h.known e he j hj)
  · rw [h1]; exact h.order
  · rw [h1, h2]
    intro d hd e he hp
    rcases List.mem_append.1 hd with hd | hd
    · exact h.outq d hd e he hp
    · obtain ⟨a1, _, _, a4⟩ := hom d hd
      rw [a1] at hp; exact absurd hp (a4 e he)
  · rw [h2, List.pairwise_append]
    refine ⟨h.outs, ?_, ?_⟩
    · rcases ho with ⟨k, _⟩ | ⟨_, ⟨a, l, k⟩, k'⟩ <;> rw [k]
      · exact List.Pairwise.nil
      · exact List.pairwise_singleton _ _
    · intro d hd d' hd' hp
      obtain ⟨a1, a2, _⟩ := hom d' hd'
      rw [a2]; exact hf2 d hd (by rw [hp, a1])
  · rw [h1, h2, h3, h4]
    intro j g' v' hj
    rcases List.mem_cons.1 hj with hj | hj
    · simp only [Prod.mk.injEq] at hj
      obtain ⟨rfl, rfl, rfl⟩ := hj
      rcases ho with ⟨_, k⟩ | ⟨_, ⟨a, l, k⟩, _⟩ <;> rw [k]
      · exact Or.inr (Or.inr List.mem_cons_self)
      · exact Or.inr (Or.inl ⟨_, List.mem_append_right _ List.mem_cons_self, rfl, rfl, rfl⟩)
    · rcases h.got j g' v' hj with a | ⟨d, hd, a⟩ | a
      · exact Or.inl a
      · exact Or.inr (Or.inl ⟨d, List.mem_append_left _ hd, a⟩)
      · exact Or.inr (Or.inr (List.mem_append_right _ a))
  · rw [h4, h5, h8]
    intro j g' v' hj
    rcases List.mem_append.1 hj with hj | hj
    · exact hdr _ hj
    · exact h.drop j g' v' hj
  · rw [h1, h3]; intro e he j hj; exact List.mem_cons_of_mem _ (h.srcq e he j hj)
  · rw [h2, h3]
    intro d hd
    rcases List.mem_append.1 hd with hd | hd
    · exact List.mem_cons_of_mem _ (h.src d hd)
    · obtain ⟨a1, a2, a3, _⟩ := hom d hd
      rw [a1, a2, a3]; exact List.mem_cons_self
  · rw [h3, h4]
    intro r hr'
    rcases List.mem_append.1 hr' with hr' | hr'
    · rw [hdm r hr']; exact List.mem_cons_self
    · exact List.mem_cons_of_mem _ (h.srcd r hr')

theorem upd_known {f : Nat → Tag} {i : Nat} {k : Tag} (hk : ∀ x : Tag, x.time < FOREVER → x ≤ f i → x ≤ k) :
    ∀ j, ∀ x : Tag, x.time < FOREVER → x ≤ f j → x ≤ upd f i k j := by
  intro j x hx hxj
  unfold upd
  split
  · rename_i hj; subst hj; exact hk x hx hxj
  · exact hxj

/-- A message is complete. -/
theorem Late.complete {c : Config} (hw : WF c) {s : State} (h : Gen c s) (hd : Late c s) {i : Nat} {g : Tag} {v : Nat}
    (hr : (i, g, v) ∈ s.reading) (hs : Small (s.lv.known i))
    (hsp : found s.q i g = true → found s.q i (bump g) = false) :
    Late c (release { handle c s i g v with reading := s.reading.erase (i, g, v) }) := by
  obtain ⟨hi, hp, hgs, hgF, hgm, hx⟩ := h.pend i g v hr
  obtain ⟨x, y, he, _⟩ := release_cases { handle c s i g v with reading := s.reading.erase (i, g, v) }
  obtain ⟨l, o, dr, la, hh, hcase⟩ := handle_cases c s i g v
  obtain ⟨m, sl, st', hl'⟩ := handleMessage_lv c s.lv i g (decide (s.last i < g))
  have hrec : decide (lf_tag_compare g (s.last i) > 0) = decide (s.last i < g) := by
    rw [decide_eq_decide, gt_iff_lt, cmp_gt_zero]
  have hports := erase_port h.ports hr
  have hcm := h.lv.curMicro
  have hcF := h.lv.curTime
  have hact : g ≤ actualTag c s.lv i g := actualTag_ge hs hgF hcm
  have hnow : now_ c s i g = Level.handleMessageNow c s.lv i g (decide (s.last i < g)) := by unfold now_; rw [hrec]
  rw [he, hh]
  dsimp only
  rw [hl', ← hnow]
  have hgrow : ∀ k, ∀ j, ∀ x : Tag, x.time < FOREVER → x ≤ s.lv.known j →
      x ≤ upd s.lv.known i (newKnown s.lv.cur (s.lv.known i) k) j :=
    fun k => upd_known fun x hx hk => Level.newKnown_ge hs hx hk
  have hself : ∀ k : Tag, upd s.lv.known i k i = k := fun k => by unfold upd; rw [if_pos rfl]
  rcases hcase with ⟨hn, rfl, rfl, rfl, rfl⟩ | ⟨hn, rfl, ⟨rfl, rfl, rfl, hdr⟩ | ⟨h1, h2, rfl, rfl, h3, rfl⟩ |
    ⟨h1, h2, h3, rfl, rfl, rfl⟩ | ⟨h1, h2, h3, rfl, rfl, rfl⟩⟩
  · -- handled at once
    refine hd.done hr hports (o := [_]) (dr := []) ?_ (fun _ h => (by cases h)) (List.append_nil _) rfl rfl rfl rfl rfl rfl rfl rfl (hgrow _)
    right
    refine ⟨rfl, ⟨_, _, rfl⟩, ?_⟩
    intro e he' hpe
    rw [hnow] at hn
    unfold Level.handleMessageNow at hn
    simp only [Bool.and_eq_true, decide_eq_true_eq, cmp_eq_zero, gt_iff_lt, cmp_gt_zero] at hn
    have h1 := hd.known e he' i hpe
    have h2 := (h.ev e he').2 hn.1.2
    rw [← hn.1.1.1.1.2] at h2
    exact absurd (Tag.lt_of_lt_of_le h2 h1) (by rw [Tag.not_lt]; exact Tag.le_of_lt hn.1.1.2)
  · -- discarded
    refine hd.done hr hports (o := []) (dr := [(i, g, v)]) (Or.inl ⟨rfl, rfl⟩) ?_ (List.append_nil _) rfl rfl rfl rfl rfl rfl rfl rfl (hgrow _)
    intro r hr'
    rw [List.mem_singleton] at hr'
    subst hr'
    show s.stop ≤ g ∨ _
    rcases hdr with ⟨k, _⟩ | ⟨_, _, k⟩ | ⟨_, k | ⟨_, k⟩⟩
    · right; rw [Tag.le_def] at k; omega
    · right
      obtain ⟨n, _, hfr, _⟩ := freeTag_cases s.q i s.q.length (lf_delay_tag s.lv.cur 0)
      rw [hfr, delay_zero _ hcF h.lv.curLow, Tag.lt_def] at k
      replace k : s.stop.time < s.lv.cur.time ∨ (s.stop.time = s.lv.cur.time ∧ _) := k
      omega
    · exact Or.inl (Tag.le_of_lt k)
    · exact Or.inl ((le_of_lt_bump hgm).1 k)
  · -- tardy
    obtain ⟨n, hn1, hfr, hn2, _⟩ := freeTag_cases s.q i s.q.length (lf_delay_tag s.lv.cur 0)
    have hfree := freeTag_free s.q i (lf_delay_tag s.lv.cur 0)
    rw [hfr] at hfree
    rw [hfr]
    rw [delay_zero _ hcF h.lv.curLow] at hn2 hfree ⊢
    rw [Level.bump_small hcm] at hn2 hfree ⊢
    dsimp only at hn2 hfree ⊢
    have hin : ∀ e ∈ s.q, e.port = some i → e.intended ≤ s.lv.cur := fun e he' hpe =>
      Tag.le_trans (Tag.le_of_lt ((hd.pend i g v hr).2.1 e he' hpe)) h1
    refine hd.push hr hports (t := ⟨s.lv.cur.time, s.lv.cur.microstep + 1 + n⟩) hcF ?_ ?_ ?_ ?_ rfl (List.append_nil _) rfl rfl rfl rfl rfl rfl rfl (hgrow _)
    · show _ ≤ upd _ _ _ i
      rw [hself, if_neg (by rw [hn]; simp)]
      refine newKnown_above hs hcF ?_
      unfold actualTag
      rw [if_pos (by simp only [Bool.and_eq_true, decide_eq_true_eq, cmp_le_zero]; exact ⟨hw.dec, h1⟩)]
      rw [Level.bump_small hcm]
      by_cases hn0 : n = 0
      · subst hn0
        by_cases hk : lf_tag_compare ⟨s.lv.cur.time, s.lv.cur.microstep + 1⟩ (s.lv.known i) ≤ 0
        · rw [if_pos hk]
          rw [cmp_le_zero] at hk
          exact Level.bump_gt hs hcF hk
        · rw [if_neg hk]; exact Tag.le_refl _
      · obtain ⟨e, he', hpe, hte⟩ := (found_iff _ _ _).1 (hn2 (n - 1) (by omega))
        have hk := hd.known e he' i hpe
        rw [hte] at hk
        rw [if_pos]
        · rw [Tag.le_def] at hk ⊢
          rw [Level.bump_time]
          dsimp only at hk ⊢
          rcases hk with hk | ⟨hk, hk'⟩
          · exact Or.inl hk
          · right
            refine ⟨hk, ?_⟩
            rw [Level.bump_small (hs (by omega))]
            dsimp only
            omega
        · rw [cmp_le_zero]
          refine Tag.le_trans ?_ hk
          rw [Tag.le_def]; right; exact ⟨rfl, Nat.le_add_right _ _⟩
    · intro e he' hpe
      obtain ⟨k1, k2⟩ := hd.late h2 e he' i hpe (hin e he' hpe)
      have k3 := (h.ev e he').2 h2
      have hne := (found_false _ _ _).1 hfree e he' hpe
      rw [← Tag.not_le]
      intro hle
      have hlt : (⟨s.lv.cur.time, s.lv.cur.microstep + 1 + n⟩ : Tag) < e.tag := by
        rcases Tag.lt_or_eq_of_le hle with h4 | h4
        · exact h4
        · exact absurd h4.symm hne
      rw [Tag.lt_def] at hlt
      dsimp only at hlt
      have := k2 (s.lv.cur.microstep + 1 + n) (by omega) (by omega)
      rw [hfree] at this; cases this
    · intro hc
      rcases hc with hc | hc
      · exact absurd h2 hc
      · rw [← Tag.not_le] at hc; exact absurd h1 hc
    · intro _ _
      refine ⟨rfl, ?_⟩
      intro m hm1 hm2
      dsimp only at hm2
      have := hn2 (m - (s.lv.cur.microstep + 1)) (by omega)
      rw [show s.lv.cur.microstep + 1 + (m - (s.lv.cur.microstep + 1)) = m by omega] at this
      exact this
  · -- in the future
    refine hd.push hr hports (t := g) hgF ?_ ((hd.room h hr h1).1 h2) (fun _ => Or.inl rfl) ?_ rfl (List.append_nil _) rfl rfl rfl rfl rfl rfl rfl (hgrow _)
    · show _ ≤ upd _ _ _ i
      rw [hself, if_neg (by rw [hn]; simp)]
      exact newKnown_above hs hgF hact
    · intro hpr hle; exact absurd ⟨hle, hpr⟩ h1
  · -- in the future, the tag is taken
    refine hd.push hr hports (t := bump g) hgF ?_ ((hd.room h hr h1).2 h2 (hsp h2)) (fun _ => Or.inr rfl) ?_ rfl (List.append_nil _) rfl rfl rfl rfl rfl rfl rfl (hgrow _)
    · show _ ≤ upd _ _ _ i
      rw [hself, if_neg (by rw [hn]; simp)]
      obtain ⟨e, he', hpe, hte⟩ := (found_iff _ _ _).1 h2
      have hk := hd.known e he' i hpe
      rw [hte] at hk
      by_cases hgc : g ≤ s.lv.cur
      · -- before the start
        refine newKnown_above hs hgF ?_
        unfold actualTag
        rw [if_pos (by simp only [Bool.and_eq_true, decide_eq_true_eq, cmp_le_zero]; exact ⟨hw.dec, hgc⟩)]
        have hb : bump g ≤ bump s.lv.cur := bump_mono (fun _ => hcm) hgF hgm hgc
        by_cases hk' : lf_tag_compare (bump s.lv.cur) (s.lv.known i) ≤ 0
        · rw [if_pos hk']
          rw [cmp_le_zero] at hk'
          exact Level.bump_gt hs hgF (Tag.le_trans hb hk')
        · rw [if_neg hk']; exact hb
      · have hat : actualTag c s.lv i g = g := by
          unfold actualTag
          rw [if_neg]
          simp only [Bool.and_eq_true, decide_eq_true_eq, cmp_le_zero]
          exact fun hx => hgc hx.2
        rw [hat]
        rcases Level.newKnown_cases s.lv.cur (s.lv.known i) g with ⟨e1, e2, _⟩ | ⟨e1, e2, _⟩ | ⟨e1, e2, _, e3 | ⟨_, e3⟩⟩
        · rw [e1]; exact (bump_le hgm).2 e2
        · rw [e1]; exact bump_mono hs hgF hgm e2
        · rw [e3, ← Tag.not_le] at e1; exact absurd hk e1
        · exact absurd (Tag.le_of_lt e3) hgc
    · intro hpr hle; exact absurd ⟨hle, hpr⟩ h1

theorem Late.step {c : Config} (hw : WF c) {a : Assume} (ha1 : a.ordered = true) (ha2 : a.spaced = true) {s s' : State}
    (h : Gen c s) (hd : Late c s) (st : Step c a s s') : Late c s' := by
  have hpend : ∀ i g v, (i, g, v) ∈ s.reading → s.said i = g ∧ ((i, g, v) ∈ s.reading ∨ s.said i < g) :=
    fun i g v hr => ⟨(hd.pend i g v hr).1, Or.inl hr⟩
  cases st with
  | @header i g v hi hp hg hF hm hx hr ho ht =>
    obtain ⟨y, he, _⟩ := raise_cases s g h.lv.curMicro
    have ho := ho ha1
    rw [he]
    refine hd.same rfl rfl rfl rfl (Tag.le_refl _) ?_ ?_ rfl rfl (fun _ _ _ h => h)
    · intro j
      show s.said j ≤ upd s.said i g j
      unfold upd
      split
      · rename_i hj; subst hj; exact Tag.le_of_lt ho.1
      · exact Tag.le_refl _
    · intro j g' v' hj
      rcases List.mem_cons.1 hj with hj | hj
      · simp only [Prod.mk.injEq] at hj
        obtain ⟨rfl, rfl, rfl⟩ := hj
        exact ⟨by show upd _ _ _ _ = _; unfold upd; rw [if_pos rfl], Or.inr ho.1⟩
      · refine ⟨?_, Or.inl hj⟩
        show upd _ _ _ _ = _; unfold upd; rw [if_neg (hr _ hj)]; exact (hd.pend j g' v' hj).1
  | @complete i g v hr hs ht hc hsp => exact hd.complete hw h hr hs (hsp ha2)
  | @abort r hr =>
    obtain ⟨x, y, he, _⟩ := release_cases { s with reading := s.reading.erase r }
    rw [he]
    exact hd.same rfl rfl rfl rfl (Tag.le_refl _) (fun _ => Tag.le_refl _)
      (fun i g v hr' => hpend i g v (List.mem_of_mem_erase hr')) rfl rfl (fun _ _ _ h => h)
  | @absent i g hi hg hm hr hs ho ht =>
    have ho := ho ha1
    obtain ⟨m, sl, hu⟩ := updatePort_lv c s.lv i g
    rw [hu]
    refine hd.same rfl rfl rfl rfl (Tag.le_refl _) ?_ ?_ rfl rfl (upd_known fun x hx hk => Level.newKnown_ge hs hx hk)
    · intro j
      show s.said j ≤ upd s.said i g j
      unfold upd
      split
      · rename_i hj; subst hj; exact Tag.le_of_lt ho.1
      · exact Tag.le_refl _
    · intro j g' v' hj
      refine ⟨?_, Or.inl hj⟩
      show upd _ _ _ _ = _; unfold upd; rw [if_neg (hr _ hj)]; exact (hd.pend j g' v' hj).1
  | @gone i hi hr hs =>
    obtain ⟨m, sl, hu⟩ := updatePort_lv c s.lv i FOREVER_TAG
    rw [hu]
    exact hd.same rfl rfl rfl rfl (Tag.le_refl _) (fun _ => Tag.le_refl _) hpend rfl rfl
      (upd_known fun x hx hk => Level.newKnown_ge hs hx hk)
  | @local_ t v hc hst =>
    have hmem : ∀ e ∈ s.q ++ [⟨none, t, NEVER_TAG, v⟩], ∀ i, e.port = some i → e ∈ s.q := by
      intro e he i hi
      rcases List.mem_append.1 he with he | he
      · exact he
      · rw [List.mem_singleton] at he; subst he; cases hi
    refine ⟨fun e he i hi => hd.time e (hmem e he i hi) i hi, fun e he i hi => hd.said e (hmem e he i hi) i hi, hd.saidOut, ?_,
      fun e he i hi => hd.future e (hmem e he i hi) i hi, ?_, fun e he i hi => hd.known e (hmem e he i hi) i hi, ?_, ?_,
      hd.outs, ?_, hd.drop, fun e he i hi => hd.srcq e (hmem e he i hi) i hi, hd.src, hd.srcd⟩
    · intro i g v' hr
      obtain ⟨a1, a2, a3⟩ := hd.pend i g v' hr
      exact ⟨a1, fun e he hp => a2 e (hmem e he i hp) hp, a3⟩
    · intro hp e he i hi hle
      obtain ⟨a1, a2⟩ := hd.late hp e (hmem e he i hi) i hi hle
      exact ⟨a1, fun m hm1 hm2 => found_mono (a2 m hm1 hm2)⟩
    · show (s.q ++ _).Pairwise _
      rw [List.pairwise_append]
      refine ⟨hd.order, List.pairwise_singleton _ _, ?_⟩
      intro e _ e' he' i _ hi'
      rw [List.mem_singleton] at he'; subst he'; cases hi'
    · intro d hdm e he hp; exact hd.outq d hdm e (hmem e he _ hp) hp
    · intro i g v' hg
      rcases hd.got i g v' hg with ⟨e, he, k⟩ | k | k
      · exact Or.inl ⟨e, List.mem_append_left _ he, k⟩
      · exact Or.inr (Or.inl k)
      · exact Or.inr (Or.inr k)
  | @setStop t hc hst hle => exact hd.same rfl rfl rfl rfl hle (fun _ => Tag.le_refl _) hpend rfl rfl (fun _ _ _ h => h)
  | @clock t ht hF => exact hd.same rfl rfl rfl rfl (Tag.le_refl _) (fun _ => Tag.le_refl _) hpend rfl rfl (fun _ _ _ h => h)
  | begin hp hwt =>
    have hcs : s.lv.cur.time ≤ c.startTime := by
      rw [h.lv.curInit hp]; have := hw.lv.sta; show c.startTime - c.sta ≤ _; omega
    refine ⟨hd.time, hd.said, hd.saidOut, hd.pend, ?_, fun hx => (by cases hx), hd.known, hd.order, hd.outq, hd.outs, hd.got, ?_,
      hd.srcq, hd.src, hd.srcd⟩
    · intro e he i hi _
      exact hd.future e he i hi (Or.inl (by rw [hp]; simp))
    · intro i g v hdm
      rcases hd.drop i g v hdm with k | k
      · exact Or.inl k
      · right; show s.stop.time ≤ c.startTime; omega
  | @start l hp hop hperm =>
    have hcur : s.lv.cur = c.start := (h.after (by rw [hp]; simp)).2 hp
    refine hd.popped hperm (fun e he => (h.ev e he).1) (Nat.zero_lt_succ _) (by rw [hcur]; exact Tag.le_refl _) rfl rfl rfl rfl rfl rfl rfl
      hcur rfl (fun _ => Tag.le_refl _)
  | wait hp hnone hwt => exact hd.same rfl rfl rfl rfl (Tag.le_refl _) (fun _ => Tag.le_refl _) hpend rfl rfl (fun _ _ _ h => h)
  | @advance p l hwt hc hF hm ho hp hperm =>
    refine hd.popped hperm (fun e he => nextTag_le s he) hm (Tag.le_of_lt hc) rfl rfl rfl rfl rfl rfl rfl rfl hp ?_
    intro i
    unfold advance Level.nextTag Level.broadcast
    dsimp only
    split
    · rename_i hx
      simp only [Bool.and_eq_true, decide_eq_true_eq, gt_iff_lt, cmp_gt_zero] at hx
      exact Tag.le_of_lt hx.2
    · exact Tag.le_refl _
  | @stall level hp =>
    have : (Level.stall s.lv level).cur = s.lv.cur ∧ (Level.stall s.lv level).phase = s.lv.phase ∧
        (Level.stall s.lv level).known = s.lv.known := by
      unfold Level.stall; split <;> exact ⟨rfl, rfl, rfl⟩
    obtain ⟨h1, h2, h4⟩ := this
    exact hd.same rfl rfl rfl rfl (Tag.le_refl _) (fun _ => Tag.le_refl _) hpend h1 h2 (fun i x _ hk => by
      show x ≤ (Level.stall s.lv level).known i; rw [h4]; exact hk)
  | @arm v hp => exact hd.same rfl rfl rfl rfl (Tag.le_refl _) (fun _ => Tag.le_refl _) hpend rfl rfl (fun _ _ _ h => h)
  | @timeout i t u hi hwt ho hc hst hs =>
    obtain ⟨m, sl, hu⟩ := updatePort_lv c { s.lv with status := upd s.lv.status i .absent } i s.lv.cur
    rw [hu]
    exact hd.same rfl rfl rfl rfl (Tag.le_refl _) (fun _ => Tag.le_refl _) hpend rfl rfl
      (upd_known fun x hx hk => Level.newKnown_ge hs hx hk)

/-- All of it holds in every reachable state. -/
theorem reach_late {c : Config} (hw : WF c) {a : Assume} (ha1 : a.ordered = true) (ha2 : a.spaced = true) {s : State}
    (h : Reach c a s) : Gen c s ∧ Late c s := by
  induction h with
  | init now stop h1 h2 h3 => exact ⟨Gen.init hw now stop h1 h2 h3, Late.init c now stop⟩
  | step _ st ih => exact ⟨ih.1.step hw st, ih.2.step hw ha1 ha2 ih.1 st⟩

end ReactorC.Decentral
