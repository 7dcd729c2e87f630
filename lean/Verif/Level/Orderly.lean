import Verif.Level.Inv

/-!
# Invariants of orderly runs
-/

namespace ReactorC.Level
open ReactorC

structure Ord (c : Config) (s : State) : Prop where
  evidence : ∀ i < c.n, ∀ t, NEVER_TAG < t → t.time < FOREVER → t ≤ s.known i → Evidence s.hist i t
  grants : s.lastTAG = NEVER_TAG ∨ (s.prov = false ∧ .grant s.lastTAG ∈ s.hist) ∨
    (s.prov = true ∧ .provisional s.lastTAG ∈ s.hist)
  reason : s.mlaa = INT_MAX ∨ (granted c (ref c s) s.lastTAG s.prov = false ∧ ∃ i < c.n, inTable c i = true ∧
    (c.port i).physical = false ∧ s.known i < ref c s ∧ s.mlaa = (c.port i).level)

theorem Evidence.cons {hist : List Heard} {i : Nat} {t : Tag} (h : Evidence hist i t) (x : Heard) : Evidence (x :: hist) i t := by
  obtain ⟨y, hy, h⟩ := h
  exact ⟨y, List.mem_cons_of_mem _ hy, h⟩

theorem known_lt {c : Config} {s : State} (h : Ord c s) {i : Nat} (hi : i < c.n) {g : Tag} (h0 : NEVER_TAG < g)
    (hF : g.time < FOREVER) (he : ¬ Evidence s.hist i g) : s.known i < g := by
  rw [← Tag.not_le]
  exact fun hx => he (h.evidence i hi g h0 hF hx)

theorem newKnown_in_time {cur known g : Tag} (hc : cur ≤ g) (hk : known < g) : newKnown cur known g = g := by
  rcases newKnown_cases cur known g with ⟨_, h, _⟩ | ⟨_, h, _⟩ | ⟨_, _, _, h | h⟩
  · exact absurd (Tag.lt_trans h hk) (Tag.lt_irrefl _)
  · exact absurd (Tag.lt_of_le_of_lt h hk) (Tag.lt_irrefl _)
  · exact h
  · exact absurd (Tag.lt_of_lt_of_le h.2 hc) (Tag.lt_irrefl _)

/-- Evidence for what is known after `updatePort` in an orderly run. -/
theorem evidence_updatePort {c : Config} {s : State} (h : Ord c s) {i : Nat} (hi : i < c.n) {g : Tag} (x : Heard)
    (hx : ∀ t, t ≤ g → t.time < FOREVER → Evidence (x :: s.hist) i t) (h0 : NEVER_TAG < g) (hc : s.cur ≤ g)
    (he : g.time < FOREVER → ¬ Evidence s.hist i g) :
    ∀ j < c.n, ∀ t, NEVER_TAG < t → t.time < FOREVER → t ≤ (updatePort c s i g).known j → Evidence (x :: s.hist) j t := by
  intro j hj t ht0 htF htk
  have old : t ≤ s.known j → Evidence (x :: s.hist) j t := fun h1 => (h.evidence j hj t ht0 htF h1).cons x
  rcases updatePort_cases c s i g with ⟨h1, _⟩ | h1
  · rw [h1] at htk; exact old htk
  · rw [h1] at htk
    replace htk : t ≤ upd s.known i (newKnown s.cur (s.known i) g) j := htk
    unfold upd at htk
    split at htk
    · rename_i hji
      subst hji
      by_cases hF : g.time < FOREVER
      · rw [newKnown_in_time hc (known_lt h hj h0 hF (he hF))] at htk
        exact hx t htk htF
      · exact hx t (by rw [Tag.le_def]; omega) htF
    · exact old htk

theorem reason_updatePort {c : Config} (hw : WF c) {s : State} (h : Inv c s) (h' : Ord c s) {i : Nat} {g : Tag}
    (hg : s.phase = .waiting → c.start ≤ g) (hs : Small (s.known i)) :
    let s' := updatePort c s i g
    s'.mlaa = INT_MAX ∨ (granted c (ref c s') s'.lastTAG s'.prov = false ∧ ∃ j < c.n, inTable c j = true ∧
      (c.port j).physical = false ∧ s'.known j < ref c s' ∧ s'.mlaa = (c.port j).level) := by
  intro s'
  have hi := h.updatePort hw hg hs
  rcases updatePort_cases c s i g with ⟨h1, _⟩ | h1
  · show _ ∨ _
    rw [show s' = s from h1]; exact h'.reason
  · refine (fresh hw hi.curInit hi.gap ?_).2
    rw [h1]

theorem cur_gt_never {c : Config} {s : State} (h : Inv c s) : NEVER_TAG < s.cur := by
  rw [Tag.lt_def]; left; exact h.curLow

theorem start_gt_never {c : Config} (hw : WF c) : NEVER_TAG < c.start := by
  rw [Tag.lt_def]; left; have := hw.low; have := hw.sta; show NEVER < c.startTime; omega

/-- In an orderly run, the tag a message is accounted for with is its own. -/
theorem orderly_message {c : Config} {s : State} (h : Inv c s) (h' : Ord c s) {i : Nat} (hi : i < c.n) {g : Tag}
    {recent : Bool} (hph : (c.port i).physical = false) (h0 : NEVER_TAG < g) (hc : s.cur ≤ g)
    (he : ¬ Evidence s.hist i g) (ht : InTime c s i g recent) :
    ∃ f, handleMessage c s i g recent = { updatePort c s i g with status := f } := by
  unfold handleMessage
  by_cases hn : handleMessageNow c s i g recent = true
  · rw [if_pos hn]; exact ⟨_, rfl⟩
  · rw [if_neg hn]
    refine ⟨_, (?_ : _ = updatePort c s i g)⟩
    congr 1
    unfold actualTag
    rw [if_neg]
    intro hx
    simp only [Bool.and_eq_true, decide_eq_true_eq, cmp_le_zero] at hx
    have hgc : g = s.cur := Tag.le_antisymm hx.2 hc
    rcases ht hx.1 with h1 | ⟨h1, h2, h3⟩
    · rw [hgc] at h1; exact Tag.lt_irrefl _ h1
    · apply hn
      have hk : s.known i < s.cur := by rw [← hgc]; exact known_lt h' hi h0 (by rw [hgc]; exact h.curTime) he
      have hr : ref c s = s.cur := by unfold ref; rw [if_neg (by rw [h1]; simp)]
      have hb : blocks c s.cur s.known i = true :=
        (blocks_iff _ _ _ _).2 ⟨by unfold inTable; rw [hx.1]; rfl, h3, hk, hph⟩
      have hm := h.safe (by rw [hr]; unfold granted; rw [hx.1]; rfl) i hi (by rw [hr]; exact hb)
      unfold handleMessageNow
      have hidx : s.mlaa ≤ (c.port i).index := Nat.le_trans hm (Nat.mod_le _ _)
      simp only [Bool.and_eq_true, decide_eq_true_eq, Bool.not_eq_true', cmp_eq_zero, gt_iff_lt, cmp_gt_zero]
      exact ⟨⟨⟨⟨⟨hidx, hgc⟩, h2⟩, by rw [hgc]; exact hk⟩, h1⟩, hph⟩

theorem updatePort_grants (c : Config) (s : State) (i : Nat) (g : Tag) :
    (updatePort c s i g).lastTAG = s.lastTAG ∧ (updatePort c s i g).prov = s.prov := by
  rcases updatePort_cases c s i g with ⟨h1, _⟩ | h1 <;> rw [h1] <;> exact ⟨rfl, rfl⟩

theorem grants_cons {s : State} (h : s.lastTAG = NEVER_TAG ∨ (s.prov = false ∧ .grant s.lastTAG ∈ s.hist) ∨
    (s.prov = true ∧ .provisional s.lastTAG ∈ s.hist)) (x : Heard) :
    s.lastTAG = NEVER_TAG ∨ (s.prov = false ∧ .grant s.lastTAG ∈ x :: s.hist) ∨
    (s.prov = true ∧ .provisional s.lastTAG ∈ x :: s.hist) :=
  h.imp id (Or.imp (fun h => ⟨h.1, List.mem_cons_of_mem _ h.2⟩) (fun h => ⟨h.1, List.mem_cons_of_mem _ h.2⟩))

theorem Ord.init {c : Config} (hw : WF c) (now : Int) : Ord c (Level.init c now) := by
  refine ⟨?_, Or.inl rfl, ?_⟩
  · intro i _ t h0 _ h1
    exact absurd (Tag.lt_of_lt_of_le h0 h1) (Tag.lt_irrefl _)
  · rcases maxLevel_cases c c.start (fun _ => NEVER_TAG) NEVER_TAG false with h | ⟨hg, i, hi, hb, h⟩
    · exact Or.inl h
    · rw [blocks_iff] at hb
      exact Or.inr ⟨hg, i, hi, hb.1, hb.2.2.2, start_gt_never hw, h⟩

theorem Ord.step {c : Config} (hw : WF c) {s s' : State} (h : Inv c s) (h' : Ord c s) (st : Step c true s s') : Ord c s' := by
  cases st with
  | @message i g recent hi hph hg hs ho =>
    obtain ⟨hc, he, ht⟩ := ho rfl
    have h0 : NEVER_TAG < g := Tag.lt_of_lt_of_le (start_gt_never hw) hg
    obtain ⟨f, hf⟩ := orderly_message h h' hi hph h0 hc he ht
    rw [hf]
    have hgr := updatePort_grants c s i g
    refine ⟨?_, ?_, reason_updatePort hw h h' (fun _ => hg) hs⟩
    · exact evidence_updatePort h' hi _ (fun t ht _ => ⟨_, List.mem_cons_self, rfl, ht⟩) h0 hc (fun _ => he)
    · show (updatePort c s i g).lastTAG = _ ∨ ((updatePort c s i g).prov = _ ∧ _) ∨ ((updatePort c s i g).prov = _ ∧ _)
      have := grants_cons h'.grants (.message i g)
      rw [← hgr.1, ← hgr.2] at this; exact this
  | @absent i g hi hg hs ho =>
    obtain ⟨hc, he⟩ := ho rfl
    have h0 : NEVER_TAG < g := Tag.lt_of_lt_of_le (start_gt_never hw) hg
    have hgr := updatePort_grants c s i g
    refine ⟨?_, ?_, reason_updatePort hw h h' (fun _ => hg) hs⟩
    · exact evidence_updatePort h' hi _ (fun t ht _ => ⟨_, List.mem_cons_self, rfl, ht⟩) h0 hc (fun _ => he)
    · have := grants_cons h'.grants (.absent i g)
      rw [← hgr.1, ← hgr.2] at this; exact this
  | @gone i hd hi hs =>
    have hgr := updatePort_grants c s i FOREVER_TAG
    have hhigh : c.start ≤ FOREVER_TAG := by rw [Tag.le_def]; left; exact hw.high
    refine ⟨?_, ?_, reason_updatePort hw h h' (fun _ => hhigh) hs⟩
    · refine evidence_updatePort h' hi _ (fun t ht _ => ⟨_, List.mem_cons_self, rfl⟩) ?_ ?_ ?_
      · exact Tag.lt_of_lt_of_le (start_gt_never hw) hhigh
      · rw [Tag.le_def]; left; exact h.curTime
      · intro hx; exact absurd hx (by decide)
    · have := grants_cons h'.grants (.gone i)
      rw [← hgr.1, ← hgr.2] at this; exact this
  | @timeout i t u hi hwt ho hc hst hs hor =>
    have he := hor rfl
    have hin : Inv c { s with status := upd s.status i .absent } := h.status _
    have hor' : Ord c { s with status := upd s.status i .absent } := ⟨h'.evidence, h'.grants, h'.reason⟩
    have hgr := updatePort_grants c { s with status := upd s.status i .absent } i s.cur
    refine ⟨?_, ?_, reason_updatePort hw hin hor' (fun hp => ?_) hs⟩
    · exact evidence_updatePort hor' hi (.timeout i s.cur s.now) (fun t ht _ => ⟨_, List.mem_cons_self, rfl, ht⟩)
        (cur_gt_never h) (Tag.le_refl _) (fun _ => he)
    · have := grants_cons h'.grants (.timeout i s.cur s.now)
      generalize updatePort c { s with status := upd s.status i .absent } i s.cur = x at hgr
      obtain ⟨h1, h2⟩ := hgr
      show x.lastTAG = _ ∨ (x.prov = _ ∧ Heard.grant x.lastTAG ∈ _) ∨ (x.prov = _ ∧ Heard.provisional x.lastTAG ∈ _)
      rw [h1, h2]; exact this
    · have h1 := (h.staa _ _ _ hwt).2
      rw [show s.phase = .waiting from hp] at h1; cases h1
  | @grant g hd ho =>
    have hl := ho rfl
    obtain ⟨m, sl, p, he, hp, hm, hsl⟩ := handleTag_cases c s g
    rw [if_pos hl] at hp
    subst hp
    rw [he]
    have hlast : (afterTag s g m sl false).lastTAG = g := if_pos hl
    have hr : ref c s = s.cur := ref_cent hw h hd
    refine ⟨?_, ?_, ?_⟩
    · intro i hi t h0 hF hk
      replace hk : t ≤ knownAfterGrant s g i := hk
      unfold knownAfterGrant at hk
      split at hk
      · exact ⟨_, List.mem_cons_self, hk⟩
      · exact (h'.evidence i hi t h0 hF hk).cons _
    · refine Or.inr (Or.inl ⟨rfl, ?_⟩)
      show Heard.grant (afterTag s g m sl false).lastTAG ∈ _
      rw [hlast]; exact List.mem_cons_self
    · show m = INT_MAX ∨ (granted c (ref c s) (afterTag s g m sl false).lastTAG false = false ∧
        ∃ i < c.n, inTable c i = true ∧ (c.port i).physical = false ∧ knownAfterGrant s g i < ref c s ∧ m = _)
      rw [hlast, hr]
      rcases hm with ⟨_, hm⟩ | ⟨hn, hm⟩
      · rcases maxLevel_cases c s.cur (knownAfterGrant s g) g false with h1 | ⟨hg, i, hi, hb, h1⟩
        · exact Or.inl (hm.trans h1)
        · rw [blocks_iff] at hb
          exact Or.inr ⟨hg, i, hi, hb.1, hb.2.2.2, hb.2.2.1, hm.trans h1⟩
      · rcases h'.reason with h1 | ⟨_, i, hi, h1, h2, h3, h4⟩
        · exact Or.inl (hm.trans h1)
        · rw [hr] at h3
          refine Or.inr ⟨?_, i, hi, h1, h2, by rw [(notify_false hn hi).2]; exact h3, hm.trans h4⟩
          cases hx : granted c s.cur g false with
          | false => rfl
          | true =>
            rw [granted_iff] at hx
            have := Tag.lt_trans (notify_false hn hi).1 h3
            rcases hx.2 with h5 | ⟨h5, _⟩
            · exact absurd (Tag.lt_trans h5 this) (Tag.lt_irrefl _)
            · rw [h5] at this; exact absurd this (Tag.lt_irrefl _)
  | @provisional g hd h1 h2 =>
    refine ⟨fun i hi t h0 hF hk => (h'.evidence i hi t h0 hF hk).cons _, Or.inr (Or.inr ⟨rfl, List.mem_cons_self⟩), ?_⟩
    exact (fresh hw (s := { s with lastTAG := g, prov := true, mlaa := maxLevel c s.cur s.known g true }) h.curInit h.gap rfl).2
  | begin hp =>
    have hr : ref c s = c.start := by unfold ref; rw [if_pos hp]
    have h2 := h'.reason
    rw [hr] at h2
    exact ⟨h'.evidence, h'.grants, h2⟩
  | run hp =>
    have hr : ref c s = s.cur := by unfold ref; rw [if_neg (by rw [hp]; simp)]
    have h2 := h'.reason
    rw [hr] at h2
    exact ⟨h'.evidence, h'.grants, h2⟩
  | @next g tardy present hp hlt hF hU ho =>
    have hno := ho (Or.inr rfl)
    have hk : (nextTag c s g tardy present).known = s.known := by
      funext i
      show (if tardy i && decide (lf_tag_compare g (s.known i) > 0) then g else s.known i) = _
      rw [hno i]; rfl
    refine ⟨?_, h'.grants, ?_⟩
    · rw [hk]; exact h'.evidence
    · exact (fresh hw (s := nextTag c s g tardy present)
        (fun h => (by rw [show (nextTag c s g tardy present).phase = s.phase from rfl, hp] at h; cases h))
        (fun h => (by rw [show (nextTag c s g tardy present).phase = s.phase from rfl, hp] at h; cases h)) rfl).2
  | stall hp =>
    unfold Level.stall
    split
    · exact ⟨h'.evidence, h'.grants, h'.reason⟩
    · exact ⟨h'.evidence, h'.grants, h'.reason⟩
  | clock _ => exact ⟨h'.evidence, h'.grants, h'.reason⟩
  | arm _ _ => exact ⟨h'.evidence, h'.grants, h'.reason⟩

end ReactorC.Level
