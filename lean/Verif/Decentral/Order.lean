import Verif.Decentral.Tardy

/-! # The tags at which the messages of a port are processed increase -/

namespace ReactorC.Decentral

open ReactorC.Level (Config Port Phase MIN_SLEEP_DURATION Small bump upd exempt waitOver newKnown actualTag)

structure Sorted (s : State) : Prop where
  outt : s.out.Pairwise fun d d' => d.port = d'.port → d.at_ < d'.at_
  outk : ∀ d ∈ s.out, d.at_.time < FOREVER ∧ d.at_ ≤ s.lv.known d.port

theorem Sorted.same {s s' : State} (h : Sorted s) (h1 : s'.out = s.out)
    (h2 : ∀ i, ∀ x : Tag, x.time < FOREVER → x ≤ s.lv.known i → x ≤ s'.lv.known i) : Sorted s' := by
  refine ⟨by rw [h1]; exact h.outt, ?_⟩
  rw [h1]
  intro d hd
  obtain ⟨a, b⟩ := h.outk d hd
  exact ⟨a, h2 _ _ a b⟩

theorem Sorted.popped {c : Config} {s s' : State} (h : Sorted s) (hd : Late c s) {t : Tag} {l : List Ev}
    (hl : l.Perm (due s.q t)) (ht : t.time < FOREVER) (ho : ∀ d ∈ s.out, d.at_ < t)
    (h1 : s'.out = s.out ++ pops t l) (h2 : ∀ i, s.lv.known i ≤ s'.lv.known i) : Sorted s' := by
  obtain ⟨p1, _⟩ := hd.pops hl
  refine ⟨?_, ?_⟩
  · rw [h1, List.pairwise_append]
    refine ⟨h.outt, ?_, ?_⟩
    · have := pops_ports t l
      rw [List.Nodup, List.pairwise_map] at this
      exact this.imp fun hne heq => absurd heq hne
    · intro d hd d' hd' _
      obtain ⟨_, _, _, _, _, _, a⟩ := p1 d' hd'
      rw [a]; exact ho d hd
  · rw [h1]
    intro d hd'
    rcases List.mem_append.1 hd' with hd' | hd'
    · obtain ⟨a, b⟩ := h.outk d hd'
      exact ⟨a, Tag.le_trans b (h2 _)⟩
    · obtain ⟨e, he, a1, a2, _, _, a⟩ := p1 d hd'
      rw [a]
      have := hd.known e he _ a2
      rw [a1] at this
      exact ⟨ht, Tag.le_trans this (h2 _)⟩

theorem Sorted.complete {c : Config} {s : State} (h : Gen c s) (ho : Sorted s) (i : Nat) (g : Tag) (v : Nat)
    (hs : Small (s.lv.known i)) :
    Sorted (release { handle c s i g v with reading := s.reading.erase (i, g, v) }) := by
  obtain ⟨x, y, he, _⟩ := release_cases { handle c s i g v with reading := s.reading.erase (i, g, v) }
  obtain ⟨l, o, dr, la, hh, hcase⟩ := handle_cases c s i g v
  obtain ⟨m, sl, st', hl'⟩ := handleMessage_lv c s.lv i g (decide (s.last i < g))
  have hrec : decide (lf_tag_compare g (s.last i) > 0) = decide (s.last i < g) := by
    rw [decide_eq_decide, gt_iff_lt, cmp_gt_zero]
  have hnow : now_ c s i g = Level.handleMessageNow c s.lv i g (decide (s.last i < g)) := by unfold now_; rw [hrec]
  rw [he, hh]
  dsimp only
  rw [hl', ← hnow]
  have hgrow : ∀ k, ∀ j, ∀ x : Tag, x.time < FOREVER → x ≤ s.lv.known j →
      x ≤ upd s.lv.known i (newKnown s.lv.cur (s.lv.known i) k) j :=
    fun k => upd_known fun x hx hk => Level.newKnown_ge hs hx hk
  have hself : ∀ k : Tag, upd s.lv.known i k i = k := fun k => by unfold upd; rw [if_pos rfl]
  rcases hcase with ⟨hn, rfl, rfl, rfl, rfl⟩ | ⟨hn, rfl, _⟩
  · have hn' := hn
    rw [hnow] at hn'
    unfold Level.handleMessageNow at hn'
    simp only [Bool.and_eq_true, decide_eq_true_eq, cmp_eq_zero, gt_iff_lt, cmp_gt_zero] at hn'
    have hcg : g = s.lv.cur := hn'.1.1.1.1.2
    have hkg : s.lv.known i < g := hn'.1.1.2
    refine ⟨?_, ?_⟩
    · show (s.out ++ _).Pairwise _
      rw [List.pairwise_append]
      refine ⟨ho.outt, List.pairwise_singleton _ _, ?_⟩
      intro d hd d' hd' hp
      rw [List.mem_singleton] at hd'
      subst hd'
      replace hp : d.port = i := hp
      have := (ho.outk d hd).2
      rw [hp] at this
      show d.at_ < s.lv.cur
      rw [← hcg]
      exact Tag.lt_of_le_of_lt this hkg
    · intro d hd
      rcases List.mem_append.1 hd with hd | hd
      · obtain ⟨a, b⟩ := ho.outk d hd
        exact ⟨a, hgrow _ _ _ a b⟩
      · rw [List.mem_singleton] at hd
        subst hd
        refine ⟨h.lv.curTime, ?_⟩
        show s.lv.cur ≤ upd _ _ _ i
        rw [hself, if_pos hn]
        refine newKnown_above hs h.lv.curTime ?_
        rw [hcg]; exact Tag.le_refl _
  · exact ho.same (List.append_nil _) (hgrow _)

theorem Sorted.step {c : Config} {a : Assume} {s s' : State} (h : Gen c s) (hd : Late c s) (ho : Sorted s)
    (st : Step c a s s') : Sorted s' := by
  cases st with
  | @header i g v hi hp hg hF hm hx hr ho' ht =>
    obtain ⟨y, he, _⟩ := raise_cases s g h.lv.curMicro
    rw [he]
    exact ho.same rfl (fun _ _ _ h => h)
  | @complete i g v hr hs ht hc hsp => exact ho.complete h i g v hs
  | @abort r hr =>
    obtain ⟨x, y, he, _⟩ := release_cases { s with reading := s.reading.erase r }
    rw [he]
    exact ho.same rfl (fun _ _ _ h => h)
  | @absent i g hi hg hm hr hs ho' ht =>
    obtain ⟨m, sl, hu⟩ := updatePort_lv c s.lv i g
    rw [hu]
    exact ho.same rfl (upd_known fun x hx hk => Level.newKnown_ge hs hx hk)
  | @gone i hi hr hs =>
    obtain ⟨m, sl, hu⟩ := updatePort_lv c s.lv i FOREVER_TAG
    rw [hu]
    exact ho.same rfl (upd_known fun x hx hk => Level.newKnown_ge hs hx hk)
  | @local_ t v hc hst => exact ho.same rfl (fun _ _ _ h => h)
  | @setStop t hc hst hle => exact ho.same rfl (fun _ _ _ h => h)
  | @clock t ht hF => exact ho.same rfl (fun _ _ _ h => h)
  | begin hp hwt => exact ho.same rfl (fun _ _ _ h => h)
  | @start l hp hop hperm =>
    have hcur : s.lv.cur = c.start := (h.after (by rw [hp]; simp)).2 hp
    refine ho.popped hd hperm ?_ ?_ rfl (fun _ => Tag.le_refl _)
    · rw [← hcur]; exact h.lv.curTime
    · rw [h.early (by rw [hp]; simp)]; intro d hd'; cases hd'
  | wait hp hnone hwt => exact ho.same rfl (fun _ _ _ h => h)
  | @advance p l hwt hc hF hm hop hp hperm =>
    refine ho.popped hd hperm hF (fun d hd' => Tag.lt_of_le_of_lt (h.out d hd').2.2 hc) rfl ?_
    intro i
    unfold advance Level.nextTag Level.broadcast
    dsimp only
    split
    · rename_i hx
      simp only [Bool.and_eq_true, decide_eq_true_eq, gt_iff_lt, cmp_gt_zero] at hx
      exact Tag.le_of_lt hx.2
    · exact Tag.le_refl _
  | @stall level hp =>
    have : (Level.stall s.lv level).known = s.lv.known := by unfold Level.stall; split <;> rfl
    exact ho.same rfl (fun i x _ hk => by show x ≤ (Level.stall s.lv level).known i; rw [this]; exact hk)
  | @arm v hp => exact ho.same rfl (fun _ _ _ h => h)
  | @timeout i t u hi hwt hov hc hst hs =>
    obtain ⟨m, sl, hu⟩ := updatePort_lv c { s.lv with status := upd s.lv.status i .absent } i s.lv.cur
    rw [hu]
    exact ho.same rfl (upd_known fun x hx hk => Level.newKnown_ge hs hx hk)

theorem reach_sorted {c : Config} (hw : WF c) {a : Assume} (ha1 : a.ordered = true) (ha2 : a.spaced = true) {s : State}
    (h : Reach c a s) : Sorted s := by
  induction h with
  | init now stop h1 h2 h3 => exact ⟨List.Pairwise.nil, fun _ h => (by cases h)⟩
  | step hr st ih =>
    obtain ⟨h1, h2⟩ := reach_late hw ha1 ha2 hr
    exact ih.step h1 h2 st

end ReactorC.Decentral
