import Verif.Stop.Inv

/-! # Every step keeps the invariant of the federation -/

namespace ReactorC.Stop
open ReactorC

theorem not_calm_checked {t : Tag} {a : Bool} (h : Calm (.checked t a)) : a = true := by
  rcases h with h | ⟨_, h⟩ | ⟨_, h⟩
  · cases h
  · cases h
  · cases h; rfl

theorem not_calm_counted {t : Tag} : ¬ Calm (.counted t) := by
  rintro (h | ⟨_, h⟩ | ⟨_, h⟩) <;> cases h

theorem not_calm_blocked {t : Tag} : ¬ Calm (.blocked t) := by
  rintro (h | ⟨_, h⟩ | ⟨_, h⟩) <;> cases h

theorem SInv.hear {n : Nat} {stop : Nat → Tag} {y : Sys} (s : SInv n stop y) {i : Nat} {m : Msg} (hi : i < n)
    (hc : y.rti.connected i = true) (hm : (y.sent i)[y.heard i]? = some m) :
    SInv n stop { y with rti := handle n y.rti i m, heard := upd y.heard i (y.heard i + 1) } := by
  have hf := s.feds i hi
  have hmem : m ∈ y.sent i := List.mem_of_getElem? hm
  have hcnt : ∀ t, propTag m = some t → y.counted i = [] := by
    intro t ht
    have h1 : y.props i = y.counted i ++ [t] ++ ((y.sent i).drop (y.heard i + 1)).filterMap propTag := by
      unfold Sys.props Sys.counted
      conv_lhs => rw [← List.take_append_drop (y.heard i + 1) (y.sent i), take_succ hm]
      simp [List.filterMap_append, ht]
    have h2 : (y.props i).length ≤ 1 := by
      cases hf.phase with
      | sent t1 p1 p2 p3 p4 p5 p6 p7 => rw [p5]; simp
      | fresh p1 p2 p3 p4 p5 => rw [p5]; simp
      | flagged p1 p2 p3 p4 p5 => rw [p5]; simp
      | raised c p1 p2 p3 p4 p5 => rw [p5]; simp
      | checked c p1 p2 p3 p4 p5 => rw [p5]; simp
      | counted c p1 p2 p3 p4 p5 => rw [p5]; simp
      | blocked c p1 p2 p3 p4 p5 => rw [p5]; simp
    rw [h1] at h2
    rw [← List.length_eq_zero_iff]
    simp at h2
    omega
  generalize hz : ({ y with rti := handle n y.rti i m, heard := upd y.heard i (y.heard i + 1) } : Sys) = z
  have z1 : z.rti = handle n y.rti i m := by rw [← hz]
  have z2 : z.heard = upd y.heard i (y.heard i + 1) := by rw [← hz]
  have z3 : z.fed = y.fed := by rw [← hz]
  have z4 : z.sent = y.sent := by rw [← hz]
  have z5 : z.taken = y.taken := by rw [← hz]
  have hcount : z.counted = match propTag m with
      | some t => upd y.counted i [t]
      | none => y.counted := by
    funext j
    have hj' : j ≠ i → z.counted j = y.counted j := by
      intro hj
      unfold Sys.counted
      rw [z2, z4, upd_ne _ _ hj]
    have hii : z.counted i = y.counted i ++ [m].filterMap propTag := by
      unfold Sys.counted
      rw [z2, z4, upd_same, take_succ hm, List.filterMap_append]
    cases hp : propTag m with
    | none =>
      simp only []
      by_cases hj : j = i
      · subst hj; rw [hii]; simp [hp]
      · exact hj' hj
    | some t =>
      simp only []
      by_cases hj : j = i
      · subst hj; rw [hii, hcnt t hp]; simp [hp]
      · rw [upd_ne _ _ hj]; exact hj' hj
  refine ⟨?_, ?_⟩
  · rw [hcount, z1]
    cases m with
    | request t => exact s.rti.request hi hc (hcnt t rfl) t
    | reply t =>
      refine s.rti.reply hi hc (hcnt t rfl) t ?_
      obtain ⟨t', h'⟩ := hf.replied t hmem
      by_contra hp
      have h0 := s.rti.core.asks i (by simpa using hp)
      rw [List.countP_eq_zero] at h0
      exact h0 _ (got_sub y i h') rfl
    | granted t => exact s.rti
    | resign => exact s.rti.leave i
  · intro j hj
    have fj := s.feds j hj
    obtain ⟨l, hl⟩ := handle_ext n y.rti i m j
    have hconn : z.rti.connected j = y.rti.connected j ∨ (m = .resign ∧ j = i) := by
      rw [z1]
      by_cases hmr : m = .resign
      · subst hmr
        by_cases hji : j = i
        · exact Or.inr ⟨rfl, hji⟩
        · left; simp [handle, hji]
      · left; rw [handle_connected n y.rti i m hmr]
    have hgot : z.got j = y.got j := by
      unfold Sys.got
      rw [z1, z5, hl, List.take_append_of_le_length fj.taken]
    have hlen : z.heard j ≤ (z.sent j).length := by
      rw [z2, z4]
      by_cases hji : j = i
      · subst hji; rw [upd_same]; exact lt_of_get hm
      · rw [upd_ne _ _ hji]; exact fj.heard
    have htk : z.taken j ≤ (z.rti.out j).length := by
      rw [z1, z5, hl, List.length_append]
      exact Nat.le_trans fj.taken (Nat.le_add_right _ _)
    rcases hconn with hconn | ⟨hmr, hji⟩
    · exact fj.congr (by rw [z3]) (by rw [z4]) hconn hgot hlen htk
    · subst hmr; subst hji
      have hdead : (y.fed j).alive = false := by
        rw [Bool.eq_false_iff]; intro h
        exact fj.notGone h hmem
      refine ⟨?_, ?_, ?_, hlen, htk, ?_, ?_, ?_, ?_, ?_⟩
      · unfold Sys.props; rw [z3, z4, hgot]; exact fj.phase
      · rw [z3, hgot]; exact fj.env
      · rw [z3]; exact Or.inr hdead
      · rw [z3, hgot]; exact fj.wasAsked
      · rw [z4, hgot]; exact fj.replied
      · rw [z3, hgot]; exact fj.tookRequest
      · rw [z3, z4]; exact fj.notGone
      · rw [z3, hgot]; exact fj.owner

theorem SInv.step {n : Nat} {stop : Nat → Tag} {y z : Sys} (s : SInv n stop y) (h : Step n y z) : SInv n stop z := by
  cases h with
  | act i b hi hup hl hm =>
    have hf := s.feds i hi
    obtain ⟨h1, h2⟩ := local_ok hl hup.2 hf.env hm
    refine s.set hi _ [] ?_ h1 (Or.inl rfl) id (fun _ h => (by cases h)) (Or.inr ⟨rfl, rfl⟩) (fun h => (by cases h)) hf.owner
    rw [List.filterMap_nil, List.append_nil]
    exact hf.phase.env rfl rfl rfl rfl h2
  | callStop i hi hup =>
    have hf := s.feds i hi
    unfold callStop
    split
    · refine s.set hi _ [] ?_ hf.env (Or.inl rfl) id (fun _ h => (by cases h)) (Or.inr ⟨rfl, rfl⟩) (fun h => (by cases h))
        hf.owner
      rw [List.filterMap_nil, List.append_nil]
      exact hf.phase
    · rename_i hsr
      refine s.set hi _ [] ?_ hf.env (Or.inl rfl) id (fun _ h => (by cases h)) (Or.inl rfl) (fun h => (by cases h)) ?_
      · rw [List.filterMap_nil, List.append_nil]
        cases hf.phase with
        | fresh p1 p2 p3 p4 p5 =>
          refine .flagged rfl p2 rfl ?_ p5
          rcases p4 with p4 | p4
          · exact Or.inl p4
          · exact Or.inr (Or.inl p4)
        | flagged p1 => exact absurd p1 hsr
        | raised c p1 => exact absurd p1 hsr
        | sent c p1 => exact absurd p1 hsr
        | checked c p1 => exact absurd p1 hsr
        | counted c p1 => exact absurd p1 hsr
        | blocked c p1 => exact absurd p1 hsr
      · intro t ht
        -- a federate that has taken a grant has requested to stop
        exfalso
        obtain ⟨hg, rfl⟩ := s.rti.core.grant i t (got_sub y i ht)
        rcases s.rti.core.why i hi (s.rti.core.grants.1 hg i hi) with h | h
        · rcases hf.here with h' | h'
          · rw [h] at h'; cases h'
          · rw [hup.1] at h'; cases h'
        · obtain ⟨t0, ht0⟩ := List.exists_mem_of_ne_nil _ h
          have hpr := counted_sub y i ht0
          cases hf.phase with
          | fresh p1 p2 p3 p4 p5 => rw [p5] at hpr; cases hpr
          | flagged p1 => exact hsr p1
          | raised c p1 => exact hsr p1
          | sent c p1 => exact hsr p1
          | checked c p1 => exact hsr p1
          | counted c p1 => exact hsr p1
          | blocked c p1 => exact hsr p1
  | raiseOwn i hi hup hq =>
    have hf := s.feds i hi
    have hlt := lt_nextStep hf.env.micro
    obtain ⟨h1, h2⟩ := raise_ok hup.2 hf.env hlt (Or.inr (Tag.le_refl _))
    refine s.set hi _ [] ?_ h1 (Or.inl rfl) id (fun _ h => (by cases h)) (Or.inr ⟨rfl, rfl⟩) (fun h => (by cases h)) ?_
    · rw [List.filterMap_nil, List.append_nil]
      cases hf.phase with
      | flagged p1 p2 p3 p4 p5 => exact .raised _ p1 p2 rfl p4 p5 h2 (Tag.lt_of_le_of_lt hf.env.low hlt)
      | fresh p1 p2 p3 => rw [hq] at p3; cases p3
      | raised c p1 p2 p3 => rw [hq] at p3; cases p3
      | sent c p1 p2 p3 => rw [hq] at p3; rcases p3 with p3 | p3 <;> cases p3
      | checked c p1 p2 p3 => rw [hq] at p3; cases p3
      | counted c p1 p2 p3 => rw [hq] at p3; cases p3
      | blocked c p1 p2 p3 => rw [hq] at p3; cases p3
    · intro t ht
      rcases hf.owner t ht with h | h <;> · rw [hq] at h; cases h
  | sendOwn i c hi hup hq =>
    have hf := s.feds i hi
    cases hf.phase with
    | raised c' p1 p2 p3 p4 p5 p6 p7 =>
      rw [hq] at p3
      cases p3
      unfold sendOwn
      rw [if_pos p2]
      refine s.set hi _ _ ?_ hf.env (Or.inl rfl) id ?_ (Or.inr ⟨rfl, rfl⟩) (fun h => (by simp at h))
        (fun _ _ => Or.inr rfl)
      · rw [p5]
        exact .sent (nextStep c) p1 rfl (Or.inl rfl) p4 rfl p7 (Or.inl p6)
      · intro t h; simp at h
    | fresh p1 p2 p3 => rw [hq] at p3; cases p3
    | flagged p1 p2 p3 => rw [hq] at p3; cases p3
    | sent c p1 p2 p3 => rw [hq] at p3; rcases p3 with p3 | p3 <;> cases p3
    | checked c p1 p2 p3 => rw [hq] at p3; cases p3
    | counted c p1 p2 p3 => rw [hq] at p3; cases p3
    | blocked c p1 p2 p3 => rw [hq] at p3; cases p3
  | takeRequest i t hi hup hx hm =>
    have hf := s.feds i hi
    refine s.take hi _ hm ?_ ?_ rfl (Or.inr ⟨t, rfl⟩) (fun _ _ => Or.inr ⟨t, rfl⟩) ?_
    · refine (hf.phase.calm (f' := { y.fed i with rx := .got t }) rfl rfl rfl (Or.inl hx) (Or.inr (Or.inl ⟨t, rfl⟩))
        (fun _ => Or.inr ⟨t, rfl⟩) rfl).gr ?_
      rintro ⟨g, h⟩
      exact ⟨g, List.mem_append_left _ h⟩
    · rw [stopOf_append]; exact hf.env
    · intro g h
      rw [List.mem_append, List.mem_singleton] at h
      rcases h with h | h
      · exact hf.owner g h
      · cases h
  | takeGrant i t hi hup hx hm =>
    have hf := s.feds i hi
    obtain ⟨t0, g1, g2, g3, g4, g5, g6, g7, g8, g9⟩ := s.grantAhead hi hup.1 hm
    refine s.take hi _ hm ?_ ?_ rfl (Or.inl hx) (fun _ _ => Or.inl g4) (fun _ _ => g6.symm)
    · exact .sent t0 g4 g5 g6 g7 g1 g8 (Or.inr ⟨t, by simp⟩)
    · rw [stopOf_append]
      exact grant_ok hup.2 hf.env (g3.mono g2)
  | check i t hi hup hx =>
    have hf := s.feds i hi
    refine s.set hi _ [] ?_ hf.env (Or.inl rfl) (fun _ => by rw [hx]; simp) (fun _ h => (by cases h)) (Or.inl rfl)
      (fun h => (by cases h)) hf.owner
    rw [List.filterMap_nil, List.append_nil]
    unfold check
    have hcalm : Calm (y.fed i).rx := by rw [hx]; exact Or.inr (Or.inl ⟨t, rfl⟩)
    cases hsr : (y.fed i).stopRequested with
    | true => exact hf.phase.calm hsr.symm rfl rfl hcalm (Or.inr (Or.inr ⟨t, rfl⟩)) (fun h => (by rw [hsr] at h; cases h)) rfl
    | false =>
      cases hf.phase with
      | fresh p1 p2 p3 p4 p5 => exact .checked t rfl p2 p3 rfl p5
      | flagged p1 => rw [hsr] at p1; cases p1
      | raised c p1 => rw [hsr] at p1; cases p1
      | sent c p1 => rw [hsr] at p1; cases p1
      | checked c p1 => rw [hsr] at p1; cases p1
      | counted c p1 => rw [hsr] at p1; cases p1
      | blocked c p1 => rw [hsr] at p1; cases p1
  | countOnce i t a hi hup hx =>
    have hf := s.feds i hi
    have hst : (y.fed i).stopRequested = true := by
      cases hf.phase with
      | fresh p1 p2 p3 p4 p5 => rw [hx] at p4; rcases p4 with p4 | ⟨_, p4⟩ <;> cases p4
      | flagged p1 => exact p1
      | raised c p1 => exact p1
      | sent c p1 => exact p1
      | checked c p1 => exact p1
      | counted c p1 => exact p1
      | blocked c p1 => exact p1
    unfold countOnce
    split
    · rename_i hcond
      refine s.set hi _ [] ?_ hf.env (Or.inl rfl) (fun h => absurd rfl h) (fun _ h => (by cases h)) (Or.inl hst)
        (fun h => (by cases h)) hf.owner
      rw [List.filterMap_nil, List.append_nil]
      have hcalm : Calm (y.fed i).rx := by
        cases hf.phase with
        | fresh p1 p2 p3 p4 p5 => rw [hx] at p4; rcases p4 with p4 | ⟨_, p4⟩ <;> cases p4
        | flagged p1 p2 p3 p4 => exact p4
        | raised c p1 p2 p3 p4 => exact p4
        | sent c p1 p2 p3 p4 => exact p4
        | checked c p1 p2 p3 p4 =>
          rw [hx] at p4
          cases p4
          rw [p2] at hcond
          simp at hcond
        | counted c p1 p2 p3 p4 => rw [hx] at p4; cases p4
        | blocked c p1 p2 p3 p4 => rw [hx] at p4; cases p4
      exact hf.phase.calm rfl rfl rfl hcalm (Or.inl rfl) (fun _ => Or.inl rfl) rfl
    · rename_i hcond
      rw [not_or] at hcond
      refine s.set hi _ [] ?_ hf.env (Or.inl rfl) (fun _ => by rw [hx]; simp) (fun _ h => (by cases h)) (Or.inl hst)
        (fun h => (by cases h)) hf.owner
      rw [List.filterMap_nil, List.append_nil]
      cases hf.phase with
      | fresh p1 p2 p3 p4 p5 => rw [hx] at p4; rcases p4 with p4 | ⟨_, p4⟩ <;> cases p4
      | flagged p1 p2 p3 p4 => rw [hx] at p4; exact absurd (not_calm_checked p4) hcond.2
      | raised c p1 p2 p3 p4 => rw [hx] at p4; exact absurd (not_calm_checked p4) hcond.2
      | sent c p1 p2 p3 p4 => rw [hx] at p4; exact absurd (not_calm_checked p4) hcond.2
      | checked c p1 p2 p3 p4 p5 => exact .counted t p1 rfl p3 rfl p5
      | counted c p1 p2 p3 p4 => rw [hx] at p4; cases p4
      | blocked c p1 p2 p3 p4 => rw [hx] at p4; cases p4
  | raiseAsked i t hi hup hx =>
    have hf := s.feds i hi
    have hlt : (y.fed i).b.cur < (if lf_tag_compare t (y.fed i).b.cur ≤ 0 then nextStep (y.fed i).b.cur else t) := by
      split
      · exact lt_nextStep hf.env.micro
      · rename_i h; rw [cmp_le_zero, Tag.not_le] at h; exact h
    unfold raiseAsked
    simp only []
    generalize (if lf_tag_compare t (y.fed i).b.cur ≤ 0 then nextStep (y.fed i).b.cur else t) = t' at *
    obtain ⟨h1, h2⟩ := raise_ok (tag := t') hup.2 hf.env hlt (Or.inl (Tag.le_refl _))
    refine s.set hi _ [] ?_ h1 (Or.inl rfl) (fun _ => by rw [hx]; simp) (fun _ h => (by cases h)) ?_ (fun h => (by cases h))
      hf.owner
    · rw [List.filterMap_nil, List.append_nil]
      cases hf.phase with
      | counted c p1 p2 p3 p4 p5 => exact .blocked t' p1 p2 p3 rfl p5 h2 (Tag.lt_of_le_of_lt hf.env.low hlt)
      | fresh p1 p2 p3 p4 p5 => rw [hx] at p4; rcases p4 with p4 | ⟨_, p4⟩ <;> cases p4
      | flagged p1 p2 p3 p4 => rw [hx] at p4; exact absurd p4 not_calm_counted
      | raised c p1 p2 p3 p4 => rw [hx] at p4; exact absurd p4 not_calm_counted
      | sent c p1 p2 p3 p4 => rw [hx] at p4; exact absurd p4 not_calm_counted
      | checked c p1 p2 p3 p4 => rw [hx] at p4; cases p4
      | blocked c p1 p2 p3 p4 => rw [hx] at p4; cases p4
    · cases hf.phase with
      | counted c p1 => exact Or.inl p1
      | fresh p1 p2 p3 p4 p5 => rw [hx] at p4; rcases p4 with p4 | ⟨_, p4⟩ <;> cases p4
      | flagged p1 => exact Or.inl p1
      | raised c p1 => exact Or.inl p1
      | sent c p1 => exact Or.inl p1
      | checked c p1 => exact Or.inl p1
      | blocked c p1 => exact Or.inl p1
  | sendReply i t hi hup hx =>
    have hf := s.feds i hi
    cases hf.phase with
    | blocked c p1 p2 p3 p4 p5 p6 p7 =>
      rw [hx] at p4
      cases p4
      refine s.set hi _ _ ?_ hf.env (Or.inl rfl) (fun h => absurd rfl h) (fun _ _ => by rw [hx]; simp) (Or.inl p1)
        (fun h => (by simp at h)) hf.owner
      rw [p5]
      exact .sent t p1 p2 (Or.inr p3) (Or.inl rfl) rfl p7 (Or.inl p6)
    | fresh p1 p2 p3 p4 p5 => rw [hx] at p4; rcases p4 with p4 | ⟨_, p4⟩ <;> cases p4
    | flagged p1 p2 p3 p4 => rw [hx] at p4; exact absurd p4 not_calm_blocked
    | raised c p1 p2 p3 p4 => rw [hx] at p4; exact absurd p4 not_calm_blocked
    | sent c p1 p2 p3 p4 => rw [hx] at p4; exact absurd p4 not_calm_blocked
    | checked c p1 p2 p3 p4 => rw [hx] at p4; cases p4
    | counted c p1 p2 p3 p4 => rw [hx] at p4; cases p4
  | resign i hi hup =>
    have hf := s.feds i hi
    refine s.set hi _ _ ?_ hf.env (Or.inr rfl) id (fun _ h => (by simp at h)) (Or.inr ⟨rfl, rfl⟩) (fun _ => rfl) hf.owner
    show Phase _ (y.props i ++ []) _
    rw [List.append_nil]
    exact hf.phase.env rfl rfl rfl rfl (fun _ h => h)
  | hear i m hi hc hm => exact s.hear hi hc hm

/-- The federates start at tags that are not before the beginning of time and not after their stop tags. -/
structure Start (n : Nat) (cur stop : Nat → Tag) : Prop where
  some : 0 < n
  low : ∀ i < n, NEVER_TAG ≤ cur i
  le : ∀ i < n, cur i ≤ stop i
  micro : ∀ i < n, (cur i).microstep < UINT_MAX

theorem SInv.boot {n : Nat} {cur stop : Nat → Tag} (q : Nat → List Tag) (h : Start n cur stop) :
    SInv n stop (Stop.boot cur stop q) := by
  refine ⟨?_, ?_⟩
  · have : (Stop.boot cur stop q).counted = fun _ => [] := by
      funext i; simp [Sys.counted, Stop.boot]
    rw [this]
    exact RInv.init n h.some
  · intro i hi
    have hgot : (Stop.boot cur stop q).got i = [] := by simp [Sys.got, Stop.boot]
    refine ⟨.fresh rfl rfl rfl (Or.inl rfl) ?_, ?_, Or.inl rfl, Nat.le_refl _, Nat.le_refl _, fun h => absurd rfl h, ?_, ?_, ?_,
      ?_⟩
    · simp [Sys.props, Stop.boot]
    · rw [hgot]
      exact ⟨.init _ _ _, rfl, h.le i hi, h.low i hi, h.micro i hi⟩
    · intro t h; cases h
    · rw [hgot]; intro t h; cases h
    · intro _ h; cases h
    · rw [hgot]; intro t h; cases h

theorem reach_SInv {n : Nat} {cur stop : Nat → Tag} {q : Nat → List Tag} (h : Start n cur stop) {y : Sys}
    (r : Reach n cur stop q y) : SInv n stop y := by
  induction r with
  | boot => exact SInv.boot q h
  | step _ st ih => exact ih.step st

end ReactorC.Stop
