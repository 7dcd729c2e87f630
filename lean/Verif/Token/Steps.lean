import Verif.Token.Inv

/-! # Every operation preserves the invariant -/

namespace ReactorC.Token

/-- Token `j` has a reference other than through template `t`. -/
def Ext (s : State) (L : List Nat) (t j : Nat) : Prop := (if tmplTok s t = some j then 2 else 1) ≤ hold s L j

theorem ext_queue {s : State} {L : List Nat} {t j : Nat} (h : j ∈ s.queue) : Ext s L t j := by
  have h1 := List.count_pos_iff.mpr h
  simp only [Ext, hold]
  split
  · rename_i ht
    have h2 := List.count_pos_iff.mpr (tmplTok_mem ht)
    omega
  · omega

theorem ext_tmpl {s : State} {L : List Nat} {t t' j : Nat} (ht : t < s.tmpl.length) (hne : t' ≠ t)
    (h : tmplTok s t' = some j) : Ext s L t j := by
  have hc := tmpl_count_set s t ht none j
  have h1 : 0 < (s.tmpl.set t none).count (some j) := by
    apply List.count_pos_iff.mpr
    simp only [tmplTok] at h
    cases hg : s.tmpl[t']? with
    | none => rw [hg] at h; simp at h
    | some x =>
      rw [hg] at h; simp only [Option.join_some] at h; subst h
      have : (s.tmpl.set t none)[t']? = some (some j) := by
        rw [List.getElem?_set, if_neg (fun hx => hne hx.symm)]; exact hg
      exact List.mem_of_getElem? this
  simp only [reduceCtorEq, if_false, Nat.add_zero] at hc
  simp only [Ext, hold]
  by_cases hx : tmplTok s t = some j
  · rw [if_pos hx] at hc ⊢; omega
  · rw [if_neg hx] at hc ⊢; omega

theorem tmplTok_congr {s s' : State} (h : s'.tmpl = s.tmpl) (t : Nat) : tmplTok s' t = tmplTok s t := by
  simp [tmplTok, h]

theorem tmplTok_set {s s' : State} {t : Nat} {x : Option Nat} (h : s'.tmpl = s.tmpl.set t x) (ht : t < s.tmpl.length) :
    tmplTok s' t = x := by
  simp [tmplTok, h, ht]

/-- The outcome of an operation on the invariant; tokens with an external reference keep their payload. -/
structure Good (s : State) (L : List Nat) (ext : Nat → Prop) (L' : List Nat) (s' : State) : Prop where
  inv : Inv s' L'
  keep : ∀ j, ext j → Keep s s' j

theorem good_initTemplate {s : State} {L : List Nat} (h : Inv s L) (t pick : Nat) (ht : t < s.tmpl.length) :
    Good s L (Ext s L t) L (initTemplate s t pick) := by
  -- installing a new token, after the old one was released
  have fresh : ∀ s0 : State, SameHolders s s0 →
      Mem s0 (fun j => hold s L j - if tmplTok s t = some j then 1 else 0) (· ∈ s.user) →
      (∀ k ∈ s.user, (s0.tok k).rc = 0) → (∀ j, Ext s L t j → Keep s s0 j) →
      Good s L (Ext s L t) L
        { setRc (newToken s0 pick none 0).1 (newToken s0 pick none 0).2 1 with
          tmpl := s0.tmpl.set t (some (newToken s0 pick none 0).2) } := by
    intro s0 hsame hm hu hkeep
    obtain ⟨s1, k, a1, a2, a3, a4, a5, a6, a7, a8, a9, a10, a11⟩ := newCounted hm pick none 0 1 (by simp)
    rw [a1, a2]
    have hz : ∀ j, (s0.tok j).st ≠ .live → (hold s L j - if tmplTok s t = some j then 1 else 0) = 0 := by
      intro j hj; by_contra hx; exact hj (hm.live j (by omega))
    have hk1 : s1.tok k = ⟨.live, 1, none, 0⟩ := by rw [a4, upd_same]
    have ho1 : ∀ j, j ≠ k → s1.tok j = s0.tok j := fun j hj => by rw [a4, upd_other _ _ hj]
    have hku : k ∉ s.user := fun hx => a3 (hm.uncounted k hx)
    refine ⟨⟨?_, ?_, ?_, ?_, h.nodup⟩, ?_⟩
    · simp only [a9, hsame.copies]
      refine a6 L ?_ _ ?_
      · intro j hj
        apply hm.live
        have hc := List.count_pos_iff.mpr hj
        simp only [hold]
        split
        · rename_i hx
          have := List.count_pos_iff.mpr (tmplTok_mem hx); omega
        · omega
      · rw [hsame.nxt]; exact h.chain
    · have hm1 : Mem s1 (fun j => (hold s L j - if tmplTok s t = some j then 1 else 0) + if j = k then 1 else 0) (· ∈ s.user) := by
        refine a11 _ ?_ ?_
        · have := hz k a3; simp only [if_true]; omega
        · intro j hj; simp [hj]
      have hm2 : Mem { s1 with tmpl := s0.tmpl.set t (some k) }
          (fun j => (hold s L j - if tmplTok s t = some j then 1 else 0) + if j = k then 1 else 0) (· ∈ s.user) :=
        hm1.congr rfl rfl rfl rfl rfl rfl
      refine hm2.weaken ?_ ?_
      · intro j
        have hc := tmpl_count_set s t ht (some k) j
        have hp : tmplTok s t = some j → 0 < s.tmpl.count (some j) := fun hx => List.count_pos_iff.mpr (tmplTok_mem hx)
        simp only [hold, hsame.tmpl, a8, hsame.queue, Option.some.injEq] at hc ⊢
        by_cases hjk : j = k
        · subst hjk; simp only [if_true] at hc ⊢; split at hc <;> simp_all <;> omega
        · have hkj : ¬ k = j := fun hx => hjk hx.symm
          simp only [hjk, hkj, if_false] at hc ⊢; split at hc <;> simp_all <;> omega
      · intro j hj; simpa [a10, hsame.user] using hj
    · intro j hj
      have hj' : j ∈ s.user := by simpa [a10, hsame.user] using hj
      have hjk : j ≠ k := by rintro rfl; exact hku hj'
      simp only [ho1 j hjk]; exact hu j hj'
    · simp only [a10, hsame.user]; exact h.userNodup
    · intro j hj
      have hjk : j ≠ k := by
        rintro rfl
        have := hz j a3
        simp only [Ext] at hj
        split at hj <;> simp_all <;> omega
      refine (hkeep j hj).trans ?_
      exact Keep.of_eq (by simp only [ho1 j hjk]) (by simp only [ho1 j hjk]) a5
  unfold initTemplate
  cases htt : tmplTok s t with
  | none =>
    have := fresh s (SameHolders.refl s) (h.mem.weaken (by intro j; simp) (fun _ hk => hk)) h.userRc (fun j _ => Keep.refl s j)
    exact this
  | some k =>
    have hpos : 0 < hold s L k := hold_pos_tmpl htt
    have hlive := h.mem.live k hpos
    have htm : Mem (touch s k) (hold s L) (· ∈ s.user) := h.mem.touch (by rw [hlive]; decide)
    dsimp only
    have e0 : (touch s k).tok = s.tok := rfl
    rw [e0]
    by_cases hrc : (s.tok k).rc = 1
    · rw [if_pos hrc]
      have hm1 := htm.freeValue k
      have hfv := freeValue_tok (touch s k) k
      have hsame := freeValue_same (touch s k) k
      have hm2 : Mem (setRc (freeValue (touch s k) k) k 1) (hold s L) (· ∈ s.user) :=
        hm1.setRc (by rw [(hfv k).1]; exact hlive) (by have := h.mem.count k; omega) (fun _ _ => Nat.le_refl _)
      have hk1 : (setRc (freeValue (touch s k) k) k 1).tok k = { (freeValue (touch s k) k).tok k with rc := 1 } := upd_same _ _ _
      have ho1 : ∀ j, j ≠ k → (setRc (freeValue (touch s k) k) k 1).tok j = (freeValue (touch s k) k).tok j :=
        fun j hj => upd_other _ _ hj
      refine ⟨⟨?_, ?_, ?_, ?_, h.nodup⟩, ?_⟩
      · show Chain (freeValue (touch s k) k).nxt (freeValue (touch s k) k).copies L
        rw [hsame.nxt, hsame.copies]; exact h.chain
      · refine hm2.weaken ?_ ?_
        · intro j
          simp only [hold, setRc, hsame.tmpl, hsame.queue]; exact Nat.le_refl _
        · intro j hj; have e : (setRc (freeValue (touch s k) k) k 1).user = s.user := hsame.user
          rw [e] at hj; exact hj
      · intro j hj
        have e : (setRc (freeValue (touch s k) k) k 1).user = s.user := hsame.user
        have hj' : j ∈ s.user := by rw [e] at hj; exact hj
        have hjk : j ≠ k := by rintro rfl; exact h.not_user hpos hj'
        rw [ho1 j hjk, (hfv j).2.1]; exact h.userRc j hj'
      · simp only [setRc, hsame.user]; exact h.userNodup
      · intro j hj
        have hjk : j ≠ k := by
          rintro rfl
          have := h.mem.count j
          simp only [Ext, htt, if_true] at hj; omega
        have h1 : Keep s (freeValue (touch s k) k) j := keep_freeValue htm hjk
        exact h1.trans (Keep.of_eq (by rw [ho1 j hjk]) (by rw [ho1 j hjk]) rfl)
    · rw [if_neg hrc]
      have hsame := doneUsing_same (touch s k) k
      have := fresh (doneUsing (touch s k) k)
        (SameHolders.trans (SameHolders.refl s) ⟨hsame.tmpl, hsame.queue, hsame.copies, hsame.nxt, hsame.user⟩) ?_ ?_ ?_
      · exact this
      · refine (htm.doneUsing hpos (h.not_user hpos)).weaken ?_ (fun _ hk => hk)
        intro j
        simp only [dec, htt, Option.some.injEq]
        by_cases hjk : j = k
        · simp [hjk]
        · have : ¬ k = j := fun hx => hjk hx.symm
          simp [hjk, this]
      · intro j hj
        have hjk : j ≠ k := by rintro rfl; exact h.not_user hpos hj
        rw [doneUsing_other _ _ _ hjk]; exact h.userRc j hj
      · intro j hj
        have h1 : Keep (touch s k) (doneUsing (touch s k) k) j := by
          refine keep_doneUsing htm ?_
          by_cases hjk : j = k
          · right
            subst hjk
            simp only [Ext, htt, if_true] at hj
            exact Nat.le_trans hj (h.mem.count j)
          · exact Or.inl hjk
        exact ⟨h1.1, h1.2.1, h1.2.2⟩

theorem good_newToken {s : State} {L : List Nat} (h : Inv s L) (pick c len : Nat) :
    Good s L (fun j => 0 < hold s L j) L (apiNewToken s pick c len) := by
  have hm := h.mem.allocPay c
  obtain ⟨k, b1, b2, b3, b4, b5, b6, b7, b8, b9, b10, b11, b12⟩ :=
    newToken_spec hm pick (some (allocPay s c).2) len (by
      intro p hp
      simp only [Option.some.injEq] at hp; subst hp
      refine ⟨by simp [allocPay, upd_same], fun k hk => ?_⟩
      exact h.mem.alloc k _ hk (h.mem.freshPay _ (Nat.le_refl _)))
  unfold apiNewToken
  dsimp only
  rw [b1]
  have hku : k ∉ s.user := fun hx => b2 (h.mem.uncounted k hx)
  have hsk : (newToken (allocPay s c).1 pick (some (allocPay s c).2) len).1.tok k = ⟨.live, 0, some (allocPay s c).2, len⟩ := by
    rw [b3, upd_same]
  have hso : ∀ j, j ≠ k → (newToken (allocPay s c).1 pick (some (allocPay s c).2) len).1.tok j = s.tok j :=
    fun j hj => by rw [b3, upd_other _ _ hj]; rfl
  refine ⟨⟨?_, ?_, ?_, ?_, h.nodup⟩, ?_⟩
  · simp only [b9]
    exact b6 L (fun j hj => h.mem.live j (hold_pos_copies hj)) _ h.chain
  · have hm2 := Mem.congr (s' := { (newToken (allocPay s c).1 pick (some (allocPay s c).2) len).1 with
        user := k :: (newToken (allocPay s c).1 pick (some (allocPay s c).2) len).1.user }) b12 rfl rfl rfl rfl rfl rfl
    have hm3 := hm2.weaken (H' := hold { (newToken (allocPay s c).1 pick (some (allocPay s c).2) len).1 with
        user := k :: (newToken (allocPay s c).1 pick (some (allocPay s c).2) len).1.user } L) (U' := (· ∈ s.user))
      (by intro j; simp only [hold, b7, b8]; exact Nat.le_refl _) (fun _ hk => hk)
    refine hm3.addUser ?_
    intro j hj
    simp only [b10, List.mem_cons] at hj
    rcases hj with rfl | hj
    · right; simp only [hsk]
    · exact Or.inl hj
  · intro j hj
    simp only [b10, List.mem_cons] at hj
    by_cases hjk : j = k
    · subst hjk; simp only [hsk]
    · simp only [hso j hjk]
      rcases hj with rfl | hj
      · exact absurd rfl hjk
      · exact h.userRc j hj
  · simp only [b10]; exact List.nodup_cons.mpr ⟨hku, h.userNodup⟩
  · intro j hj
    have hjk : j ≠ k := by rintro rfl; exact b2 (h.mem.live j hj)
    refine ⟨by simp only [hso j hjk], by simp only [hso j hjk], fun p hp => ?_⟩
    simp only [b4]
    have hpn : p ≠ s.nPay := by
      rintro rfl; exact h.mem.alloc j _ hp (h.mem.freshPay _ (Nat.le_refl _))
    simp [allocPay, upd_other _ _ hpn]

theorem held_allocPay {s : State} {L : List Nat} (h : Inv s L) (c : Nat) : Inv (allocPay s c).1 L :=
  ⟨h.chain, h.mem.allocPay c, h.userRc, h.userNodup, h.nodup⟩

theorem keep_allocPay {s : State} {H : Nat → Nat} {U : Nat → Prop} (h : Mem s H U) (c j : Nat) : Keep s (allocPay s c).1 j := by
  refine ⟨rfl, rfl, fun p hp => ?_⟩
  have hpn : p ≠ s.nPay := by
    rintro rfl; exact h.alloc j _ hp (h.freshPay _ (Nat.le_refl _))
  simp [allocPay, upd_other _ _ hpn]

theorem user_erase {l : List Nat} {k j : Nat} (hn : l.Nodup) (hj : j ∈ l.erase k) : j ∈ l ∧ j ≠ k := by
  rw [hn.mem_erase_iff] at hj; exact ⟨hj.2, hj.1⟩

theorem good_setToken {s : State} {L : List Nat} (h : Inv s L) {t k : Nat} (ht : t < s.tmpl.length) (hk : Held s k) :
    Good s L (Ext s L t) L (apiSetToken s t k) := by
  have hlive := h.live_of_held hk
  obtain ⟨s1, e, a1, a2, a3, a4, a5, hm, hrc, hoth, hkeep⟩ :=
    replaceTemplate_spec h ht (some k) (by intro j hj; cases hj; exact hlive)
  unfold apiSetToken
  dsimp only
  rw [e]
  have hk1 : 0 < hold s1 L k := hold_pos_tmpl (t := t) (tmplTok_set a1 ht)
  have hl1 := hm.live k hk1
  refine ⟨⟨?_, ?_, ?_, ?_, h.nodup⟩, ?_⟩
  · show Chain s1.nxt s1.copies L
    rw [a5, a3]; exact h.chain
  · have hm1 : Mem { s1 with user := s1.user.erase k } (hold s1 L) (· ∈ s.user) := hm.congr rfl rfl rfl rfl rfl rfl
    refine (hm1.touch (by simp only [hl1]; decide)).weaken (fun j => Nat.le_refl _) ?_
    intro j hj
    simp only [touch, a4] at hj
    exact (user_erase h.userNodup hj).1
  · intro j hj
    simp only [touch, a4] at hj
    obtain ⟨h1, h2⟩ := user_erase h.userNodup hj
    show (s1.tok j).rc = 0
    rw [hoth j (by intro hx; cases hx; exact h2 rfl) ?_]
    · exact h.userRc j h1
    · intro hx; exact h.not_user (hold_pos_tmpl hx) h1
  · simp only [touch, a4]; exact h.userNodup.erase _
  · intro j hj
    have h1 : Keep s s1 j := by
      refine hkeep j ?_
      simp only [Ext] at hj
      by_cases hx : tmplTok s t = some j
      · rw [if_pos hx] at hj; exact Or.inr (Or.inr hj)
      · exact Or.inl hx
    exact ⟨h1.1, h1.2.1, h1.2.2⟩

theorem good_popNull {s : State} {L : List Nat} (h : Inv s L) {t : Nat} (ht : t < s.tmpl.length) :
    Good s L (Ext s L t) L (replaceTemplate s t none) := by
  obtain ⟨s1, e, a1, a2, a3, a4, a5, hm, hrc, hoth, hkeep⟩ :=
    replaceTemplate_spec h ht none (by intro j hj; cases hj)
  rw [e]
  refine ⟨⟨?_, ?_, ?_, ?_, h.nodup⟩, ?_⟩
  · rw [a5, a3]; exact h.chain
  · exact hm.weaken (fun j => Nat.le_refl _) (fun j hj => by rw [a4] at hj; exact hj)
  · intro j hj
    rw [a4] at hj
    rw [hoth j (by simp) (fun hx => h.not_user (hold_pos_tmpl hx) hj)]
    exact h.userRc j hj
  · rw [a4]; exact h.userNodup
  · intro j hj
    refine hkeep j ?_
    simp only [Ext] at hj
    by_cases hx : tmplTok s t = some j
    · rw [if_pos hx] at hj; exact Or.inr (Or.inr hj)
    · exact Or.inl hx

theorem good_popEvent {s : State} {L : List Nat} (h : Inv s L) {t k : Nat} (ht : t < s.tmpl.length) (hk : k ∈ s.queue) :
    Good s L (Ext s L t) L (popEvent s t k) := by
  have hlive := h.mem.live k (hold_pos_queue hk)
  obtain ⟨s1, e, a1, a2, a3, a4, a5, hm, hrc, hoth, hkeep⟩ :=
    replaceTemplate_spec h ht (some k) (by intro j hj; cases hj; exact hlive)
  unfold popEvent
  dsimp only
  rw [e]
  have hkt : 0 < s1.tmpl.count (some k) := List.count_pos_iff.mpr (tmplTok_mem (tmplTok_set a1 ht))
  have hkq : 0 < s1.queue.count k := by rw [a2]; exact List.count_pos_iff.mpr hk
  have hk2 : 2 ≤ hold s1 L k := by simp only [hold]; omega
  have hku : k ∉ s.user := h.not_user (hold_pos_queue hk)
  have hm1 : Mem { s1 with queue := s1.queue.erase k } (hold s1 L) (· ∈ s.user) := hm.congr rfl rfl rfl rfl rfl rfl
  have hm2 := hm1.doneUsing (k := k) (by omega) hku
  have hsame := doneUsing_same { s1 with queue := s1.queue.erase k } k
  refine ⟨⟨?_, ?_, ?_, ?_, h.nodup⟩, ?_⟩
  · rw [hsame.nxt, hsame.copies]; simp only [a5, a3]; exact h.chain
  · refine hm2.weaken ?_ (fun j hj => by rw [hsame.user] at hj; simpa [a4] using hj)
    intro j
    simp only [hold, hsame.tmpl, hsame.queue, dec]
    by_cases hjk : j = k
    · subst hjk; rw [if_pos rfl, List.count_erase_self]; omega
    · rw [if_neg hjk, List.count_erase_of_ne hjk]
      exact Nat.le_refl _
  · intro j hj
    rw [hsame.user] at hj
    have hj' : j ∈ s.user := by simpa [a4] using hj
    have hjk : j ≠ k := by rintro rfl; exact hku hj'
    rw [doneUsing_other _ _ _ hjk]
    show (s1.tok j).rc = 0
    rw [hoth j (by intro hx; cases hx; exact hjk rfl) (fun hx => h.not_user (hold_pos_tmpl hx) hj')]
    exact h.userRc j hj'
  · rw [hsame.user]; simp only [a4]; exact h.userNodup
  · intro j hj
    have h1 : Keep s s1 j := by
      refine hkeep j ?_
      simp only [Ext] at hj
      by_cases hx : tmplTok s t = some j
      · rw [if_pos hx] at hj; exact Or.inr (Or.inr hj)
      · exact Or.inl hx
    have h2 : Keep s1 { s1 with queue := s1.queue.erase k } j := Keep.of_eq rfl rfl rfl
    refine (h1.trans h2).trans (keep_doneUsing hm1 ?_)
    by_cases hjk : j = k
    · right; exact Nat.le_trans hk2 (hm.count k)
    · exact Or.inl hjk

/-- The token part of scheduling, for a token with `extra` references that are not among the holders. -/
theorem schedule_aux {s : State} {L : List Nat} (hchain : Chain s.nxt s.copies L) (hnd : L.Nodup)
    (hun : s.user.Nodup) {k : Nat} (hm : Mem s (hold s L) (· ∈ s.user)) (hlive : (s.tok k).st = .live)
    (hu : ∀ j ∈ s.user, j ≠ k → (s.tok j).rc = 0) (queued : Bool) :
    ∃ s', scheduleToken s k queued = s' ∧ Chain s'.nxt s'.copies L ∧ s'.user = s.user ∧ s'.tmpl = s.tmpl ∧
      Mem s' (hold s' L) (fun j => j ∈ s.user ∧ j ≠ k) ∧ (∀ j ∈ s.user, j ≠ k → (s'.tok j).rc = 0) ∧
      (∀ j, 0 < hold s L j → Keep s s' j) := by
  have hm1 := hm.incRef hlive
  have hi : ∀ j, j ≠ k → (incRef s k).tok j = s.tok j := fun j hj => upd_other _ _ hj
  have hn : (incRef s k).tok k = { s.tok k with rc := (s.tok k).rc + 1 } := by
    simp only [incRef, setRc, touch, upd_same]
  have hki : ∀ j, Keep s (incRef s k) j := by
    intro j
    by_cases hj : j = k
    · subst hj; exact Keep.of_eq (by rw [hn]) (by rw [hn]) rfl
    · exact Keep.of_eq (by rw [hi j hj]) (by rw [hi j hj]) rfl
  refine ⟨_, rfl, ?_⟩
  unfold scheduleToken
  cases queued with
  | true =>
    simp only [if_true]
    refine ⟨hchain, rfl, rfl, ?_, ?_, ?_⟩
    · have hm2 : Mem { incRef s k with queue := k :: (incRef s k).queue } (inc (hold s L) k) (· ∈ s.user) :=
        hm1.congr rfl rfl rfl rfl rfl rfl
      refine hm2.weaken ?_ (fun j hj => hj.1)
      intro j
      simp only [hold, inc, incRef, setRc, touch, List.count_cons]
      by_cases hj : j = k
      · subst hj; simp only [beq_self_eq_true, if_true]; omega
      · have : ¬ k = j := fun hx => hj hx.symm
        simp [hj, this]
    · intro j hj hjk; show ((incRef s k).tok j).rc = 0; rw [hi j hjk]; exact hu j hj hjk
    · intro j _; exact ⟨(hki j).1, (hki j).2.1, (hki j).2.2⟩
  | false =>
    simp only [Bool.false_eq_true, if_false]
    have hsame := doneUsing_same (incRef s k) k
    have hm2 := (hm1.weaken (H' := inc (hold s L) k) (U' := fun j => j ∈ s.user ∧ j ≠ k) (fun _ => Nat.le_refl _)
      (fun j hj => hj.1)).doneUsing (k := k) (by simp [inc]) (by simp)
    refine ⟨?_, hsame.user, hsame.tmpl, ?_, ?_, ?_⟩
    · rw [hsame.nxt, hsame.copies]; exact hchain
    · refine hm2.weaken ?_ (fun j hj => hj)
      intro j
      have e1 : (doneUsing (incRef s k) k).tmpl = s.tmpl := hsame.tmpl
      have e2 : (doneUsing (incRef s k) k).queue = s.queue := hsame.queue
      simp only [hold, e1, e2, dec, inc]
      by_cases hj : j = k
      · subst hj; simp only [if_true]; omega
      · simp [hj]
    · intro j hj hjk
      rw [doneUsing_other _ _ _ hjk, hi j hjk]; exact hu j hj hjk
    · intro j hj
      refine (hki j).trans (keep_doneUsing hm1 ?_)
      by_cases hjk : j = k
      · right; subst hjk
        have := hm.count j
        rw [hn]; simp only; omega
      · exact Or.inl hjk

theorem good_scheduleToken {s : State} {L : List Nat} (h : Inv s L) {k : Nat} (hk : Held s k) (queued : Bool) :
    Good s L (fun j => 0 < hold s L j) L (apiScheduleToken s k queued) := by
  have hlive := h.live_of_held hk
  obtain ⟨s', e, a1, a2, a3, a4, a5, a6⟩ :=
    schedule_aux h.chain h.nodup h.userNodup h.mem hlive (fun j hj _ => h.userRc j hj) queued
  unfold apiScheduleToken
  dsimp only
  rw [e]
  refine ⟨⟨a1, ?_, ?_, ?_, h.nodup⟩, ?_⟩
  · have hm1 : Mem { s' with user := s'.user.erase k } (hold s' L) (fun j => j ∈ s.user ∧ j ≠ k) := a4.congr rfl rfl rfl rfl rfl rfl
    refine hm1.weaken (fun j => Nat.le_refl _) ?_
    intro j hj
    simp only [a2] at hj
    exact user_erase h.userNodup hj
  · intro j hj
    simp only [a2] at hj
    obtain ⟨h1, h2⟩ := user_erase h.userNodup hj
    exact a5 j h1 h2
  · simp only [a2]; exact h.userNodup.erase _
  · intro j hj
    exact ⟨(a6 j hj).1, (a6 j hj).2.1, (a6 j hj).2.2⟩

theorem freshPay_facts {s : State} {L : List Nat} (h : Inv s L) (c : Nat) :
    (allocPay s c).1.pay (allocPay s c).2 ≠ none ∧ ∀ j, ((allocPay s c).1.tok j).val ≠ some (allocPay s c).2 := by
  refine ⟨by simp [allocPay, upd_same], fun j hj => ?_⟩
  exact h.mem.alloc j _ hj (h.mem.freshPay _ (Nat.le_refl _))

theorem good_set {s : State} {L : List Nat} (h : Inv s L) {t : Nat} (ht : t < s.tmpl.length) (pick c len : Nat) :
    Good s L (Ext s L t) L (apiSet s t pick c len) := by
  obtain ⟨hp, hno⟩ := freshPay_facts h c
  have h0 := held_allocPay h c
  obtain ⟨s', k, e, b1, b2, b3, b4, b5, b6, b7, b8, b9, b10, b11, b12, b13, b14⟩ :=
    initTokenWithValue_spec h0 t pick (allocPay s c).2 len hp hno
  unfold apiSet
  dsimp only
  rw [e]
  dsimp only
  have hh : ∀ j, hold (allocPay s c).1 L j = hold s L j := fun j => rfl
  have htt : tmplTok (allocPay s c).1 t = tmplTok s t := rfl
  refine ⟨⟨b10, ?_, ?_, ?_, h.nodup⟩, ?_⟩
  · -- one holder more for `k` unless it was the template token
    have hm1 : Mem { s' with tmpl := s'.tmpl.set t (some k) } (hold (allocPay s c).1 L) (· ∈ s.user) :=
      b14.congr rfl rfl rfl rfl rfl rfl
    have hm2 : Mem { s' with tmpl := s'.tmpl.set t (some k) } (hold { s' with tmpl := s'.tmpl.set t (some k) } L) (· ∈ s.user) := by
      have hb : ∀ j, hold { s' with tmpl := s'.tmpl.set t (some k) } L j + (if tmplTok s t = some j then 1 else 0) =
          hold s L j + (if k = j then 1 else 0) := by
        intro j
        have hc := tmpl_count_set s t ht (some k) j
        have e6 : s'.tmpl = s.tmpl := b6
        have e7 : s'.queue = s.queue := b7
        simp only [Option.some.injEq] at hc
        simp only [hold, e6, e7]; omega
      rcases b13 with ⟨hk1, hk2⟩ | ⟨hk1, _⟩
      · rw [htt] at hk1
        refine hm1.weaken ?_ (fun _ hj => hj)
        intro j
        have := hb j
        rw [hh]
        by_cases hj : k = j
        · subst hj; simp only [hk1, if_true] at this; omega
        · simp only [hj, if_false] at this; omega
      · -- a new token: its count is 1 and it had no holder
        have hz : hold s L k = 0 := by
          by_contra hx; exact hk1 (h.mem.live k (by omega))
        refine { hm1 with live := ?_, count := ?_ }
        · intro j hj
          by_cases hjk : j = k
          · subst hjk; exact b1
          · have := hb j
            have hkj : ¬ k = j := fun hx => hjk hx.symm
            simp only [hkj, if_false] at this
            exact hm1.live j (by rw [hh]; omega)
        · intro j
          have := hb j
          by_cases hjk : j = k
          · subst hjk
            show _ ≤ (s'.tok j).rc
            rw [b2]; simp only [if_true] at this; omega
          · have hkj : ¬ k = j := fun hx => hjk hx.symm
            simp only [hkj, if_false] at this
            refine Nat.le_trans ?_ (hm1.count j)
            rw [hh]; omega
    exact hm2.weaken (fun j => Nat.le_refl _) (fun j hj => by simp only [b9] at hj; exact hj)
  · intro j hj
    have hj' : j ∈ s.user := by have := hj; simp only [b9] at this; exact this
    have hjk : j ≠ k := by rintro rfl; exact b5 hj'
    show (s'.tok j).rc = 0
    rw [b11 j hjk]; exact h.userRc j hj'
  · simp only [b9]; exact h.userNodup
  · intro j hj
    have hjk : j ≠ k := by
      rintro rfl
      rcases b13 with ⟨hk1, hk2⟩ | ⟨hk1, _⟩
      · rw [htt] at hk1
        simp only [Ext, hk1, if_true] at hj
        have h1 : (s.tok j).rc = 1 := hk2
        have := h.mem.count j; omega
      · have : 0 < hold s L j := by simp only [Ext] at hj; split at hj <;> omega
        exact hk1 (h.mem.live j this)
    have h1 := (keep_allocPay h.mem c j).trans (b12 j hjk)
    exact ⟨h1.1, h1.2.1, h1.2.2⟩

theorem good_scheduleValue {s : State} {L : List Nat} (h : Inv s L) {t : Nat} (pick c len : Nat)
    (queued : Bool) : Good s L (Ext s L t) L (apiScheduleValue s t pick c len queued) := by
  obtain ⟨hp, hno⟩ := freshPay_facts h c
  have h0 := held_allocPay h c
  obtain ⟨s', k, e, b1, b2, b3, b4, b5, b6, b7, b8, b9, b10, b11, b12, b13, b14⟩ :=
    initTokenWithValue_spec h0 t pick (allocPay s c).2 len hp hno
  unfold apiScheduleValue
  dsimp only
  rw [e]
  dsimp only
  have hh : ∀ j, hold (allocPay s c).1 L j = hold s L j := fun j => rfl
  have htt : tmplTok (allocPay s c).1 t = tmplTok s t := rfl
  have hhs : ∀ j, hold s' L j = hold s L j := by
    intro j; simp only [hold, b6, b7]; rfl
  have hm' : Mem s' (hold s' L) (· ∈ s'.user) :=
    b14.weaken (fun j => by rw [hhs, hh]; exact Nat.le_refl _) (fun j hj => by rw [b9] at hj; exact hj)
  have hun : s'.user.Nodup := by rw [b9]; exact h.userNodup
  have hku : k ∉ s'.user := by rw [b9]; exact b5
  obtain ⟨s'', e', a1, a2, a3, a4, a5, a6⟩ := schedule_aux b10 h.nodup hun hm' b1 (by
    intro j hj hjk
    have hj' : j ∈ s.user := by rw [b9] at hj; exact hj
    rw [b11 j hjk]; exact h.userRc j hj') queued
  rw [e']
  refine ⟨⟨a1, ?_, ?_, ?_, h.nodup⟩, ?_⟩
  · refine a4.weaken (fun j => Nat.le_refl _) ?_
    intro j hj
    rw [a2] at hj
    exact ⟨hj, by rintro rfl; exact hku hj⟩
  · intro j hj
    rw [a2] at hj
    exact a5 j hj (by rintro rfl; exact hku hj)
  · rw [a2]; exact hun
  · intro j hj
    have hpos : 0 < hold s L j := by simp only [Ext] at hj; split at hj <;> omega
    have hjk : j ≠ k := by
      rintro rfl
      rcases b13 with ⟨hk1, hk2⟩ | ⟨hk1, _⟩
      · rw [htt] at hk1
        simp only [Ext, hk1, if_true] at hj
        have h1 : (s.tok j).rc = 1 := hk2
        have := h.mem.count j; omega
      · exact hk1 (h.mem.live j hpos)
    have h1 := (keep_allocPay h.mem c j).trans (b12 j hjk)
    exact h1.trans (a6 j (by rw [hhs]; exact hpos))

theorem Chain.frame {nxt nxt' : Nat → Option Nat} {h : Option Nat} {l : List Nat} (hc : Chain nxt h l)
    (he : ∀ j ∈ l, nxt' j = nxt j) : Chain nxt' h l := by
  induction hc with
  | nil => exact .nil
  | @cons k l _ ih =>
    refine .cons ?_
    rw [he k (by simp)]
    exact ih fun j hj => he j (List.mem_cons_of_mem _ hj)

/-- What `lf_writable_copy` does when it copies. -/
theorem writableCopy_spec {s : State} {L : List Nat} (h : Inv s L) (t pick : Nat) (pt : PortType) :
    (tmplTok s t = none ∧ writableCopy s t pick pt = (s, none)) ∨
    ∃ k, tmplTok s t = some k ∧
      ((pt.numDestinations = 1 ∧ (s.tok k).rc = 1 ∧ writableCopy s t pick pt = (touch s k, some k)) ∨
       (pt.hasCopyConstructor = false ∧ pt.elementSize * (s.tok k).len = 0 ∧ writableCopy s t pick pt = (touch s k, some k)) ∨
       (∀ p, (s.tok k).val = some p → ∃ (s' : State) (k' : Nat), writableCopy s t pick pt = (s', some k') ∧
          (s.tok k').st ≠ .live ∧ s'.tok = upd s.tok k' ⟨.live, 1, some s.nPay, (s.tok k).len⟩ ∧
          s'.pay = upd s.pay s.nPay (s.pay p) ∧ s'.tmpl = s.tmpl ∧ s'.queue = s.queue ∧ s'.user = s.user ∧
          Chain s'.nxt s'.copies (k' :: L) ∧ Mem s' (hold s' (k' :: L)) (· ∈ s.user))) := by
  unfold writableCopy
  cases ht : tmplTok s t with
  | none => left; exact ⟨rfl, rfl⟩
  | some k =>
    right
    refine ⟨k, rfl, ?_⟩
    have hpos : 0 < hold s L k := hold_pos_tmpl ht
    have hlive := h.mem.live k hpos
    have htm : Mem (touch s k) (hold s L) (· ∈ s.user) := h.mem.touch (by rw [hlive]; decide)
    dsimp only
    have e0 : (touch s k).tok = s.tok := rfl
    rw [e0]
    by_cases h1 : pt.numDestinations = 1 ∧ (s.tok k).rc = 1
    · rw [if_pos h1]; exact Or.inl ⟨h1.1, h1.2, rfl⟩
    · rw [if_neg h1]
      by_cases h2 : pt.hasCopyConstructor = false ∧ pt.elementSize * (s.tok k).len = 0
      · rw [if_pos h2]; exact Or.inr (Or.inl ⟨h2.1, h2.2, rfl⟩)
      · rw [if_neg h2]
        right; right
        intro p hp
        have hpay := h.mem.alloc k p hp
        obtain ⟨c, hc⟩ : ∃ c, s.pay p = some c := Option.ne_none_iff_exists'.mp hpay
        have e1 : readPayload (touch s k) k = (touch s k, c) := by
          have : ((touch s k).tok k).val.bind (touch s k).pay = some c := by
            show (s.tok k).val.bind s.pay = some c
            rw [hp]; exact hc
          unfold readPayload; rw [this]
        unfold makeCopy
        rw [e1]
        dsimp only
        have hi : Inv (touch s k) L := ⟨h.chain, htm, h.userRc, h.userNodup, h.nodup⟩
        have hm := htm.allocPay c
        have hval : ∀ q, some (allocPay (touch s k) c).2 = some q →
            (allocPay (touch s k) c).1.pay q ≠ none ∧ ∀ j, ((allocPay (touch s k) c).1.tok j).val ≠ some q := by
          intro q hq
          simp only [Option.some.injEq] at hq; subst hq
          exact freshPay_facts hi c
        obtain ⟨s1, k', a1, a2, a3, a4, a5, a6, a7, a8, a9, a10, a11⟩ :=
          newCounted hm pick (some (allocPay (touch s k) c).2) ((allocPay (touch s k) c).1.tok k).len 1 hval
        rw [a1, a2]
        have hk' : (s.tok k').st ≠ .live := a3
        have hz : hold s L k' = 0 := by
          by_contra hx; exact hk' (h.mem.live k' (by omega))
        have hL : k' ∉ L := fun hx => by have := hold_pos_copies (s := s) hx; omega
        refine ⟨_, k', rfl, hk', ?_, ?_, a7, a8, a10, ?_, ?_⟩
        · simp only [a4]; rfl
        · simp only [a5, hc]; rfl
        · refine .cons ?_
          simp only [upd_same]
          -- the rest of the chain is untouched
          have hch : Chain s1.nxt s1.copies L := by
            rw [a9]
            exact a6 L (fun j hj => h.mem.live j (hold_pos_copies hj)) _ h.chain
          exact hch.frame fun j hj => by
            have : j ≠ k' := fun hx => hL (by rw [← hx]; exact hj)
            simp [upd_other _ _ this]
        · have hm1 : Mem s1 (fun j => hold s L j + if j = k' then 1 else 0) (· ∈ s.user) := by
            refine a11 _ ?_ ?_
            · simp only [if_true]; omega
            · intro j hj; simp [hj]
          have hm2 := Mem.congr (s' := { s1 with nxt := upd s1.nxt k' s1.copies, copies := some k' }) hm1 rfl rfl rfl rfl rfl rfl
          refine hm2.weaken ?_ (fun _ hj => hj)
          intro j
          have e7 : s1.tmpl = s.tmpl := a7
          have e8 : s1.queue = s.queue := a8
          simp only [hold, e7, e8, List.count_cons, beq_iff_eq]
          by_cases hj : j = k'
          · rw [if_pos hj, if_pos hj.symm]; omega
          · rw [if_neg hj, if_neg (fun hx => hj hx.symm)]; omega

theorem good_writableCopy {s : State} {L : List Nat} (h : Inv s L) (t pick : Nat) (pt : PortType)
    (hv : ∀ k, tmplTok s t = some k → (s.tok k).val ≠ none) :
    ∃ L', Good s L (fun j => 0 < hold s L j) L' (writableCopy s t pick pt).1 := by
  have htouch : ∀ k, tmplTok s t = some k → Good s L (fun j => 0 < hold s L j) L (touch s k) := by
    intro k hk
    have hlive := h.mem.live k (hold_pos_tmpl hk)
    exact ⟨⟨h.chain, h.mem.touch (by rw [hlive]; decide), h.userRc, h.userNodup, h.nodup⟩,
      fun j _ => Keep.of_eq rfl rfl rfl⟩
  rcases writableCopy_spec h t pick pt with ⟨_, e⟩ | ⟨k, hk, ⟨_, _, e⟩ | ⟨_, _, e⟩ | hcopy⟩
  · rw [e]; exact ⟨L, h, fun j _ => Keep.refl s j⟩
  · rw [e]; exact ⟨L, htouch k hk⟩
  · rw [e]; exact ⟨L, htouch k hk⟩
  · obtain ⟨p, hp⟩ := Option.ne_none_iff_exists'.mp (hv k hk)
    obtain ⟨s', k', e, a1, a2, a3, a4, a5, a6, a7, a8⟩ := hcopy p hp
    rw [e]
    have ho : ∀ j, j ≠ k' → s'.tok j = s.tok j := fun j hj => by rw [a2, upd_other _ _ hj]
    have hz : hold s L k' = 0 := by
      by_contra hx; exact a1 (h.mem.live k' (by omega))
    refine ⟨k' :: L, ⟨a7, ?_, ?_, ?_, ?_⟩, ?_⟩
    · exact a8.weaken (fun _ => Nat.le_refl _) (fun j hj => by simp only [a6] at hj; exact hj)
    · intro j hj
      simp only [a6] at hj
      have hjk : j ≠ k' := by rintro rfl; exact a1 (h.mem.uncounted j hj)
      simp only [ho j hjk]; exact h.userRc j hj
    · simp only [a6]; exact h.userNodup
    · refine List.nodup_cons.mpr ⟨fun hx => ?_, h.nodup⟩
      have := hold_pos_copies (s := s) hx; omega
    · intro j hj
      have hjk : j ≠ k' := by rintro rfl; omega
      refine ⟨by simp only [ho j hjk], by simp only [ho j hjk], fun q hq => ?_⟩
      have hqn : q ≠ s.nPay := by
        rintro rfl; exact h.mem.alloc j _ hq (h.mem.freshPay _ (Nat.le_refl _))
      simp only [a3, upd_other _ _ hqn]

/-- One round of releasing copies, with room in the bin. -/
theorem freeCopies_step {s : State} {k : Nat} {L : List Nat} (h : Inv s (k :: L)) (hb : s.bin.length < binLimit) :
    s.copies = some k ∧ ∃ s1, ({ touch (doneUsing s k) k with copies := (touch (doneUsing s k) k).nxt k } : State) = s1 ∧
      Inv s1 L ∧ s1.bin.length ≤ s.bin.length + 1 := by
  obtain ⟨hcp, hch⟩ : s.copies = some k ∧ Chain s.nxt (s.nxt k) L := by
    have := h.chain
    cases hcp : s.copies with
    | none => rw [hcp] at this; cases this
    | some k' =>
      rw [hcp] at this
      cases this with
      | cons hx => exact ⟨rfl, hx⟩
  have hpos : 0 < hold s (k :: L) k := hold_pos_copies (by simp)
  have hlive := h.mem.live k hpos
  have hm := h.mem.doneUsing hpos (h.not_user hpos)
  have hsame := doneUsing_same s k
  have hnf := doneUsing_not_freed s k hb (by rw [hlive]; decide)
  have hnk := List.nodup_cons.mp h.nodup
  refine ⟨hcp, _, rfl, ⟨?_, ?_, ?_, ?_, hnk.2⟩, doneUsing_binlen s k⟩
  · show Chain (doneUsing s k).nxt ((doneUsing s k).nxt k) L
    rw [hsame.nxt]; exact hch
  · have hm1 := hm.touch (k := k) hnf
    have hm2 := Mem.congr (s' := { touch (doneUsing s k) k with copies := (touch (doneUsing s k) k).nxt k })
      hm1 rfl rfl rfl rfl rfl rfl
    refine hm2.weaken ?_ ?_
    · intro j
      have e1 : (doneUsing s k).tmpl = s.tmpl := hsame.tmpl
      have e2 : (doneUsing s k).queue = s.queue := hsame.queue
      simp only [hold, touch, e1, e2, dec, List.count_cons, beq_iff_eq]
      by_cases hj : j = k
      · rw [if_pos hj, if_pos hj.symm]; omega
      · rw [if_neg hj, if_neg (fun hx => hj hx.symm)]; omega
    · intro j hj
      have : (touch (doneUsing s k) k).user = s.user := hsame.user
      simp only [this] at hj; exact hj
  · intro j hj
    have : (touch (doneUsing s k) k).user = s.user := hsame.user
    simp only [this] at hj
    have hjk : j ≠ k := by rintro rfl; exact h.not_user hpos hj
    show ((doneUsing s k).tok j).rc = 0
    rw [doneUsing_other _ _ _ hjk]; exact h.userRc j hj
  · show (doneUsing s k).user.Nodup
    rw [hsame.user]; exact h.userNodup

/-- Releasing the copies of a tag. -/
theorem freeCopies_spec (L : List Nat) : ∀ (s : State) (fuel : Nat), Inv s L → L.length < fuel →
    s.bin.length + L.length ≤ binLimit →
    ∃ s', freeCopies fuel s = s' ∧ Inv s' [] ∧ s'.copies = none ∧ s'.tmpl = s.tmpl ∧ s'.queue = s.queue ∧
      s'.user = s.user ∧ ∀ j, L.count j < hold s L j → Keep s s' j := by
  induction L with
  | nil =>
    intro s fuel h hf _
    cases fuel with
    | zero => simp at hf
    | succ fuel =>
      have hc : s.copies = none := by have := h.chain; cases hcp : s.copies with
        | none => rfl
        | some k => rw [hcp] at this; cases this
      refine ⟨s, ?_, h, hc, rfl, rfl, rfl, fun j _ => Keep.refl s j⟩
      unfold freeCopies; simp only [hc]
  | cons k L ih =>
    intro s fuel h hf hb
    cases fuel with
    | zero => simp at hf
    | succ fuel =>
      obtain ⟨hcp, hch⟩ : s.copies = some k ∧ Chain s.nxt (s.nxt k) L := by
        have := h.chain
        cases hcp : s.copies with
        | none => rw [hcp] at this; cases this
        | some k' =>
          rw [hcp] at this
          cases this with
          | cons hx => exact ⟨rfl, hx⟩
      have hpos : 0 < hold s (k :: L) k := hold_pos_copies (by simp)
      have hlive := h.mem.live k hpos
      have hm := h.mem.doneUsing hpos (h.not_user hpos)
      have hsame := doneUsing_same s k
      simp only [List.length_cons] at hf hb
      have hnf := doneUsing_not_freed s k (by omega) (by rw [hlive]; decide)
      have hnk := List.nodup_cons.mp h.nodup
      have h1 : Inv { touch (doneUsing s k) k with copies := (touch (doneUsing s k) k).nxt k } L := by
        refine ⟨?_, ?_, ?_, ?_, hnk.2⟩
        · show Chain (doneUsing s k).nxt ((doneUsing s k).nxt k) L
          rw [hsame.nxt]; exact hch
        · have hm1 := hm.touch (k := k) hnf
          have hm2 := Mem.congr (s' := { touch (doneUsing s k) k with copies := (touch (doneUsing s k) k).nxt k })
            hm1 rfl rfl rfl rfl rfl rfl
          refine hm2.weaken ?_ ?_
          · intro j
            have e1 : (doneUsing s k).tmpl = s.tmpl := hsame.tmpl
            have e2 : (doneUsing s k).queue = s.queue := hsame.queue
            simp only [hold, touch, e1, e2, dec, List.count_cons, beq_iff_eq]
            by_cases hj : j = k
            · rw [if_pos hj, if_pos hj.symm]; omega
            · rw [if_neg hj, if_neg (fun hx => hj hx.symm)]; omega
          · intro j hj
            have : (touch (doneUsing s k) k).user = s.user := hsame.user
            simp only [this] at hj; exact hj
        · intro j hj
          have : (touch (doneUsing s k) k).user = s.user := hsame.user
          simp only [this] at hj
          have hjk : j ≠ k := by rintro rfl; exact h.not_user hpos hj
          show ((doneUsing s k).tok j).rc = 0
          rw [doneUsing_other _ _ _ hjk]; exact h.userRc j hj
        · show (doneUsing s k).user.Nodup
          rw [hsame.user]; exact h.userNodup
      obtain ⟨s', e, i1, i2, i3, i4, i5, i6⟩ := ih _ fuel h1 (by omega) (by
        have := doneUsing_binlen s k
        show (doneUsing s k).bin.length + L.length ≤ binLimit
        omega)
      refine ⟨s', ?_, i1, i2, i3.trans hsame.tmpl, i4.trans hsame.queue, i5.trans hsame.user, ?_⟩
      · rw [← e]
        conv => lhs; unfold freeCopies
        simp only [hcp]
      · intro j hj
        have e1 : (doneUsing s k).tmpl = s.tmpl := hsame.tmpl
        have e2 : (doneUsing s k).queue = s.queue := hsame.queue
        have k1 : Keep s (doneUsing s k) j := by
          refine keep_doneUsing h.mem ?_
          by_cases hjk : j = k
          · right; subst hjk
            have := h.mem.count j
            simp only [List.count_cons_self] at hj
            omega
          · exact Or.inl hjk
        have k2 : Keep (doneUsing s k) { touch (doneUsing s k) k with copies := (touch (doneUsing s k) k).nxt k } j :=
          Keep.of_eq rfl rfl rfl
        refine (k1.trans k2).trans (i6 j ?_)
        simp only [hold, touch, e1, e2, List.count_cons] at hj ⊢
        omega

theorem Inv.length_le {s : State} {L : List Nat} (h : Inv s L) : L.length ≤ s.nTok := by
  have hsub : L ⊆ List.range s.nTok := by
    intro j hj
    rw [List.mem_range]
    by_contra hx
    have h1 := h.mem.live j (hold_pos_copies hj)
    rw [h.mem.freshTok j (by omega)] at h1
    cases h1
  have := (List.subperm_of_subset h.nodup hsub).length_le
  simpa using this

theorem good_newTag {s : State} {L : List Nat} (h : Inv s L) (hb : s.bin.length + L.length ≤ binLimit) :
    Good s L (fun j => L.count j < hold s L j) [] (freeCopies (s.nTok + 1) s) := by
  obtain ⟨s', e, i1, i2, i3, i4, i5, i6⟩ := freeCopies_spec L s (s.nTok + 1) h (by have := h.length_le; omega) hb
  rw [e]
  exact ⟨i1, i6⟩

/-- The template an operation gives a new token. -/
def target : Op → Option Nat
  | .initTemplate t _ | .setToken t _ | .set t _ _ _ | .scheduleValue t _ _ _ _ | .popEvent t _ | .popNull t => some t
  | _ => none

/-- Token `k` has a reference that operation `o` does not concern. -/
theorem good_exec {s : State} {L : List Nat} (h : Inv s L) (o : Op) (ha : Allowed s o) (hb : BinHasRoom s o) :
    ∃ L', Good s L (fun j => j ∈ s.queue ∨ ∃ t, target o ≠ some t ∧ tmplTok s t = some j) L' (exec s o) ∧
      ((∀ t pick pt, o ≠ .writableCopy t pick pt) → o ≠ .newTag → L' = L) := by
  have toExt : ∀ t j, t < s.tmpl.length → target o = some t →
      (j ∈ s.queue ∨ ∃ t, target o ≠ some t ∧ tmplTok s t = some j) → Ext s L t j := by
    intro t j ht hto hj
    rcases hj with hj | ⟨t', ht', hj⟩
    · exact ext_queue hj
    · exact ext_tmpl ht (by rintro rfl; exact ht' hto) hj
  have toHold : ∀ j, (j ∈ s.queue ∨ ∃ t, target o ≠ some t ∧ tmplTok s t = some j) → 0 < hold s L j := by
    intro j hj
    rcases hj with hj | ⟨t', ht', hj⟩
    · exact hold_pos_queue hj
    · exact hold_pos_tmpl hj
  have wk : ∀ {e : Nat → Prop} {s' : State}, Good s L e L s' →
      (∀ j, (j ∈ s.queue ∨ ∃ t, target o ≠ some t ∧ tmplTok s t = some j) → e j) →
      ∃ L', Good s L (fun j => j ∈ s.queue ∨ ∃ t, target o ≠ some t ∧ tmplTok s t = some j) L' s' ∧
        ((∀ t pick pt, o ≠ .writableCopy t pick pt) → o ≠ .newTag → L' = L) :=
    fun g hs => ⟨L, ⟨g.inv, fun j hj => g.keep j (hs j hj)⟩, fun _ _ => rfl⟩
  cases o with
  | initTemplate t pick => exact wk (good_initTemplate h t pick ha) fun j => toExt t j ha rfl
  | newToken pick c len => exact wk (good_newToken h pick c len) toHold
  | setToken t k => exact wk (good_setToken h ha.1 ha.2) fun j => toExt t j ha.1 rfl
  | set t pick c len => exact wk (good_set h ha pick c len) fun j => toExt t j ha rfl
  | scheduleToken k q => exact wk (good_scheduleToken h ha q) toHold
  | scheduleValue t pick c len q => exact wk (good_scheduleValue h pick c len q) fun j => toExt t j ha rfl
  | popEvent t k => exact wk (good_popEvent h ha.1 ha.2) fun j => toExt t j ha.1 rfl
  | popNull t => exact wk (good_popNull h ha) fun j => toExt t j ha rfl
  | writableCopy t pick pt =>
    obtain ⟨L', g⟩ := good_writableCopy h t pick pt ha.2
    exact ⟨L', ⟨g.inv, fun j hj => g.keep j (toHold j hj)⟩, fun hx => absurd rfl (hx t pick pt)⟩
  | newTag =>
    have g := good_newTag h (hb L h.chain)
    refine ⟨[], ⟨g.inv, fun j hj => g.keep j ?_⟩, fun _ hx => absurd rfl hx⟩
    rcases hj with hj | ⟨t', ht', hj⟩
    · have := List.count_pos_iff.mpr hj
      simp only [hold]; omega
    · have := List.count_pos_iff.mpr (tmplTok_mem hj)
      simp only [hold]; omega

theorem run_inv {s : State} {L : List Nat} (h : Inv s L) (ops : List Op) (hf : Follows BinHasRoom s ops) :
    ∃ L', Inv (run s ops) L' := by
  induction ops generalizing s L with
  | nil => exact ⟨L, h⟩
  | cons o os ih =>
    obtain ⟨ha, hb, hr⟩ := hf
    obtain ⟨L', g, _⟩ := good_exec h o ha hb
    exact ih g.inv hr

end ReactorC.Token
