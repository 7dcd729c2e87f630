import Verif.Token.Steps

/-! # Nothing is leaked when messages are not overwritten while shared -/

namespace ReactorC.Token

/-- No token has more counted references than `H`, a token in use without counted reference is in `U`,
and every payload belongs to a token, except possibly `e`. -/
structure Tight (s : State) (H : Nat → Nat) (U : Nat → Prop) (e : Option Nat) : Prop where
  up : ∀ k, (s.tok k).st = .live → (s.tok k).rc ≤ H k
  zero : ∀ k, (s.tok k).st = .live → (s.tok k).rc = 0 → U k
  own : ∀ p, s.pay p ≠ none → some p = e ∨ ∃ k, (s.tok k).val = some p

theorem Tight.congr {s s' : State} {H : Nat → Nat} {U : Nat → Prop} {e : Option Nat} (h : Tight s H U e)
    (h1 : s'.tok = s.tok) (h2 : s'.pay = s.pay) : Tight s' H U e := by
  obtain ⟨a, b, c⟩ := h
  exact ⟨by rw [h1]; exact a, by rw [h1]; exact b, by rw [h1, h2]; exact c⟩

theorem Tight.weaken {s : State} {H H' : Nat → Nat} {U U' : Nat → Prop} {e : Option Nat} (h : Tight s H U e)
    (hH : ∀ k, H k ≤ H' k) (hU : ∀ k, (s.tok k).st = .live → (s.tok k).rc = 0 → U k → U' k) : Tight s H' U' e :=
  ⟨fun k hk => Nat.le_trans (h.up k hk) (hH k), fun k hk hr => hU k hk hr (h.zero k hk hr), h.own⟩

theorem doneUsing_lastPay (s : State) (k : Nat) (h : (s.tok k).rc = 1) :
    ((doneUsing s k).tok k).st ≠ .live ∧ ∀ p, (s.tok k).val = some p → (doneUsing s k).pay p = none := by
  unfold doneUsing
  have e0 : (touch s k).tok = s.tok := rfl
  dsimp only
  rw [e0, if_neg (by omega)]
  generalize hs1 : ({ touch s k with tok := upd s.tok k { s.tok k with rc := (s.tok k).rc - 1 } } : State) = s1
  have hr : (s1.tok k).rc = 0 := by rw [← hs1]; simp [upd_same, h]
  have hv : (s1.tok k).val = (s.tok k).val := by rw [← hs1]; simp [upd_same]
  have hp : ∀ p, (s.tok k).val = some p → (freeValue s1 k).pay p = none := by
    intro p hx
    unfold freeValue
    rw [hv, hx]; simp [upd_same]
  unfold freeToken
  rw [if_neg (by omega)]
  dsimp only
  split
  · exact ⟨by simp [upd_same], hp⟩
  · exact ⟨by simp [upd_same], hp⟩

theorem Tight.doneUsing {s : State} {H : Nat → Nat} {U : Nat → Prop} {e : Option Nat} (h : Tight s H U e) {k : Nat}
    (hk : 0 < (s.tok k).rc) : Tight (doneUsing s k) (dec H k) U e := by
  have ho := fun j hj => doneUsing_other s k j hj
  by_cases h2 : 2 ≤ (s.tok k).rc
  · obtain ⟨a, b, _⟩ := doneUsing_keep s k h2
    refine ⟨?_, ?_, ?_⟩
    · intro j hj
      by_cases hjk : j = k
      · subst hjk
        have := h.up j (by rw [a] at hj; exact hj)
        rw [a]; simp only [dec, if_true]; omega
      · rw [ho j hjk] at hj ⊢; simp only [dec, hjk, if_false]; exact h.up j hj
    · intro j hj hr
      by_cases hjk : j = k
      · subst hjk; rw [a] at hr; simp only at hr; omega
      · rw [ho j hjk] at hj hr; exact h.zero j hj hr
    · intro p hp
      rw [b] at hp
      rcases h.own p hp with he | ⟨j, hj⟩
      · exact Or.inl he
      · refine Or.inr ⟨j, ?_⟩
        by_cases hjk : j = k
        · subst hjk; rw [a]; exact hj
        · rw [ho j hjk]; exact hj
  · obtain ⟨a, b⟩ := doneUsing_lastPay s k (by omega)
    refine ⟨?_, ?_, ?_⟩
    · intro j hj
      by_cases hjk : j = k
      · subst hjk; exact absurd hj a
      · rw [ho j hjk] at hj ⊢; simp only [dec, hjk, if_false]; exact h.up j hj
    · intro j hj hr
      by_cases hjk : j = k
      · subst hjk; exact absurd hj a
      · rw [ho j hjk] at hj hr; exact h.zero j hj hr
    · intro p hp
      have hne : (s.tok k).val ≠ some p := fun hx => hp (b p hx)
      rw [doneUsing_pay s k p hne] at hp
      rcases h.own p hp with he | ⟨j, hj⟩
      · exact Or.inl he
      · refine Or.inr ⟨j, ?_⟩
        have hjk : j ≠ k := by rintro rfl; exact hne hj
        rw [ho j hjk]; exact hj

theorem Tight.incRef {s : State} {H : Nat → Nat} {U U' : Nat → Prop} {e : Option Nat} (h : Tight s H U e) (k : Nat)
    (hU : ∀ j, U j → j ≠ k → U' j) : Tight (incRef s k) (inc H k) U' e := by
  have hi : ∀ j, j ≠ k → (Token.incRef s k).tok j = s.tok j := fun j hj => upd_other _ _ hj
  have hn : (Token.incRef s k).tok k = { s.tok k with rc := (s.tok k).rc + 1 } := by
    simp only [Token.incRef, Token.setRc, touch, upd_same]
  refine ⟨?_, ?_, ?_⟩
  · intro j hj
    by_cases hjk : j = k
    · subst hjk; rw [hn] at hj ⊢; have := h.up j hj; simp only [inc, if_true]; omega
    · rw [hi j hjk] at hj ⊢; simp only [inc, hjk, if_false]; exact h.up j hj
  · intro j hj hr
    by_cases hjk : j = k
    · subst hjk; rw [hn] at hr; simp only at hr; omega
    · rw [hi j hjk] at hj hr; exact hU j (h.zero j hj hr) hjk
  · intro p hp
    rcases h.own p hp with he | ⟨j, hj⟩
    · exact Or.inl he
    · refine Or.inr ⟨j, ?_⟩
      by_cases hjk : j = k
      · subst hjk; rw [hn]; exact hj
      · rw [hi j hjk]; exact hj

/-- A token comes into use. -/
theorem Tight.fresh {s s' : State} {H H' : Nat → Nat} {U U' : Nat → Prop} {e e' : Option Nat} (h : Tight s H U e)
    {k n len : Nat} {val : Option Nat} (h1 : s'.tok = upd s.tok k ⟨.live, n, val, len⟩) (h2 : s'.pay = s.pay)
    (h3 : (s.tok k).val = none) (hn : n ≤ H' k) (hz : n = 0 → U' k) (hH : ∀ j, j ≠ k → H j ≤ H' j)
    (hU : ∀ j, U j → U' j) (he : ∀ p, e = some p → e' = some p ∨ val = some p) : Tight s' H' U' e' := by
  have ho : ∀ j, j ≠ k → s'.tok j = s.tok j := fun j hj => by rw [h1, upd_other _ _ hj]
  have hk : s'.tok k = ⟨.live, n, val, len⟩ := by rw [h1, upd_same]
  refine ⟨?_, ?_, ?_⟩
  · intro j hj
    by_cases hjk : j = k
    · subst hjk; rw [hk]; exact hn
    · rw [ho j hjk] at hj ⊢; exact Nat.le_trans (h.up j hj) (hH j hjk)
  · intro j hj hr
    by_cases hjk : j = k
    · subst hjk; rw [hk] at hr; exact hz hr
    · rw [ho j hjk] at hj hr; exact hU j (h.zero j hj hr)
  · intro p hp
    rw [h2] at hp
    rcases h.own p hp with hx | ⟨j, hj⟩
    · rcases he p hx.symm with hy | hy
      · exact Or.inl hy.symm
      · exact Or.inr ⟨k, by rw [hk]; exact hy⟩
    · refine Or.inr ⟨j, ?_⟩
      have hjk : j ≠ k := by rintro rfl; rw [h3] at hj; cases hj
      rw [ho j hjk]; exact hj

theorem Tight.freeValue {s : State} {H : Nat → Nat} {U : Nat → Prop} {e : Option Nat} (h : Tight s H U e) (k : Nat) :
    Tight (freeValue s k) H U e := by
  have hf := freeValue_tok s k
  refine ⟨?_, ?_, ?_⟩
  · intro j hj; rw [(hf j).1] at hj; rw [(hf j).2.1]; exact h.up j hj
  · intro j hj hr; rw [(hf j).1] at hj; rw [(hf j).2.1] at hr; exact h.zero j hj hr
  · intro p hp
    have hne : (s.tok k).val ≠ some p := by
      intro hx; apply hp
      unfold Token.freeValue; rw [hx]; simp [upd_same]
    rw [freeValue_pay s k p hne] at hp
    rcases h.own p hp with hx | ⟨j, hj⟩
    · exact Or.inl hx
    · refine Or.inr ⟨j, ?_⟩
      have hjk : j ≠ k := by rintro rfl; exact hne hj
      rw [(hf j).2.2.2, if_neg hjk]; exact hj

theorem Tight.setVal {s s' : State} {H : Nat → Nat} {U : Nat → Prop} {k p len : Nat} (h : Tight s H U (some p))
    (hv : (s.tok k).val = none) (h1 : s'.tok = upd s.tok k { s.tok k with val := some p, len := len })
    (h2 : s'.pay = s.pay) : Tight s' H U none := by
  have ho : ∀ j, j ≠ k → s'.tok j = s.tok j := fun j hj => by rw [h1, upd_other _ _ hj]
  have hk : s'.tok k = { s.tok k with val := some p, len := len } := by rw [h1, upd_same]
  refine ⟨?_, ?_, ?_⟩
  · intro j hj
    by_cases hjk : j = k
    · subst hjk; rw [hk] at hj ⊢; exact h.up j hj
    · rw [ho j hjk] at hj ⊢; exact h.up j hj
  · intro j hj hr
    by_cases hjk : j = k
    · subst hjk; rw [hk] at hj hr; exact h.zero j hj hr
    · rw [ho j hjk] at hj hr; exact h.zero j hj hr
  · intro q hq
    rw [h2] at hq
    rcases h.own q hq with hx | ⟨j, hj⟩
    · exact Or.inr ⟨k, by rw [hk]; exact hx.symm⟩
    · refine Or.inr ⟨j, ?_⟩
      have hjk : j ≠ k := by rintro rfl; rw [hv] at hj; cases hj
      rw [ho j hjk]; exact hj

theorem Tight.allocPay {s : State} {H : Nat → Nat} {U : Nat → Prop} (h : Tight s H U none) (c : Nat) :
    Tight (allocPay s c).1 H U (some (allocPay s c).2) := by
  refine ⟨h.up, h.zero, ?_⟩
  intro p hp
  by_cases hpn : p = s.nPay
  · left; subst hpn; rfl
  · simp only [Token.allocPay, upd_other _ _ hpn] at hp
    rcases h.own p hp with hx | hx
    · cases hx
    · exact Or.inr hx

def TInv (s : State) (L : List Nat) : Prop := Tight s (hold s L) (· ∈ s.user) none

theorem tight_start (n : Nat) : TInv (start n) [] :=
  ⟨by simp [start], by simp [start], by simp [start]⟩

theorem Inv.dead_val {s : State} {L : List Nat} (h : Inv s L) {k : Nat} (hk : (s.tok k).st ≠ .live) :
    (s.tok k).val = none := (h.mem.dead k hk).1

/-- Replacing the token of a template. -/
theorem tight_replace {s : State} {L : List Nat} (h : Inv s L) (hT : TInv s L) {t : Nat} (ht : t < s.tmpl.length)
    (new : Option Nat) (U' : Nat → Prop) (hU : ∀ j ∈ s.user, new ≠ some j → U' j) :
    Tight (replaceTemplate s t new) (hold (replaceTemplate s t new) L) U' none := by
  unfold replaceTemplate
  by_cases heq : tmplTok s t = new
  · rw [if_pos heq]
    refine hT.weaken (fun _ => Nat.le_refl _) ?_
    intro j _ _ hj
    refine hU j hj ?_
    intro hx
    rw [← heq] at hx
    exact h.not_user (hold_pos_tmpl hx) hj
  · rw [if_neg heq]
    dsimp only
    obtain ⟨s1, hs1, hsame, ht1⟩ : ∃ s1, s1 = releaseOpt s (tmplTok s t) ∧ SameHolders s s1 ∧
        Tight s1 (fun j => hold s L j - if tmplTok s t = some j then 1 else 0) (· ∈ s.user) none := by
      refine ⟨_, rfl, ?_⟩
      cases ho : tmplTok s t with
      | none => exact ⟨SameHolders.refl s, hT.weaken (fun k => by simp) (fun _ _ _ hk => hk)⟩
      | some old =>
        have hpos : 0 < hold s L old := hold_pos_tmpl ho
        have hrc : 0 < (s.tok old).rc := Nat.lt_of_lt_of_le hpos (h.mem.count old)
        refine ⟨doneUsing_same s old, (Tight.doneUsing hT hrc).weaken ?_ (fun _ _ _ hk => hk)⟩
        intro k
        simp only [dec, Option.some.injEq]
        by_cases hk : k = old
        · simp [hk]
        · have : ¬ old = k := fun h => hk h.symm
          simp [hk, this]
    rw [← hs1]
    have fin : ∀ s2 : State, s2.tmpl = s.tmpl → s2.queue = s.queue →
        Tight s2 (fun j => (hold s L j - if tmplTok s t = some j then 1 else 0) + if new = some j then 1 else 0) U' none →
        Tight { s2 with tmpl := s2.tmpl.set t new } (hold { s2 with tmpl := s2.tmpl.set t new } L) U' none := by
      intro s2 e1 e2 hx
      have hx' : Tight { s2 with tmpl := s2.tmpl.set t new } _ U' none := hx.congr rfl rfl
      refine hx'.weaken ?_ (fun _ _ _ hk => hk)
      intro k
      have hc := tmpl_count_set s t ht new k
      have hp : tmplTok s t = some k → 0 < s.tmpl.count (some k) := fun hx => List.count_pos_iff.mpr (tmplTok_mem hx)
      simp only [hold, e1, e2]
      by_cases ha : tmplTok s t = some k
      · have := hp ha
        simp only [ha, if_true] at hc ⊢; omega
      · simp only [ha, if_false] at hc ⊢; omega
    cases new with
    | none =>
      exact fin s1 hsame.tmpl hsame.queue (ht1.weaken (fun k => by simp) (fun j _ _ hj => hU j hj (by simp)))
    | some k =>
      refine fin (incRef s1 k) hsame.tmpl hsame.queue ?_
      refine (ht1.incRef (U' := U') k ?_).weaken ?_ (fun _ _ _ hk => hk)
      · intro j hj hjk; exact hU j hj (by simpa using fun hx => hjk hx.symm)
      · intro j
        simp only [inc, Option.some.injEq]
        by_cases hj : j = k
        · simp [hj]
        · have : ¬ k = j := fun h => hj h.symm
          simp [hj, this]

theorem tight_initTemplate {s : State} {L : List Nat} (h : Inv s L) (hT : TInv s L) (t pick : Nat)
    (ht : t < s.tmpl.length) : TInv (initTemplate s t pick) L := by
  have fresh : ∀ s0 : State, SameHolders s s0 →
      Mem s0 (fun j => hold s L j - if tmplTok s t = some j then 1 else 0) (· ∈ s.user) →
      Tight s0 (fun j => hold s L j - if tmplTok s t = some j then 1 else 0) (· ∈ s.user) none →
      TInv { setRc (newToken s0 pick none 0).1 (newToken s0 pick none 0).2 1 with
          tmpl := s0.tmpl.set t (some (newToken s0 pick none 0).2) } L := by
    intro s0 hsame hm hx
    obtain ⟨s1, k, a1, a2, a3, a4, a5, a6, a7, a8, a9, a10, a11⟩ := newCounted hm pick none 0 1 (by simp)
    rw [a1, a2]
    unfold TInv
    have hb : ∀ j, hold { s1 with tmpl := s0.tmpl.set t (some k) } L j + (if tmplTok s t = some j then 1 else 0) =
        hold s L j + (if k = j then 1 else 0) := by
      intro j
      have hc := tmpl_count_set s t ht (some k) j
      simp only [Option.some.injEq] at hc
      simp only [hold, a8, hsame.queue, hsame.tmpl]; omega
    refine hx.fresh (s' := { s1 with tmpl := s0.tmpl.set t (some k) }) a4 a5 (hm.dead k a3).1 ?_ (by omega) ?_ ?_ (by simp)
    · have := hb k
      simp only [if_true] at this
      have hp : tmplTok s t = some k → 0 < hold s L k := fun hx => hold_pos_tmpl hx
      by_cases ha : tmplTok s t = some k
      · have := hp ha; simp only [ha, if_true] at *; omega
      · simp only [ha, if_false] at *; omega
    · intro j hj
      have := hb j
      have hkj : ¬ k = j := fun hx => hj hx.symm
      simp only [hkj, if_false] at this
      by_cases ha : tmplTok s t = some j
      · simp only [ha, if_true] at *; omega
      · simp only [ha, if_false] at *; omega
    · intro j hj; simp only [a10, hsame.user]; exact hj
  unfold initTemplate
  cases htt : tmplTok s t with
  | none =>
    exact fresh s (SameHolders.refl s) (h.mem.weaken (by intro j; simp) (fun _ hk => hk))
      (hT.weaken (by intro j; simp [htt]) (fun _ _ _ hk => hk))
  | some k =>
    have hpos : 0 < hold s L k := hold_pos_tmpl htt
    have hlive := h.mem.live k hpos
    have htm : Mem (touch s k) (hold s L) (· ∈ s.user) := h.mem.touch (by rw [hlive]; decide)
    have hTt : Tight (touch s k) (hold s L) (· ∈ s.user) none := hT.congr rfl rfl
    dsimp only
    have e0 : (touch s k).tok = s.tok := rfl
    rw [e0]
    by_cases hrc : (s.tok k).rc = 1
    · rw [if_pos hrc]
      have hsame := freeValue_same (touch s k) k
      have hx := hTt.freeValue k
      have hr1 : ((freeValue (touch s k) k).tok k).rc = 1 := by rw [(freeValue_tok _ k k).2.1]; exact hrc
      have he : (setRc (freeValue (touch s k) k) k 1).tok = (freeValue (touch s k) k).tok := by
        funext j
        simp only [setRc]
        by_cases hj : j = k
        · subst hj; rw [upd_same, ← hr1]
        · rw [upd_other _ _ hj]
      unfold TInv
      have hx' : Tight (setRc (freeValue (touch s k) k) k 1) (hold s L) (· ∈ s.user) none := hx.congr he rfl
      refine hx'.weaken ?_ ?_
      · intro j; simp only [hold, setRc, hsame.tmpl, hsame.queue]; exact Nat.le_refl _
      · intro j _ _ hj
        show j ∈ (freeValue (touch s k) k).user
        rw [hsame.user]; exact hj
    · rw [if_neg hrc]
      have hsame := doneUsing_same (touch s k) k
      have hrp : 0 < ((touch s k).tok k).rc := Nat.lt_of_lt_of_le hpos (h.mem.count k)
      refine fresh (doneUsing (touch s k) k)
        (SameHolders.trans (SameHolders.refl s) ⟨hsame.tmpl, hsame.queue, hsame.copies, hsame.nxt, hsame.user⟩) ?_ ?_
      · refine (htm.doneUsing hpos (h.not_user hpos)).weaken ?_ (fun _ hk => hk)
        intro j
        simp only [dec, htt, Option.some.injEq]
        by_cases hjk : j = k
        · simp [hjk]
        · have : ¬ k = j := fun hx => hjk hx.symm
          simp [hjk, this]
      · refine (hTt.doneUsing hrp).weaken ?_ (fun _ _ _ hk => hk)
        intro j
        simp only [dec, htt, Option.some.injEq]
        by_cases hjk : j = k
        · simp [hjk]
        · have : ¬ k = j := fun hx => hjk hx.symm
          simp [hjk, this]

theorem tight_newToken {s : State} {L : List Nat} (h : Inv s L) (hT : TInv s L) (pick c len : Nat) :
    TInv (apiNewToken s pick c len) L := by
  obtain ⟨k, b1, b2, b3, b4, b5, b6, b7, b8, b9, b10, b11, b12⟩ :=
    newToken_spec (h.mem.allocPay c) pick (some (allocPay s c).2) len (by
      intro p hp
      simp only [Option.some.injEq] at hp; subst hp
      exact freshPay_facts h c)
  unfold apiNewToken
  dsimp only
  rw [b1]
  have hx := hT.allocPay c
  unfold TInv
  refine hx.fresh (k := k) (n := 0) (val := some (allocPay s c).2) (len := len) (by exact b3) b4 (h.dead_val b2)
    (Nat.zero_le _) ?_ ?_ ?_ ?_
  · intro _; simp
  · intro j _; simp only [hold, b7, b8]; exact Nat.le_refl _
  · intro j hj; simp only [b10, List.mem_cons]; exact Or.inr hj
  · intro p hp; exact Or.inr hp

theorem tight_setToken {s : State} {L : List Nat} (h : Inv s L) (hT : TInv s L) {t k : Nat} (ht : t < s.tmpl.length)
    (hk : Held s k) : TInv (apiSetToken s t k) L := by
  have hlive := h.live_of_held hk
  obtain ⟨s1, e, a1, a2, a3, a4, a5, hm, hrc, hoth, hkeep⟩ :=
    replaceTemplate_spec h ht (some k) (by intro j hj; cases hj; exact hlive)
  have hx := tight_replace h hT ht (some k) (fun j => j ∈ s.user.erase k) (by
    intro j hj hne
    rw [h.userNodup.mem_erase_iff]; exact ⟨fun hx => hne (by rw [hx]), hj⟩)
  rw [e] at hx
  unfold apiSetToken
  dsimp only
  rw [e]
  have hx' : Tight (touch { s1 with user := s1.user.erase k } k) (hold s1 L) (fun j => j ∈ s.user.erase k) none := hx.congr rfl rfl
  unfold TInv
  refine hx'.weaken (fun j => Nat.le_refl _) ?_
  intro j _ _ hj
  simp only [touch, a4]; exact hj

/-- Getting the token for a value, when the template's token is not shared. -/
theorem tight_initTokenWithValue {s : State} {L : List Nat} (h : Inv s L) (t pick p len : Nat)
    (hT : Tight s (hold s L) (· ∈ s.user) (some p)) (hns : ∀ k, tmplTok s t = some k → (s.tok k).rc = 1)
    {s' : State} {k : Nat} (e : initTokenWithValue s t pick p len = (s', k)) :
    Tight s' (fun j => hold s L j + if tmplTok s t = none ∧ j = k then 1 else 0) (· ∈ s.user) none := by
  unfold initTokenWithValue getToken at e
  cases htt : tmplTok s t with
  | none =>
    rw [htt] at e
    dsimp only at e
    obtain ⟨s1, k1, a1, a2, a3, a4, a5, a6, a7, a8, a9, a10, a11⟩ := newCounted h.mem pick none 0 1 (by simp)
    rw [a1, a2] at e
    simp only [Prod.mk.injEq] at e
    obtain ⟨e1, rfl⟩ := e
    have h1 : Tight s1 (fun j => hold s L j + if j = k1 then 1 else 0) (· ∈ s.user) (some p) := by
      refine hT.fresh a4 a5 (h.dead_val a3) ?_ (by omega) ?_ (fun _ hj => hj) (fun q hq => Or.inl hq)
      · simp
      · intro j hj; simp [hj]
    have h2 := h1.setVal (s' := s') (k := k1) (p := p) (len := len) (by rw [a4, upd_same]) (by rw [← e1]) (by rw [← e1])
    exact h2.weaken (fun j => by simp) (fun _ _ _ hj => hj)
  | some k1 =>
    rw [htt] at e
    dsimp only at e
    have hpos : 0 < hold s L k1 := hold_pos_tmpl htt
    have e0 : (touch s k1).tok = s.tok := rfl
    rw [e0, if_pos (hns k1 htt)] at e
    simp only [Prod.mk.injEq] at e
    obtain ⟨e1, rfl⟩ := e
    have h0 : Tight (touch s k1) (hold s L) (· ∈ s.user) (some p) := hT.congr rfl rfl
    have h1 := h0.freeValue k1
    have h2 := h1.setVal (s' := s') (k := k1) (p := p) (len := len)
      (by rw [(freeValue_tok (touch s k1) k1 k1).2.2.2, if_pos rfl]) (by rw [← e1]) (by rw [← e1])
    exact h2.weaken (fun j => by simp) (fun _ _ _ hj => hj)

theorem tight_set {s : State} {L : List Nat} (h : Inv s L) (hT : TInv s L) {t : Nat} (ht : t < s.tmpl.length)
    (pick c len : Nat) (hns : ∀ k, tmplTok s t = some k → (s.tok k).rc = 1) : TInv (apiSet s t pick c len) L := by
  obtain ⟨hp, hno⟩ := freshPay_facts h c
  have h0 := held_allocPay h c
  obtain ⟨s', k, e, b1, b2, b3, b4, b5, b6, b7, b8, b9, b10, b11, b12, b13, b14⟩ :=
    initTokenWithValue_spec h0 t pick (allocPay s c).2 len hp hno
  have hx := tight_initTokenWithValue h0 t pick (allocPay s c).2 len (hT.allocPay c) hns e
  unfold apiSet
  dsimp only
  rw [e]
  dsimp only
  have htt : tmplTok (allocPay s c).1 t = tmplTok s t := rfl
  have hx' : Tight { s' with tmpl := s'.tmpl.set t (some k) } _ (· ∈ s.user) none := hx.congr rfl rfl
  unfold TInv
  refine hx'.weaken ?_ ?_
  · intro j
    have hc := tmpl_count_set s t ht (some k) j
    have e6 : s'.tmpl = s.tmpl := b6
    have e7 : s'.queue = s.queue := b7
    simp only [Option.some.injEq] at hc
    rw [htt]
    show hold s L j + _ ≤ _
    simp only [hold, e6, e7]
    rcases b13 with ⟨hk1, _⟩ | ⟨_, hk2⟩
    · rw [htt] at hk1
      rw [hk1] at hc ⊢
      simp only [Option.some.injEq, reduceCtorEq, false_and, if_false] at hc ⊢
      omega
    · have htn : tmplTok s t = none := by
        cases hq : tmplTok s t with
        | none => rfl
        | some q => exact absurd (hns q hq) (hk2 q (by rw [htt]; exact hq))
      rw [htn] at hc ⊢
      simp only [reduceCtorEq, if_false, true_and] at hc ⊢
      by_cases hj : j = k
      · subst hj; simp only [if_true] at hc ⊢; omega
      · have hkj : ¬ k = j := fun hx => hj hx.symm
        simp only [hj, hkj, if_false] at hc ⊢; omega
  · intro j _ _ hj
    simp only [b9]; exact hj

theorem tight_schedule {s : State} {L : List Nat} {U U' : Nat → Prop} (hT : Tight s (hold s L) U none) (k : Nat)
    (hU : ∀ j, U j → j ≠ k → U' j) (queued : Bool) :
    Tight (scheduleToken s k queued) (hold (scheduleToken s k queued) L) U' none := by
  have h1 := hT.incRef (U' := U') k hU
  unfold scheduleToken
  cases queued with
  | true =>
    simp only [if_true]
    have h2 : Tight { incRef s k with queue := k :: (incRef s k).queue } (inc (hold s L) k) U' none := h1.congr rfl rfl
    refine h2.weaken ?_ (fun _ _ _ hj => hj)
    intro j
    simp only [hold, inc, incRef, setRc, touch, List.count_cons, beq_iff_eq]
    by_cases hj : j = k
    · rw [if_pos hj, if_pos hj.symm]; omega
    · rw [if_neg hj, if_neg (fun hx => hj hx.symm)]; omega
  | false =>
    simp only [Bool.false_eq_true, if_false]
    have hsame := doneUsing_same (incRef s k) k
    have hr : 0 < ((incRef s k).tok k).rc := by
      simp only [incRef, setRc, touch, upd_same]; omega
    refine (h1.doneUsing hr).weaken ?_ (fun _ _ _ hj => hj)
    intro j
    have e1 : (doneUsing (incRef s k) k).tmpl = s.tmpl := hsame.tmpl
    have e2 : (doneUsing (incRef s k) k).queue = s.queue := hsame.queue
    simp only [hold, e1, e2, dec, inc]
    by_cases hj : j = k
    · subst hj; simp only [if_true]; omega
    · simp [hj]

theorem tight_scheduleToken {s : State} {L : List Nat} (h : Inv s L) (hT : TInv s L) {k : Nat} (queued : Bool) :
    TInv (apiScheduleToken s k queued) L := by
  have hx := tight_schedule (U' := fun j => j ∈ s.user.erase k) hT k (by
    intro j hj hne
    rw [h.userNodup.mem_erase_iff]; exact ⟨hne, hj⟩) queued
  unfold apiScheduleToken
  dsimp only
  have hu : (scheduleToken s k queued).user = s.user := by
    unfold scheduleToken
    cases queued with
    | true => rfl
    | false => exact (doneUsing_same (incRef s k) k).user
  have hx' : Tight { scheduleToken s k queued with user := (scheduleToken s k queued).user.erase k } _ _ none := hx.congr rfl rfl
  unfold TInv
  refine hx'.weaken (fun j => Nat.le_refl _) ?_
  intro j _ _ hj
  simp only [hu]; exact hj

theorem tight_scheduleValue {s : State} {L : List Nat} (h : Inv s L) (hT : TInv s L) {t : Nat} (pick c len : Nat)
    (queued : Bool) (hns : ∃ k, tmplTok s t = some k ∧ (s.tok k).rc = 1) :
    TInv (apiScheduleValue s t pick c len queued) L := by
  obtain ⟨k0, hk0, hr0⟩ := hns
  obtain ⟨hp, hno⟩ := freshPay_facts h c
  have h0 := held_allocPay h c
  obtain ⟨s', k, e, b1, b2, b3, b4, b5, b6, b7, b8, b9, b10, b11, b12, b13, b14⟩ :=
    initTokenWithValue_spec h0 t pick (allocPay s c).2 len hp hno
  have hx := tight_initTokenWithValue h0 t pick (allocPay s c).2 len (hT.allocPay c) (by
    intro j hj
    have : some k0 = some j := hk0.symm.trans hj
    cases this; exact hr0) e
  unfold apiScheduleValue
  dsimp only
  rw [e]
  dsimp only
  have htt : tmplTok (allocPay s c).1 t = some k0 := hk0
  have hx1 : Tight s' (hold s' L) (· ∈ s.user) none := by
    refine hx.weaken ?_ (fun _ _ _ hj => hj)
    intro j
    rw [htt]
    simp only [reduceCtorEq, false_and, if_false, Nat.add_zero]
    simp only [hold, b6, b7]; exact Nat.le_refl _
  have hu : (scheduleToken s' k queued).user = s.user := by
    have e9 : s'.user = s.user := b9
    unfold scheduleToken
    cases queued with
    | true => exact e9
    | false => exact ((doneUsing_same (incRef s' k) k).user).trans e9
  unfold TInv
  rw [hu]
  exact tight_schedule hx1 k (fun j hj _ => hj) queued

theorem tight_popEvent {s : State} {L : List Nat} (h : Inv s L) (hT : TInv s L) {t k : Nat} (ht : t < s.tmpl.length)
    (hk : k ∈ s.queue) : TInv (popEvent s t k) L := by
  have hlive := h.mem.live k (hold_pos_queue hk)
  obtain ⟨s1, e, a1, a2, a3, a4, a5, hm, hrc, hoth, hkeep⟩ :=
    replaceTemplate_spec h ht (some k) (by intro j hj; cases hj; exact hlive)
  have hku : k ∉ s.user := h.not_user (hold_pos_queue hk)
  have hx := tight_replace h hT ht (some k) (· ∈ s.user) (fun j hj _ => hj)
  rw [e] at hx
  unfold popEvent
  dsimp only
  rw [e]
  have hkt : 0 < s1.tmpl.count (some k) := List.count_pos_iff.mpr (tmplTok_mem (tmplTok_set a1 ht))
  have hrp : 0 < (s1.tok k).rc := by
    have := hm.count k
    simp only [hold] at this; omega
  have hx1 : Tight { s1 with queue := s1.queue.erase k } (hold s1 L) (· ∈ s.user) none := hx.congr rfl rfl
  have hx2 := hx1.doneUsing (k := k) hrp
  have hsame := doneUsing_same { s1 with queue := s1.queue.erase k } k
  unfold TInv
  refine hx2.weaken ?_ ?_
  · intro j
    simp only [hold, hsame.tmpl, hsame.queue, dec]
    have hkq : 0 < s1.queue.count k := by rw [a2]; exact List.count_pos_iff.mpr hk
    by_cases hjk : j = k
    · subst hjk; rw [if_pos rfl, List.count_erase_self]; omega
    · rw [if_neg hjk, List.count_erase_of_ne hjk]; exact Nat.le_refl _
  · intro j _ _ hj
    rw [hsame.user]; simp only [a4]; exact hj

theorem tight_popNull {s : State} {L : List Nat} (h : Inv s L) (hT : TInv s L) {t : Nat} (ht : t < s.tmpl.length) :
    TInv (replaceTemplate s t none) L := by
  obtain ⟨s1, e, a1, a2, a3, a4, a5, hm, hrc, hoth, hkeep⟩ :=
    replaceTemplate_spec h ht none (by intro j hj; cases hj)
  have hx := tight_replace h hT ht none (· ∈ s.user) (fun j hj _ => hj)
  unfold TInv
  rw [e] at hx ⊢
  rw [a4]; exact hx

theorem tight_writableCopy {s : State} {L : List Nat} (h : Inv s L) (hT : TInv s L) (t pick : Nat) (pt : PortType)
    (hv : ∀ k, tmplTok s t = some k → (s.tok k).val ≠ none) {L' : List Nat}
    (hI : Inv (writableCopy s t pick pt).1 L') : TInv (writableCopy s t pick pt).1 L' := by
  have htouch : ∀ k, Inv (touch s k) L' → TInv (touch s k) L' := by
    intro k hx
    have : L' = L := hx.chain.functional h.chain
    subst this
    exact Tight.congr hT rfl rfl
  rcases writableCopy_spec h t pick pt with ⟨_, e⟩ | ⟨k, hk, ⟨_, _, e⟩ | ⟨_, _, e⟩ | hcopy⟩
  · rw [e] at hI ⊢
    have : L' = L := hI.chain.functional h.chain
    subst this; exact hT
  · rw [e] at hI ⊢; exact htouch k hI
  · rw [e] at hI ⊢; exact htouch k hI
  · obtain ⟨p, hp⟩ := Option.ne_none_iff_exists'.mp (hv k hk)
    obtain ⟨s', k', e, a1, a2, a3, a4, a5, a6, a7, a8⟩ := hcopy p hp
    rw [e] at hI ⊢
    have hL : L' = k' :: L := hI.chain.functional a7
    subst hL
    unfold TInv
    obtain ⟨c, hc⟩ := Option.ne_none_iff_exists'.mp (h.mem.alloc k p hp)
    refine (hT.allocPay c).fresh (k := k') (n := 1) (val := some s.nPay) (len := (s.tok k).len) (by exact a2) ?_
      (h.dead_val a1) ?_ (by omega) ?_ ?_ ?_
    · show s'.pay = (allocPay s c).1.pay
      rw [a3, hc]; rfl
    · simp only [hold, List.count_cons_self]; omega
    · intro j hj
      have hkj : ¬ k' = j := fun hx => hj hx.symm
      simp only [hold, a4, a5, List.count_cons, beq_iff_eq, hkj, if_false]
      exact Nat.le_refl _
    · intro j hj; simp only [a6]; exact hj
    · intro q hq; exact Or.inr hq

theorem tight_freeCopies (L : List Nat) : ∀ (s : State) (fuel : Nat), Inv s L → TInv s L → L.length < fuel →
    s.bin.length + L.length ≤ binLimit → TInv (freeCopies fuel s) [] := by
  induction L with
  | nil =>
    intro s fuel h hT hf _
    cases fuel with
    | zero => simp at hf
    | succ fuel =>
      have hc : s.copies = none := by have := h.chain; cases hcp : s.copies with
        | none => rfl
        | some k => rw [hcp] at this; cases this
      unfold freeCopies; simp only [hc]; exact hT
  | cons k L ih =>
    intro s fuel h hT hf hb
    cases fuel with
    | zero => simp at hf
    | succ fuel =>
      obtain ⟨hcp, s1, hs1, h1, hb1⟩ := freeCopies_step h (by simp only [List.length_cons] at hb; omega)
      unfold freeCopies
      simp only [hcp]
      rw [hs1]
      simp only [List.length_cons] at hf hb
      refine ih s1 fuel h1 ?_ (by omega) (by omega)
      have hpos : 0 < hold s (k :: L) k := hold_pos_copies (by simp)
      have hx := Tight.doneUsing (k := k) hT (Nat.lt_of_lt_of_le hpos (h.mem.count k))
      have hsame := doneUsing_same s k
      unfold TInv
      have hx1 : Tight s1 (dec (hold s (k :: L)) k) (· ∈ s.user) none := hx.congr (by rw [← hs1]; rfl) (by rw [← hs1]; rfl)
      refine hx1.weaken ?_ ?_
      · intro j
        have e1 : s1.tmpl = s.tmpl := by rw [← hs1]; exact hsame.tmpl
        have e2 : s1.queue = s.queue := by rw [← hs1]; exact hsame.queue
        simp only [hold, e1, e2, dec, List.count_cons, beq_iff_eq]
        by_cases hj : j = k
        · rw [if_pos hj, if_pos hj.symm]; omega
        · rw [if_neg hj, if_neg (fun hx => hj hx.symm)]; omega
      · intro j _ _ hj
        have e3 : s1.user = s.user := by rw [← hs1]; exact hsame.user
        rw [e3]; exact hj

theorem tight_exec {s : State} {L : List Nat} (h : Inv s L) (hT : TInv s L) (o : Op) (ha : Allowed s o)
    (hb : BinHasRoom s o) (hn : NotShared s o) : ∃ L', Inv (exec s o) L' ∧ TInv (exec s o) L' := by
  obtain ⟨L', g, hL⟩ := good_exec h o ha hb
  refine ⟨L', g.inv, ?_⟩
  cases o with
  | initTemplate t pick => rw [hL (by simp) (by simp)]; exact tight_initTemplate h hT t pick ha
  | newToken pick c len => rw [hL (by simp) (by simp)]; exact tight_newToken h hT pick c len
  | setToken t k => rw [hL (by simp) (by simp)]; exact tight_setToken h hT ha.1 ha.2
  | set t pick c len => rw [hL (by simp) (by simp)]; exact tight_set h hT ha pick c len hn
  | scheduleToken k q => rw [hL (by simp) (by simp)]; exact tight_scheduleToken h hT q
  | scheduleValue t pick c len q => rw [hL (by simp) (by simp)]; exact tight_scheduleValue h hT pick c len q hn
  | popEvent t k => rw [hL (by simp) (by simp)]; exact tight_popEvent h hT ha.1 ha.2
  | popNull t => rw [hL (by simp) (by simp)]; exact tight_popNull h hT ha
  | writableCopy t pick pt => exact tight_writableCopy h hT t pick pt ha.2 g.inv
  | newTag =>
    have hx := tight_freeCopies L s (s.nTok + 1) h hT (by have := h.length_le; omega) (hb L h.chain)
    have hc := (good_newTag h (hb L h.chain)).inv
    have : L' = [] := g.inv.chain.functional hc.chain
    rw [this]; exact hx

theorem tight_run {s : State} {L : List Nat} (h : Inv s L) (hT : TInv s L) (ops : List Op)
    (hf : Follows (fun s o => BinHasRoom s o ∧ NotShared s o) s ops) :
    ∃ L', Inv (run s ops) L' ∧ TInv (run s ops) L' := by
  induction ops generalizing s L with
  | nil => exact ⟨L, h, hT⟩
  | cons o os ih =>
    obtain ⟨ha, ⟨hb, hn⟩, hr⟩ := hf
    obtain ⟨L', h', hT'⟩ := tight_exec h hT o ha hb hn
    exact ih h' hT' hr

end ReactorC.Token
