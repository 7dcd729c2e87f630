import Verif.Token.Lemmas

/-! # The invariant of programs using tokens -/

namespace ReactorC.Token

theorem count_set_aux (l : List (Option Nat)) (t : Nat) (ht : t < l.length) (x : Option Nat) (y : Option Nat) :
    (l.set t x).count y + (if l[t]? = some y then 1 else 0) = l.count y + (if x = y then 1 else 0) := by
  induction l generalizing t with
  | nil => simp at ht
  | cons a l ih =>
    cases t with
    | zero =>
      simp only [List.set_cons_zero, List.count_cons, List.getElem?_cons_zero, Option.some.injEq, beq_iff_eq]
      omega
    | succ t =>
      have := ih t (by simpa using ht)
      simp only [List.set_cons_succ, List.count_cons, List.getElem?_cons_succ]
      omega

theorem tmpl_count_set (s : State) (t : Nat) (ht : t < s.tmpl.length) (x : Option Nat) (k : Nat) :
    (s.tmpl.set t x).count (some k) + (if tmplTok s t = some k then 1 else 0) =
      s.tmpl.count (some k) + (if x = some k then 1 else 0) := by
  have := count_set_aux s.tmpl t ht x (some k)
  have hg : s.tmpl[t]? = some s.tmpl[t] := List.getElem?_eq_getElem ht
  simp only [tmplTok, hg, Option.join_some, Option.some.injEq] at this ⊢
  exact this

theorem tmplTok_mem {s : State} {t k : Nat} (h : tmplTok s t = some k) : some k ∈ s.tmpl := by
  simp only [tmplTok] at h
  cases hg : s.tmpl[t]? with
  | none => rw [hg] at h; simp at h
  | some x =>
    rw [hg] at h; simp only [Option.join_some] at h; subst h
    exact List.mem_of_getElem? hg

/-- The number of counted references to `k`. -/
def hold (s : State) (L : List Nat) (k : Nat) : Nat := s.tmpl.count (some k) + s.queue.count k + L.count k

theorem hold_pos_tmpl {s : State} {L : List Nat} {t k : Nat} (h : tmplTok s t = some k) : 0 < hold s L k := by
  have := List.count_pos_iff.mpr (tmplTok_mem h)
  simp only [hold]; omega

theorem hold_pos_queue {s : State} {L : List Nat} {k : Nat} (h : k ∈ s.queue) : 0 < hold s L k := by
  have := List.count_pos_iff.mpr h
  simp only [hold]; omega

theorem hold_pos_copies {s : State} {L : List Nat} {k : Nat} (h : k ∈ L) : 0 < hold s L k := by
  have := List.count_pos_iff.mpr h
  simp only [hold]; omega

theorem Chain.functional {nxt : Nat → Option Nat} {h : Option Nat} {a b : List Nat} (ha : Chain nxt h a)
    (hb : Chain nxt h b) : a = b := by
  induction ha generalizing b with
  | nil => cases hb; rfl
  | cons _ ih =>
    cases hb with
    | cons hb => rw [ih hb]

/-- Invariant, with the list `L` of token copies. -/
structure Inv (s : State) (L : List Nat) : Prop where
  chain : Chain s.nxt s.copies L
  mem : Mem s (hold s L) (· ∈ s.user)
  userRc : ∀ k ∈ s.user, (s.tok k).rc = 0
  userNodup : s.user.Nodup
  nodup : L.Nodup

theorem Inv.live_of_held {s : State} {L : List Nat} (h : Inv s L) {k : Nat} (hk : Held s k) : (s.tok k).st = .live := by
  rcases hk with hk | hk | ⟨l, hl, hk⟩ | hk
  · refine h.mem.live k ?_
    have := List.count_pos_iff.mpr hk
    simp only [hold]; omega
  · exact h.mem.live k (hold_pos_queue hk)
  · rw [hl.functional h.chain] at hk
    exact h.mem.live k (hold_pos_copies hk)
  · exact h.mem.uncounted k hk

theorem Inv.user_hold {s : State} {L : List Nat} (h : Inv s L) {k : Nat} (hk : k ∈ s.user) : hold s L k = 0 := by
  have := h.mem.count k
  rw [h.userRc k hk] at this; omega

theorem Inv.not_user {s : State} {L : List Nat} (h : Inv s L) {k : Nat} (hk : 0 < hold s L k) : k ∉ s.user := by
  intro hu; have := h.user_hold hu; omega

theorem start_inv (n : Nat) : Inv (start n) [] := by
  refine ⟨.nil, ?_, by simp [start], by simp [start], by simp⟩
  have hz : ∀ k, hold (start n) [] k = 0 := by
    intro k
    have : some k ∉ List.replicate n (none : Option Nat) := by
      intro h; have := List.eq_of_mem_replicate h; cases this
    simp [hold, start, List.count_eq_zero_of_not_mem this]
  refine ⟨?_, ?_, by simp [start], by simp [start], by simp [start], by simp [start], by simp [start],
    by simp [start], by simp [start], by simp [start], rfl⟩
  · intro k hk; rw [hz] at hk; omega
  · intro k; rw [hz]; exact Nat.zero_le _

/-! ## Tokens that keep their payload -/

/-- Token `j` has the same payload as before. -/
def Keep (s s' : State) (j : Nat) : Prop :=
  (s'.tok j).val = (s.tok j).val ∧ (s'.tok j).len = (s.tok j).len ∧
    ∀ p, (s.tok j).val = some p → s'.pay p = s.pay p

theorem Keep.refl (s : State) (j : Nat) : Keep s s j := ⟨rfl, rfl, fun _ _ => rfl⟩

theorem Keep.trans {a b c : State} {j : Nat} (h1 : Keep a b j) (h2 : Keep b c j) : Keep a c j := by
  refine ⟨h2.1.trans h1.1, h2.2.1.trans h1.2.1, fun p hp => ?_⟩
  rw [h2.2.2 p (by rw [h1.1]; exact hp), h1.2.2 p hp]

theorem Keep.of_eq {s s' : State} {j : Nat} (h1 : (s'.tok j).val = (s.tok j).val) (h2 : (s'.tok j).len = (s.tok j).len)
    (h3 : s'.pay = s.pay) : Keep s s' j := ⟨h1, h2, fun p _ => by rw [h3]⟩

theorem keep_doneUsing {s : State} {H : Nat → Nat} {U : Nat → Prop} (h : Mem s H U) {k j : Nat}
    (hj : j ≠ k ∨ 2 ≤ (s.tok k).rc) : Keep s (doneUsing s k) j := by
  by_cases hjk : j = k
  · subst hjk
    have h2 : 2 ≤ (s.tok j).rc := by
      rcases hj with hj | hj
      · exact absurd rfl hj
      · exact hj
    obtain ⟨a, b, _⟩ := doneUsing_keep s j h2
    exact Keep.of_eq (by rw [a]) (by rw [a]) b
  · have := doneUsing_other s k j hjk
    refine ⟨by rw [this], by rw [this], fun p hp => ?_⟩
    exact doneUsing_pay s k p fun hk => hjk (h.inj j k p hp hk)

theorem keep_freeValue {s : State} {H : Nat → Nat} {U : Nat → Prop} (h : Mem s H U) {k j : Nat} (hj : j ≠ k) :
    Keep s (freeValue s k) j := by
  obtain ⟨_, _, a, b⟩ := freeValue_tok s k j
  refine ⟨by rw [b, if_neg hj], a, fun p hp => ?_⟩
  exact freeValue_pay s k p fun hk => hj (h.inj j k p hp hk)

/-! ## Building blocks with their effect on the invariant -/

/-- What `_lf_new_token` followed by setting the count does, for a token that then becomes the token of
template `t` or is pushed on the list. -/
theorem newCounted {s : State} {H : Nat → Nat} {U : Nat → Prop} (h : Mem s H U) (pick : Nat) (val : Option Nat)
    (len : Nat) (n : Nat) (hval : ∀ p, val = some p → s.pay p ≠ none ∧ ∀ k, (s.tok k).val ≠ some p) :
    ∃ (s' : State) (k : Nat), (newToken s pick val len).2 = k ∧ setRc (newToken s pick val len).1 k n = s' ∧
      (s.tok k).st ≠ .live ∧ s'.tok = upd s.tok k ⟨.live, n, val, len⟩ ∧ s'.pay = s.pay ∧
      (∀ l, (∀ j ∈ l, (s.tok j).st = .live) → ∀ head, Chain s.nxt head l → Chain s'.nxt head l) ∧
      s'.tmpl = s.tmpl ∧ s'.queue = s.queue ∧ s'.copies = s.copies ∧ s'.user = s.user ∧
      (∀ H' : Nat → Nat, H' k ≤ n → (∀ j, j ≠ k → H' j ≤ H j) → Mem s' H' U) := by
  obtain ⟨k, h1, h2, h3, h4, h5, h6, h7, h8, h9, h10, _, h11⟩ := newToken_spec h pick val len hval
  refine ⟨setRc (newToken s pick val len).1 k n, k, h1, rfl, h2, ?_, h4, h6, h7, h8, h9, h10, ?_⟩
  · funext j
    simp only [setRc, h3]
    by_cases hj : j = k
    · subst hj; simp [upd_same]
    · simp [upd_other _ _ hj]
  · intro H' hk ho
    exact h11.setRc (by rw [h3, upd_same]) hk ho

/-- `_lf_get_token` and the payload put into its result. -/
theorem initTokenWithValue_spec {s : State} {L : List Nat} (h : Inv s L) (t pick p len : Nat)
    (hp : s.pay p ≠ none) (hno : ∀ j, (s.tok j).val ≠ some p) :
    ∃ (s' : State) (k : Nat), initTokenWithValue s t pick p len = (s', k) ∧
      (s'.tok k).st = .live ∧ (s'.tok k).rc = 1 ∧ (s'.tok k).val = some p ∧ s'.pay p = s.pay p ∧ k ∉ s.user ∧
      s'.tmpl = s.tmpl ∧ s'.queue = s.queue ∧ s'.copies = s.copies ∧ s'.user = s.user ∧
      Chain s'.nxt s'.copies L ∧ (∀ j, j ≠ k → s'.tok j = s.tok j) ∧
      (∀ j, j ≠ k → Keep s s' j) ∧
      ((tmplTok s t = some k ∧ (s.tok k).rc = 1) ∨
        ((s.tok k).st ≠ .live ∧ ∀ j, tmplTok s t = some j → (s.tok j).rc ≠ 1)) ∧
      Mem s' (hold s L) (· ∈ s.user) := by
  -- the case of a new token
  have fresh : ∀ s0 : State, s0.tok = s.tok → s0.pay = s.pay → s0.tmpl = s.tmpl → s0.queue = s.queue →
      s0.copies = s.copies → s0.user = s.user → s0.nxt = s.nxt → Mem s0 (hold s L) (· ∈ s.user) →
      (∀ j, tmplTok s t = some j → (s.tok j).rc ≠ 1) →
      ∃ (s' : State) (k : Nat),
        (({ setRc (newToken s0 pick none 0).1 (newToken s0 pick none 0).2 1 with
            tok := upd (setRc (newToken s0 pick none 0).1 (newToken s0 pick none 0).2 1).tok (newToken s0 pick none 0).2
              { (setRc (newToken s0 pick none 0).1 (newToken s0 pick none 0).2 1).tok (newToken s0 pick none 0).2 with
                val := some p, len := len } } : State), (newToken s0 pick none 0).2) = (s', k) ∧
      (s'.tok k).st = .live ∧ (s'.tok k).rc = 1 ∧ (s'.tok k).val = some p ∧ s'.pay p = s.pay p ∧ k ∉ s.user ∧
      s'.tmpl = s.tmpl ∧ s'.queue = s.queue ∧ s'.copies = s.copies ∧ s'.user = s.user ∧
      Chain s'.nxt s'.copies L ∧ (∀ j, j ≠ k → s'.tok j = s.tok j) ∧
      (∀ j, j ≠ k → Keep s s' j) ∧
      ((tmplTok s t = some k ∧ (s.tok k).rc = 1) ∨
        ((s.tok k).st ≠ .live ∧ ∀ j, tmplTok s t = some j → (s.tok j).rc ≠ 1)) ∧
      Mem s' (hold s L) (· ∈ s.user) := by
    intro s0 e1 e2 e3 e4 e5 e6 e7 hm hrc
    obtain ⟨s1, k, a1, a2, a3, a4, a5, a6, a7, a8, a9, a10, a11⟩ := newCounted hm pick none 0 1 (by simp)
    rw [a1, a2]
    rw [e1] at a3 a4
    have hHk : hold s L k = 0 := by
      by_contra hx; exact a3 (h.mem.live k (by omega))
    have hm1 : Mem s1 (hold s L) (· ∈ s.user) := a11 _ (by omega) (fun _ _ => Nat.le_refl _)
    have hk1 : s1.tok k = ⟨.live, 1, none, 0⟩ := by rw [a4, upd_same]
    have ho1 : ∀ j, j ≠ k → s1.tok j = s.tok j := fun j hj => by rw [a4, upd_other _ _ hj]
    refine ⟨_, k, rfl, ?_, ?_, ?_, ?_, ?_, a7.trans e3, a8.trans e4, a9.trans e5, a10.trans e6, ?_, ?_, ?_, ?_, ?_⟩
    · simp [upd_same, hk1]
    · simp [upd_same, hk1]
    · simp [upd_same]
    · simp only [a5, e2]
    · intro hu; exact a3 (h.mem.uncounted k hu)
    · simp only [a9]
      refine a6 L ?_ _ ?_
      · intro j hj; rw [e1]; exact h.mem.live j (hold_pos_copies hj)
      · rw [e7, e5]; exact h.chain
    · intro j hj; simp only [upd_other _ _ hj]; exact ho1 j hj
    · intro j hj
      refine ⟨?_, ?_, ?_⟩
      · simp only [upd_other _ _ hj]; rw [ho1 j hj]
      · simp only [upd_other _ _ hj]; rw [ho1 j hj]
      · intro q _; simp only [a5, e2]
    · right; exact ⟨a3, hrc⟩
    · refine hm1.setVal (k := k) (p := p) (len := len) (by rw [hk1]) (by rw [a5, e2]; exact hp) ?_ rfl
      intro j
      by_cases hj : j = k
      · subst hj; rw [hk1]; simp
      · rw [ho1 j hj]; exact hno j
  unfold initTokenWithValue getToken
  cases ht : tmplTok s t with
  | none =>
    have := fresh s rfl rfl rfl rfl rfl rfl rfl h.mem (by rw [ht]; simp)
    rw [ht] at this
    exact this
  | some k =>
    have hpos : 0 < hold s L k := hold_pos_tmpl ht
    have hlive := h.mem.live k hpos
    have htm : Mem (touch s k) (hold s L) (· ∈ s.user) := h.mem.touch (by rw [hlive]; decide)
    dsimp only
    have e0 : (touch s k).tok = s.tok := rfl
    rw [e0]
    by_cases hrc : (s.tok k).rc = 1
    · rw [if_pos hrc]
      have hm1 := htm.freeValue k
      have hfv := freeValue_tok (touch s k) k
      have hsame := freeValue_same (touch s k) k
      have hpv : (freeValue (touch s k) k).pay p = s.pay p := freeValue_pay (touch s k) k p (hno k)
      refine ⟨_, k, rfl, ?_, ?_, ?_, hpv, h.not_user hpos, hsame.tmpl, hsame.queue, hsame.copies, hsame.user, ?_, ?_, ?_, ?_, ?_⟩
      · simp only [upd_same]; rw [(hfv k).1]; exact hlive
      · simp only [upd_same]; rw [(hfv k).2.1]; exact hrc
      · simp [upd_same]
      · show Chain (freeValue (touch s k) k).nxt (freeValue (touch s k) k).copies L
        rw [hsame.nxt, hsame.copies]; exact h.chain
      · intro j hj
        simp only [upd_other _ _ hj]
        unfold freeValue
        cases ((touch s k).tok k).val with
        | none => rfl
        | some q => simp only [upd_other _ _ hj]; rfl
      · intro j hj
        have hk1 : Keep (touch s k) (freeValue (touch s k) k) j := keep_freeValue htm hj
        refine ⟨?_, ?_, ?_⟩
        · simp only [upd_other _ _ hj]; exact hk1.1
        · simp only [upd_other _ _ hj]; exact hk1.2.1
        · intro q hq; exact hk1.2.2 q hq
      · left; exact ⟨rfl, hrc⟩
      · refine hm1.setVal (k := k) (p := p) (len := len) (by rw [(hfv k).1]; exact hlive) (by rw [hpv]; exact hp) ?_ rfl
        intro j
        rw [(hfv j).2.2.2]
        split
        · simp
        · exact hno j
    · rw [if_neg hrc]
      have := fresh (touch s k) rfl rfl rfl rfl rfl rfl rfl htm
        (by intro j hj; rw [ht] at hj; cases hj; exact hrc)
      rw [ht] at this
      exact this

/-- `_lf_replace_template_token`. -/
theorem replaceTemplate_spec {s : State} {L : List Nat} (h : Inv s L) {t : Nat} (ht : t < s.tmpl.length)
    (new : Option Nat) (hnew : ∀ k, new = some k → (s.tok k).st = .live) :
    ∃ s', replaceTemplate s t new = s' ∧ s'.tmpl = s.tmpl.set t new ∧ s'.queue = s.queue ∧ s'.copies = s.copies ∧
      s'.user = s.user ∧ s'.nxt = s.nxt ∧ Mem s' (hold s' L) (· ∈ s.user) ∧
      (∀ k, new = some k → tmplTok s t ≠ new → (s'.tok k).rc = (s.tok k).rc + 1) ∧
      (∀ k, new ≠ some k → tmplTok s t ≠ some k → s'.tok k = s.tok k) ∧
      (∀ j, tmplTok s t ≠ some j ∨ new = some j ∨ 2 ≤ hold s L j → Keep s s' j) := by
  have hlen : s.tmpl.set t (tmplTok s t) = s.tmpl := by
    have hg : s.tmpl[t]? = some s.tmpl[t] := List.getElem?_eq_getElem ht
    simp [tmplTok, hg]
  refine ⟨_, rfl, ?_⟩
  unfold replaceTemplate
  by_cases heq : tmplTok s t = new
  · rw [if_pos heq]
    subst heq
    exact ⟨hlen.symm, rfl, rfl, rfl, rfl, h.mem, fun k _ hx => absurd rfl hx, fun _ _ _ => rfl, fun j _ => Keep.refl s j⟩
  · rw [if_neg heq]
    -- after releasing the old token
    have rel : ∃ s1, s1 = releaseOpt s (tmplTok s t) ∧ SameHolders s s1 ∧
        Mem s1 (fun j => hold s L j - if tmplTok s t = some j then 1 else 0) (· ∈ s.user) ∧
        (∀ j, tmplTok s t ≠ some j → s1.tok j = s.tok j) ∧
        (∀ j, tmplTok s t ≠ some j ∨ 2 ≤ hold s L j → Keep s s1 j) := by
      refine ⟨_, rfl, ?_⟩
      cases hold' : tmplTok s t with
      | none =>
        exact ⟨SameHolders.refl s, h.mem.weaken (by intro k; simp) (fun _ hk => hk), fun _ _ => rfl, fun j _ => Keep.refl s j⟩
      | some old =>
        have hpos : 0 < hold s L old := hold_pos_tmpl hold'
        refine ⟨doneUsing_same s old, ?_, ?_, ?_⟩
        · refine (h.mem.doneUsing hpos (h.not_user hpos)).weaken ?_ (fun _ hk => hk)
          intro k
          simp only [dec, Option.some.injEq]
          by_cases hk : k = old
          · simp [hk]
          · have : ¬ old = k := fun h => hk h.symm
            simp [hk, this]
        · intro j hj
          exact doneUsing_other s old j (by rintro rfl; exact hj rfl)
        · intro j hj
          refine keep_doneUsing h.mem ?_
          by_cases hjo : j = old
          · right
            subst hjo
            rcases hj with hj | hj
            · exact absurd rfl hj
            · exact Nat.le_trans hj (h.mem.count j)
          · exact Or.inl hjo
    obtain ⟨s1, hs1, hsame, hm1, hoth, hkeep⟩ := rel
    dsimp only
    rw [← hs1]
    have main : ∀ s2 : State, s2.tmpl = s.tmpl → s2.queue = s.queue → s2.copies = s.copies → s2.user = s.user →
        s2.nxt = s.nxt →
        Mem s2 (fun j => (hold s L j - if tmplTok s t = some j then 1 else 0) + if new = some j then 1 else 0) (· ∈ s.user) →
        Mem { s2 with tmpl := s2.tmpl.set t new } (hold { s2 with tmpl := s2.tmpl.set t new } L) (· ∈ s.user) := by
      intro s2 e1 e2 e3 e4 e5 hm
      have hm' : Mem { s2 with tmpl := s2.tmpl.set t new }
          (fun j => (hold s L j - if tmplTok s t = some j then 1 else 0) + if new = some j then 1 else 0) (· ∈ s.user) :=
        hm.congr rfl rfl rfl rfl rfl rfl
      refine hm'.weaken ?_ (fun _ hk => hk)
      intro k
      have hc := tmpl_count_set s t ht new k
      have hp : tmplTok s t = some k → 0 < hold s L k := fun hx => hold_pos_tmpl hx
      simp only [hold, e1, e2] at hc hp ⊢
      split at hc <;> split at hc <;> simp_all <;> omega
    cases new with
    | none =>
      refine ⟨congrArg (fun l => l.set t none) hsame.tmpl, hsame.queue, hsame.copies, hsame.user, hsame.nxt, ?_, by simp, ?_, ?_⟩
      · exact main s1 hsame.tmpl hsame.queue hsame.copies hsame.user hsame.nxt (hm1.weaken (by simp) (fun _ hk => hk))
      · intro k _ hk; exact hoth k hk
      · intro j hj
        rcases hj with hj | hj | hj
        · exact hkeep j (Or.inl hj)
        · cases hj
        · exact hkeep j (Or.inr hj)
    | some n =>
      have hne : tmplTok s t ≠ some n := heq
      have hlive : (s1.tok n).st = .live := by rw [hoth n hne]; exact hnew n rfl
      have hm2 := hm1.incRef hlive
      have hi : ∀ j, j ≠ n → (incRef s1 n).tok j = s1.tok j := fun j hj => upd_other _ _ hj
      have hn : (incRef s1 n).tok n = { s1.tok n with rc := (s1.tok n).rc + 1 } := by
        simp only [incRef, setRc, touch, upd_same]
      have hki : ∀ j, Keep s1 (incRef s1 n) j := by
        intro j
        by_cases hj : j = n
        · subst hj; exact Keep.of_eq (by rw [hn]) (by rw [hn]) rfl
        · exact Keep.of_eq (by rw [hi j hj]) (by rw [hi j hj]) rfl
      refine ⟨congrArg (fun l => l.set t (some n)) hsame.tmpl, hsame.queue, hsame.copies, hsame.user, hsame.nxt, ?_, ?_, ?_, ?_⟩
      · refine main (incRef s1 n) hsame.tmpl hsame.queue hsame.copies hsame.user hsame.nxt (hm2.weaken ?_ (fun _ hk => hk))
        intro k
        simp only [inc, Option.some.injEq]
        by_cases hk : k = n
        · subst hk; simp
        · have : ¬ n = k := fun hx => hk hx.symm
          simp [hk, this]
      · intro k hk _
        cases hk
        show ((incRef s1 n).tok n).rc = _
        rw [hn, hoth n hne]
      · intro k hk1 hk2
        have : k ≠ n := by rintro rfl; exact hk1 rfl
        show (incRef s1 n).tok k = _
        rw [hi k this, hoth k hk2]
      · intro j hj
        have hk : Keep s s1 j := by
          rcases hj with hj | hj | hj
          · exact hkeep j (Or.inl hj)
          · cases hj; exact hkeep n (Or.inl hne)
          · exact hkeep j (Or.inr hj)
        exact hk.trans (hki j)

end ReactorC.Token
