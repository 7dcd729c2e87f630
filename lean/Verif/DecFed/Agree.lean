import Verif.FedDet.Props

/-!
# Executions that agree, under weaker rules

As `Verif.FedDet.Agree`.  There, a federate that might still act at a tag keeps the federates downstream from the tags of all messages
that it might send; here only from those of messages that are later than what it has sent on the same connection.
-/

set_option linter.unusedVariables false

namespace ReactorC.FedDet
open ReactorC
open ReactorC.Rti (Topology Sane put put_same put_other)

variable {V : Type}

/-- All that has been sent on a connection has a tag before `m`. -/
def Quiet (P : Program V) (log : List (Entry V)) (j d p : Nat) (m : Tag) : Prop :=
  ∀ x ∈ log, ∀ o ∈ P.outs j (upTo x.1 log), o.dest = d → o.port = p → lf_delay_tag x.1 o.delay ≤ P.stop → lf_delay_tag x.1 o.delay < m

structure Exec.Weak (P : Program V) (E : Exec V) : Prop where
  sorted : ∀ i, (E.log i).Pairwise fun a b => b.1 < a.1
  reached : ∀ i, ∀ x ∈ E.log i, E.passed i x.1
  down : ∀ i t u, E.passed i t → u ≤ t → E.passed i u
  raise : ∀ i s t, E.could i s → s ≤ t → Fit P.T t → E.could i t
  fits : ∀ i, ∀ x ∈ E.log i, i < P.T.n ∧ P.first ≤ x.1 ∧ x.1 ≤ P.stop ∧ Fit P.T x.1
  first : ∀ i < P.T.n, (E.passed i P.first → ∃ x, (P.first, x) ∈ E.log i) ∧ (¬ E.passed i P.first → E.could i P.first)
  last : ∀ i < P.T.n, Fit P.T P.stop →
    (E.passed i P.stop → ∃ x, (P.stop, x) ∈ E.log i) ∧ (¬ E.passed i P.stop → E.could i P.stop)
  events : ∀ i < P.T.n, ∀ t k v, Gen P E.log i t k v → t ≤ P.stop → Fit P.T t →
    (∃ x, (t, x) ∈ E.log i ∧ x k = some v) ∨ (¬ E.passed i t ∧ E.could i t)
  origin : ∀ i t x k v, (t, x) ∈ E.log i → x k = some v → Gen P E.log i t k v
  cause : ∀ i t x, (t, x) ∈ E.log i → t = P.first ∨ t = P.stop ∨ ∃ k v, x k = some v
  rising : ∀ j x x' o o', x ∈ E.log j → x' ∈ E.log j → x'.1 < x.1 → o ∈ P.outs j (upTo x.1 (E.log j)) →
    o' ∈ P.outs j (upTo x'.1 (E.log j)) → o'.dest = o.dest → o'.port = o.port → lf_delay_tag x'.1 o'.delay ≤ P.stop →
    lf_delay_tag x.1 o.delay ≤ P.stop → lf_delay_tag x'.1 o'.delay < lf_delay_tag x.1 o.delay
  hop : ∀ j s h o, E.could j s → o ∈ P.outs j h → Fit P.T (lf_delay_tag s o.delay) → lf_delay_tag s o.delay ≤ P.stop →
    Quiet P (E.log j) j o.dest o.port (lf_delay_tag s o.delay) →
    ¬ E.passed o.dest (lf_delay_tag s o.delay) ∧ E.could o.dest (lf_delay_tag s o.delay)

section
variable {P : Program V} {rank : Nat → Nat}

theorem weak_upTo_eq {A B : Exec V} (hA : A.Weak P) (hB : B.Weak P) {i : Nat} {s : Tag}
    (hab : ∀ u, P.first ≤ u → u ≤ s → Claim P A B u i) (hba : ∀ u, P.first ≤ u → u ≤ s → Claim P B A u i)
    (pa : A.passed i s) (pb : B.passed i s) : upTo s (A.log i) = upTo s (B.log i) := by
  refine pairwise_ext ((hA.sorted i).filter _) ((hB.sorted i).filter _) fun x => ?_
  unfold upTo
  rw [List.mem_filter, List.mem_filter, decide_eq_true_eq]
  constructor
  · rintro ⟨h1, h2⟩
    have hs := (hA.fits i x h1).2.1
    exact ⟨(hab x.1 hs h2).1 (hA.down i s _ pa h2) (hB.down i s _ pb h2) x.2 h1, h2⟩
  · rintro ⟨h1, h2⟩
    have hs := (hB.fits i x h1).2.1
    exact ⟨(hba x.1 hs h2).1 (hB.down i s _ pb h2) (hA.down i s _ pa h2) x.2 h1, h2⟩

/-- What gives rise to an event in the one execution does so in the other, or might still. -/
theorem weak_transfer (hP : P.Ok rank) {A B : Exec V} (hA : A.Weak P) (hB : B.Weak P) {t : Tag} {i : Nat} (hi : i < P.T.n)
    (ht : t ≤ P.stop) (hf : Fit P.T t)
    (ih : ∀ u j, Before P rank (u, j) (t, i) → Claim P A B u j ∧ Claim P B A u j) {k : Nat} {v : V}
    (hg : Gen P A.log i t k v) : Gen P B.log i t k v ∨ (¬ B.passed i t ∧ B.could i t) := by
  -- an entry of the sender, or of the federate itself, before
  have key : ∀ j (x : Entry V), x ∈ A.log j → Before P rank (x.1, j) (t, i) →
      (x ∈ B.log j ∧ upTo x.1 (A.log j) = upTo x.1 (B.log j)) ∨ (¬ B.passed j x.1 ∧ B.could j x.1) := by
    intro j x hx hb
    by_cases pb : B.passed j x.1
    · left
      have pa := hA.reached j x hx
      refine ⟨(ih _ _ hb).1.1 pa pb x.2 hx, ?_⟩
      have hb' : ∀ u, P.first ≤ u → u ≤ x.1 → Before P rank (u, j) (t, i) := by
        intro u h1 h2
        refine ⟨h1, ?_⟩
        rcases Tag.lt_or_eq_of_le h2 with h2 | rfl
        · left
          rcases hb.2 with h3 | h3
          · exact Tag.lt_trans h2 h3
          · exact h3.1 ▸ h2
        · exact hb.2
      exact weak_upTo_eq hA hB (fun u h1 h2 => (ih _ _ (hb' u h1 h2)).1) (fun u h1 h2 => (ih _ _ (hb' u h1 h2)).2) pa pb
    · right
      exact ⟨pb, (ih _ _ hb).1.2 x.2 hx pb⟩
  cases hg with
  | init h => exact .inl (.init h)
  | @sched _ x e hx he =>
    have hlt : x.1 < e.1 := by
      obtain ⟨y, h, hy⟩ := upTo_head (hA.sorted i) hx
      rw [hy.1] at he
      rw [← hy.2]
      exact hP.later i y h e he
    rcases key i x hx ⟨(hA.fits i x hx).2.1, .inl hlt⟩ with ⟨h1, h2⟩ | ⟨h1, h2⟩
    · rw [h2] at he; exact .inl (.sched h1 he)
    · exact .inr ⟨fun p => h1 (hB.down i _ _ p (Tag.le_of_lt hlt)), hB.raise i _ _ h2 (Tag.le_of_lt hlt) hf⟩
  | @mail j x o hx ho hs =>
    obtain ⟨hd, hc⟩ := hP.dest j _ o ho
    have hb : Before P rank (x.1, j) (lf_delay_tag x.1 o.delay, o.dest) := by
      refine ⟨(hA.fits j x hx).2.1, ?_⟩
      by_cases hw : 0 ≤ o.delay
      · exact .inl (delay_before (hA.fits j x hx).2.2.2 hw (Tag.le_refl _))
      · right
        exact ⟨(C04_delay_tag_no_delay _ _ (by omega)).symm, hP.rank _ _ _ hc (by omega)⟩
    rcases key j x hx hb with ⟨h1, h2⟩ | ⟨h1, h2⟩
    · rw [h2] at ho; exact .inl (.mail h1 ho hs)
    · refine .inr (hB.hop j _ _ o h2 ho hf ht fun x' hx' o' ho' e1 e2 hs' => ?_)
      have pb' := hB.reached j x' hx'
      have hlt : x'.1 < x.1 := Tag.not_le.1 fun k => h1 (hB.down j _ _ pb' k)
      have pa' := hA.down j _ _ (hA.reached j x hx) (Tag.le_of_lt hlt)
      have hb' : ∀ u, P.first ≤ u → u ≤ x'.1 → Before P rank (u, j) (lf_delay_tag x.1 o.delay, o.dest) := by
        intro u k1 k2
        refine ⟨k1, .inl ?_⟩
        have k3 := Tag.lt_of_le_of_lt k2 hlt
        rcases hb.2 with k | k
        · exact Tag.lt_trans k3 k
        · exact k.1 ▸ k3
      have hx'' := (ih _ _ (hb' x'.1 (hB.fits j x' hx').2.1 (Tag.le_refl _))).2.1 pb' pa' x'.2 hx'
      have e := weak_upTo_eq hA hB (fun u k1 k2 => (ih _ _ (hb' u k1 k2)).1) (fun u k1 k2 => (ih _ _ (hb' u k1 k2)).2) pa' pb'
      rw [← e] at ho'
      exact hA.rising j x x' o o' hx hx'' hlt ho ho' e1 e2 hs' hs

theorem weak_claim_step (hP : P.Ok rank) {A B : Exec V} (hA : A.Weak P) (hB : B.Weak P) {t : Tag} {i : Nat}
    (ih : ∀ u j, Before P rank (u, j) (t, i) → Claim P A B u j ∧ Claim P B A u j) : Claim P A B t i := by
  refine ⟨fun pa pb x hx => ?_, fun x hx pb => ?_⟩
  · obtain ⟨hi, h1, h2, hf⟩ := hA.fits i _ hx
    have get : ∀ k v, x k = some v → ∃ y, (t, y) ∈ B.log i ∧ y k = some v := by
      intro k v hk
      rcases weak_transfer hP hA hB hi h2 hf ih (hA.origin i t x k v hx hk) with h | h
      · rcases hB.events i hi t k v h h2 hf with h | h
        · exact h
        · exact absurd pb h.1
      · exact absurd pb h.1
    obtain ⟨y, hy⟩ : ∃ y, (t, y) ∈ B.log i := by
      rcases hA.cause i t x hx with h | h | ⟨k, v, h⟩
      · subst h; exact (hB.first i hi).1 pb
      · subst h; exact (hB.last i hi hf).1 pb
      · obtain ⟨y, hy, _⟩ := get k v h
        exact ⟨y, hy⟩
    have : x = y := by
      funext k
      cases hk : x k with
      | some v =>
        obtain ⟨y', hy', hv⟩ := get k v hk
        rw [pairwise_unique (hB.sorted i) hy hy', hv]
      | none =>
        cases hk' : y k with
        | none => rfl
        | some v =>
          exfalso
          rcases weak_transfer hP hB hA hi h2 hf (fun u j h => (ih u j h).symm) (hB.origin i t y k v hy hk') with h | h
          · rcases hA.events i hi t k v h h2 hf with ⟨x', hx', hv⟩ | h
            · rw [pairwise_unique (hA.sorted i) hx' hx, hk] at hv; cases hv
            · exact h.1 pa
          · exact h.1 pa
    rw [this]; exact hy
  · obtain ⟨hi, h1, h2, hf⟩ := hA.fits i _ hx
    rcases hA.cause i t x hx with h | h | ⟨k, v, h⟩
    · subst h; exact (hB.first i hi).2 pb
    · subst h; exact (hB.last i hi hf).2 pb
    · rcases weak_transfer hP hA hB hi h2 hf ih (hA.origin i t x k v hx h) with h | h
      · rcases hB.events i hi t k v h h2 hf with ⟨y, hy, _⟩ | h
        · exact absurd (hB.reached i _ hy) pb
        · exact h.2
      · exact h.2

theorem weak_claims (hP : P.Ok rank) {A B : Exec V} (hA : A.Weak P) (hB : B.Weak P) (t : Tag) (i : Nat) :
    Claim P A B t i ∧ Claim P B A t i := by
  have := (Before.wf P rank).induction (C := fun a => Claim P A B a.1 a.2 ∧ Claim P B A a.1 a.2) (t, i)
    (fun a ih => ⟨weak_claim_step hP hA hB fun u j h => ih (u, j) h, weak_claim_step hP hB hA fun u j h => (ih (u, j) h).symm⟩)
  exact this

/-- Two executions agree on everything that both have got to. -/
theorem weak_agree (hP : P.Ok rank) {A B : Exec V} (hA : A.Weak P) (hB : B.Weak P) {t : Tag} {i : Nat} (pa : A.passed i t)
    (pb : B.passed i t) : upTo t (A.log i) = upTo t (B.log i) :=
  weak_upTo_eq hA hB (fun u _ _ => (weak_claims hP hA hB u i).1) (fun u _ _ => (weak_claims hP hA hB u i).2) pa pb

theorem weak_comparable (hP : P.Ok rank) {A B : Exec V} (hA : A.Weak P) (hB : B.Weak P) (i : Nat) :
    A.log i <:+ B.log i ∨ B.log i <:+ A.log i := by
  have key : ∀ {A B : Exec V}, A.Weak P → B.Weak P → ∀ a l b m, A.log i = a :: l → B.log i = b :: m → a.1 ≤ b.1 → A.log i <:+ B.log i := by
    intro A B hA hB a l b m ha hb hle
    have pa : A.passed i a.1 := hA.reached i a (by rw [ha]; exact List.mem_cons_self)
    have pb : B.passed i a.1 := hB.down i _ _ (hB.reached i b (by rw [hb]; exact List.mem_cons_self)) hle
    have e := weak_agree hP hA hB pa pb
    have hso := hA.sorted i
    rw [ha] at hso
    rw [upTo_all (l := A.log i)] at e
    · rw [e]; exact upTo_suffix (hB.sorted i) _
    · intro x hx
      rw [ha] at hx
      rcases List.mem_cons.1 hx with rfl | hx
      · exact Tag.le_refl _
      · exact Tag.le_of_lt ((List.pairwise_cons.1 hso).1 x hx)
  cases ha : A.log i with
  | nil => exact .inl (List.nil_suffix)
  | cons a l =>
    cases hb : B.log i with
    | nil => exact .inr (List.nil_suffix)
    | cons b m =>
      rcases Tag.le_total a.1 b.1 with c | c
      · left; rw [← ha, ← hb]; exact key hA hB a l b m ha hb c
      · right; rw [← ha, ← hb]; exact key hB hA b m a l hb ha c

theorem weak_equal (hP : P.Ok rank) {A B : Exec V} (hA : A.Weak P) (hB : B.Weak P) {i : Nat} (pa : A.passed i P.stop) (pb : B.passed i P.stop) :
    A.log i = B.log i := by
  have e := weak_agree hP hA hB pa pb
  rwa [upTo_all fun x hx => (hA.fits i x hx).2.2.1, upTo_all fun x hx => (hB.fits i x hx).2.2.1] at e


/-! ## The sequential execution -/

/-- What is sent on a connection has later and later tags. -/
def Rising (P : Program V) (log : Nat → List (Entry V)) : Prop :=
  ∀ j x x' o o', x ∈ log j → x' ∈ log j → x'.1 < x.1 → o ∈ P.outs j (upTo x.1 (log j)) →
    o' ∈ P.outs j (upTo x'.1 (log j)) → o'.dest = o.dest → o'.port = o.port → lf_delay_tag x'.1 o'.delay ≤ P.stop →
    lf_delay_tag x.1 o.delay ≤ P.stop → lf_delay_tag x'.1 o'.delay < lf_delay_tag x.1 o.delay

theorem Exec.Good.weak (hP : P.Ok rank) {E : Exec V} (h : E.Good P) (hr : Rising P E.log) : E.Weak P where
  sorted := h.sorted
  reached := h.reached
  down := h.down
  raise := h.raise
  fits := h.fits
  first := h.first
  last := h.last
  events := h.events
  origin := h.origin
  cause := h.cause
  rising := hr
  hop j s l o hc ho hf hs _ := by
    obtain ⟨h1, h2⟩ := hP.dest j l o ho
    exact h.hop j s _ _ _ hc h1 h2 hf (Tag.le_refl _) hs

/-- One more entry. -/
theorem Rising.cons {log : Nat → List (Entry V)} (h : Rising P log) {i : Nat} {a : Entry V} (ha : ∀ x ∈ log i, x.1 < a.1)
    (hn : ∀ o ∈ P.outs i (a :: log i), lf_delay_tag a.1 o.delay ≤ P.stop → ∀ x' ∈ log i, ∀ o' ∈ P.outs i (upTo x'.1 (log i)), o'.dest = o.dest →
      o'.port = o.port → lf_delay_tag x'.1 o'.delay ≤ P.stop → lf_delay_tag x'.1 o'.delay < lf_delay_tag a.1 o.delay) :
    Rising P (put log i (a :: log i)) := by
  intro j x x' o o' hx hx' hlt ho ho' e1 e2 s1 s2
  by_cases c : j = i
  · subst c
    rw [put_same] at hx hx' ho ho'
    rcases List.mem_cons.1 hx' with rfl | hx2
    · exfalso
      rcases List.mem_cons.1 hx with rfl | hx
      · exact Tag.lt_irrefl _ hlt
      · exact Tag.lt_irrefl _ (Tag.lt_trans hlt (ha x hx))
    rw [upTo_cons_old (ha x' hx2)] at ho'
    rcases List.mem_cons.1 hx with rfl | hx
    · rw [upTo_cons_new ha] at ho
      exact hn o ho s2 x' hx2 o' ho' e1 e2 s1
    · rw [upTo_cons_old (ha x hx)] at ho
      exact h j x x' o o' hx hx2 hlt ho ho' e1 e2 s1 s2
  · rw [put_other _ _ _ c] at hx hx' ho ho'
    exact h j x x' o o' hx hx' hlt ho ho' e1 e2 s1 s2

theorem Seq.Reach.rising (hP : P.Ok rank) (hw : ∀ j j' h h', ∀ o ∈ P.outs j h, ∀ o' ∈ P.outs j' h', o'.dest = o.dest → o'.port = o.port → o'.delay = o.delay)
    {s : Seq V} (hs : Seq.Reach P rank s) : Rising P s.log := by
  induction hs with
  | init => intro j x x' o o' hx; cases hx
  | @step s i t hs hd hmin hF hsi ih =>
    have hI := hs.inv hP
    have hold : ∀ x ∈ s.log i, x.1 < t := by
      intro x hx
      rcases hI.clear i x hx i t hd with k | k
      · exact k
      · exact absurd rfl k.2.2
    refine ih.cons (a := (t, present t (s.pend i))) hold fun o ho s2 x' hx' o' ho' e1 e2 s1 => ?_
    have hww := hw _ _ _ _ o ho o' ho' e1 e2
    have hle : lf_delay_tag x'.1 o'.delay ≤ lf_delay_tag t o.delay := by
      rw [hww]; exact Rti.delay_mono_sane _ hF.1 (Tag.le_of_lt (hold x' hx'))
    rcases Tag.lt_or_eq_of_le hle with k | k
    · exact k
    exfalso
    have hg : Gen P s.log o.dest (lf_delay_tag t o.delay) o.port o'.val := by
      have := Gen.mail (P := P) (log := s.log) hx' ho' s1
      rw [k, e1, e2] at this; exact this
    have hrk : o.delay < 0 → rank i < rank o.dest := fun c => hP.rank _ _ _ (hP.dest _ _ o ho).2 c
    have hneg : lf_delay_tag t o.delay ≤ t → o.delay < 0 := by
      intro c
      by_contra c'
      exact absurd (delay_before hF (Int.not_lt.1 c') (Tag.le_refl _)) (Tag.not_lt.2 c)
    rcases (hI.gen o.dest (lf_delay_tag t o.delay, o.port, o'.val)).1 hg with c | ⟨y, c, _⟩
    · have hsing := hsi o.dest
      unfold Single Seq.exec at hsing
      dsimp only at hsing
      rw [List.map_append, List.nodup_append] at hsing
      refine hsing.2.2 (lf_delay_tag t o.delay, o.port) ?_ (lf_delay_tag t o.delay, o.port) ?_ rfl
      · refine List.mem_map.2 ⟨(lf_delay_tag t o.delay, o.port, o'.val), ?_, rfl⟩
        split
        · rename_i hd'
          refine List.mem_append_left _ (List.mem_filter.2 ⟨by rw [← hd']; exact c, decide_eq_true fun e => ?_⟩)
          have := hrk (hneg (by rw [show lf_delay_tag t o.delay = t from e]; exact Tag.le_refl _))
          rw [hd'] at this; omega
        · exact c
      · exact List.mem_map.2 ⟨(lf_delay_tag t o.delay, o.port, o.val), mem_mail.2 ⟨o, ho, rfl, rfl, s2⟩, rfl⟩
    · rcases hI.clear _ _ c i t hd with k' | ⟨k1, k2, k3⟩
      · exact absurd (Rti.le_delay o.delay hF.1) (Tag.not_le.2 k')
      · have := hrk (hneg (by rw [show lf_delay_tag t o.delay = t from k1]; exact Tag.le_refl _))
        omega

end

end ReactorC.FedDet
