import Verif.FedDet.Spec
import Verif.Rti.GrantProps
import Verif.Tag.Props

/-! Two executions of a federated program that keep some rules have the same results. -/

set_option linter.unusedVariables false

namespace ReactorC.FedDet
open ReactorC
open ReactorC.Rti (Topology Sane put)

variable {V : Type}

/-- The part of a record up to a tag. -/
def upTo (t : Tag) (l : List (Entry V)) : List (Entry V) := l.filter fun x => decide (x.1 ≤ t)

/-- The events that what has been executed gives rise to. -/
inductive Gen (P : Program V) (log : Nat → List (Entry V)) : Nat → Tag → Nat → V → Prop
  | init {i : Nat} {e : Event V} : e ∈ P.init i → Gen P log i e.1 e.2.1 e.2.2
  | sched {i : Nat} {x : Entry V} {e : Event V} : x ∈ log i → e ∈ P.scheds i (upTo x.1 (log i)) → Gen P log i e.1 e.2.1 e.2.2
  | mail {j : Nat} {x : Entry V} {o : Out V} : x ∈ log j → o ∈ P.outs j (upTo x.1 (log j)) →
      lf_delay_tag x.1 o.delay ≤ P.stop → Gen P log o.dest (lf_delay_tag x.1 o.delay) o.port o.val

/-- An execution: what has been executed, which tags a federate has got to, and at which it might still act. -/
structure Exec (V : Type) where
  log : Nat → List (Entry V)
  passed : Nat → Tag → Prop
  could : Nat → Tag → Prop

structure Exec.Good (P : Program V) (E : Exec V) : Prop where
  sorted : ∀ i, (E.log i).Pairwise fun a b => b.1 < a.1
  reached : ∀ i, ∀ x ∈ E.log i, E.passed i x.1
  down : ∀ i t u, E.passed i t → u ≤ t → E.passed i u
  raise : ∀ i s t, E.could i s → s ≤ t → Fit P.T t → E.could i t
  fits : ∀ i, ∀ x ∈ E.log i, i < P.T.n ∧ P.first ≤ x.1 ∧ x.1 ≤ P.stop ∧ Fit P.T x.1
  first : ∀ i < P.T.n, (E.passed i P.first → ∃ x, (P.first, x) ∈ E.log i) ∧ (¬ E.passed i P.first → E.could i P.first)
  last : ∀ i < P.T.n, Fit P.T P.stop →
    (E.passed i P.stop → ∃ x, (P.stop, x) ∈ E.log i) ∧ (¬ E.passed i P.stop → E.could i P.stop)
  events : ∀ i < P.T.n, ∀ t k v, Gen P E.log i t k v → t ≤ P.stop → Fit P.T t →
    (∃ x, (t, x) ∈ E.log i ∧ x k = some v) ∨ (¬ E.passed i t ∧ E.could i t)
  origin : ∀ i t x k v, (t, x) ∈ E.log i → x k = some v → Gen P E.log i t k v
  cause : ∀ i t x, (t, x) ∈ E.log i → t = P.first ∨ t = P.stop ∨ ∃ k v, x k = some v
  hop : ∀ j s d w m, E.could j s → d < P.T.n → (j, w) ∈ P.T.up d → Fit P.T m → lf_delay_tag s w ≤ m → m ≤ P.stop →
    ¬ E.passed d m ∧ E.could d m

/-- Something before: an earlier tag, or the same one at a federate before. -/
def Before (P : Program V) (rank : Nat → Nat) (a b : Tag × Nat) : Prop :=
  P.first ≤ a.1 ∧ (a.1 < b.1 ∨ (a.1 = b.1 ∧ rank a.2 < rank b.2))

theorem Before.wf (P : Program V) (rank : Nat → Nat) : WellFounded (Before P rank) := by
  let f : Tag × Nat → Nat × Nat × Nat := fun a => ((a.1.time - P.start + 1).toNat, a.1.microstep, rank a.2)
  have hw : WellFounded (Prod.Lex (· < · : Nat → Nat → Prop) (Prod.Lex (· < · : Nat → Nat → Prop) (· < · : Nat → Nat → Prop))) :=
    WellFounded.prod_lex Nat.lt_wfRel.wf (WellFounded.prod_lex Nat.lt_wfRel.wf Nat.lt_wfRel.wf)
  refine Subrelation.wf ?_ (InvImage.wf f hw)
  rintro ⟨a, i⟩ ⟨b, j⟩ ⟨h1, h2⟩
  show Prod.Lex _ _ (f (a, i)) (f (b, j))
  dsimp only at h1 h2
  have h3 : P.start ≤ a.time := by rw [Tag.le_def] at h1; dsimp only at h1; omega
  rcases h2 with h2 | ⟨rfl, h2⟩
  · rw [Tag.lt_def] at h2
    rcases h2 with h2 | ⟨h2, h2'⟩
    · refine .left _ _ ?_
      show (a.time - P.start + 1).toNat < (b.time - P.start + 1).toNat
      omega
    · have : (a.time - P.start + 1).toNat = (b.time - P.start + 1).toNat := by rw [h2]
      show Prod.Lex _ _ ((a.time - P.start + 1).toNat, _) ((b.time - P.start + 1).toNat, _)
      rw [this]
      exact .right _ (.left _ _ h2')
  · exact .right _ (.right _ h2)

theorem delay_before {T : Topology} {s m : Tag} {w : Int} (hs : Fit T s) (hw : 0 ≤ w) (h : lf_delay_tag s w ≤ m) : s < m := by
  rcases hs.1 with k | ⟨k1, k2, k3⟩
  · exact absurd k hs.2
  · have hF : FOREVER = 9223372036854775807 := rfl
    have hU : UINT_MAX = 4294967295 := rfl
    refine Tag.lt_of_lt_of_le ?_ h
    have hw' : wrapU32 (s.microstep + 1) = s.microstep + 1 := by unfold wrapU32; omega
    rcases lf_delay_tag_cases s w with k | k | k | k
    · have hN : NEVER = -9223372036854775808 := rfl
      omega
    · rw [k.2.2.2]; tag_omega
    · rw [k.2.2.2, hw']; tag_omega
    · rw [k.2.2.2]; tag_omega

theorem pairwise_unique {l : List (Entry V)} (h : l.Pairwise fun a b => b.1 < a.1) {t : Tag} {x y : Inputs V} (hx : (t, x) ∈ l)
    (hy : (t, y) ∈ l) : x = y := by
  induction l with
  | nil => cases hx
  | cons a l ih =>
    obtain ⟨h1, h2⟩ := List.pairwise_cons.1 h
    rcases List.mem_cons.1 hx with e | kx <;> rcases List.mem_cons.1 hy with e' | ky
    · exact (Prod.mk.inj (e.trans e'.symm)).2
    · have := h1 _ ky; rw [← e] at this; exact absurd this (Tag.lt_irrefl _)
    · have := h1 _ kx; rw [← e'] at this; exact absurd this (Tag.lt_irrefl _)
    · exact ih h2 kx ky

theorem pairwise_ext {l m : List (Entry V)} (hl : l.Pairwise fun a b => b.1 < a.1) (hm : m.Pairwise fun a b => b.1 < a.1)
    (h : ∀ x, x ∈ l ↔ x ∈ m) : l = m := by
  induction l generalizing m with
  | nil =>
    cases m with
    | nil => rfl
    | cons b m => exact absurd ((h b).2 List.mem_cons_self) (by simp)
  | cons a l ih =>
    cases m with
    | nil => exact absurd ((h a).1 List.mem_cons_self) (by simp)
    | cons b m =>
      obtain ⟨h1, h2⟩ := List.pairwise_cons.1 hl
      obtain ⟨k1, k2⟩ := List.pairwise_cons.1 hm
      have hab : a = b := by
        rcases List.mem_cons.1 ((h a).1 List.mem_cons_self) with e | e
        · exact e
        · rcases List.mem_cons.1 ((h b).2 List.mem_cons_self) with e' | e'
          · exact e'.symm
          · exact absurd (Tag.lt_trans (h1 _ e') (k1 _ e)) (Tag.lt_irrefl _)
      subst hab
      congr 1
      refine ih h2 k2 fun x => ⟨fun hx => ?_, fun hx => ?_⟩
      · rcases List.mem_cons.1 ((h x).1 (List.mem_cons_of_mem _ hx)) with rfl | e
        · exact absurd (h1 _ hx) (Tag.lt_irrefl _)
        · exact e
      · rcases List.mem_cons.1 ((h x).2 (List.mem_cons_of_mem _ hx)) with rfl | e
        · exact absurd (k1 _ hx) (Tag.lt_irrefl _)
        · exact e

/-- The part of a record up to one of its tags begins with this. -/
theorem upTo_head {l : List (Entry V)} (hl : l.Pairwise fun a b => b.1 < a.1) {x : Entry V} (hx : x ∈ l) :
    ∃ y h, upTo x.1 l = y :: h ∧ y.1 = x.1 := by
  induction l with
  | nil => cases hx
  | cons a l ih =>
    obtain ⟨h1, h2⟩ := List.pairwise_cons.1 hl
    unfold upTo
    rw [List.filter_cons]
    split
    · rename_i k
      rw [decide_eq_true_eq] at k
      refine ⟨a, _, rfl, ?_⟩
      rcases List.mem_cons.1 hx with rfl | hx
      · rfl
      · exact absurd (h1 x hx) (Tag.not_lt.2 k)
    · rename_i k
      rw [decide_eq_true_eq] at k
      rcases List.mem_cons.1 hx with rfl | hx
      · exact absurd (Tag.le_refl _) k
      · exact ih h2 hx

section
variable {P : Program V} {rank : Nat → Nat}

/-- What is claimed at a tag of a federate: whoever has got there has executed the same; and what the one has executed, the
other, if not there yet, might still do. -/
def Claim (P : Program V) (A B : Exec V) (t : Tag) (i : Nat) : Prop :=
  (A.passed i t → B.passed i t → ∀ x, (t, x) ∈ A.log i → (t, x) ∈ B.log i) ∧
  (∀ x, (t, x) ∈ A.log i → ¬ B.passed i t → B.could i t)

theorem upTo_eq {A B : Exec V} (hA : A.Good P) (hB : B.Good P) {i : Nat} {s : Tag}
    (hab : ∀ u, P.first ≤ u → u ≤ s → Claim P A B u i) (hba : ∀ u, P.first ≤ u → u ≤ s → Claim P B A u i)
    (pa : A.passed i s) (pb : B.passed i s) : upTo s (A.log i) = upTo s (B.log i) := by
  refine pairwise_ext ((hA.sorted i).filter _) ((hB.sorted i).filter _) fun x => ?_
  unfold upTo
  rw [List.mem_filter, List.mem_filter, decide_eq_true_eq]
  constructor
  · rintro ⟨h1, h2⟩
    have hs := (hA.fits i x h1).2.1
    exact ⟨(hab x.1 hs h2).1 (hA.down i s _ pa h2) (hB.down i s _ pb h2) x.2 h1, h2⟩
  · rintro ⟨h1, h2⟩
    have hs := (hB.fits i x h1).2.1
    exact ⟨(hba x.1 hs h2).1 (hB.down i s _ pb h2) (hA.down i s _ pa h2) x.2 h1, h2⟩

/-- What gives rise to an event in the one execution does so in the other, or might still. -/
theorem transfer (hP : P.Ok rank) {A B : Exec V} (hA : A.Good P) (hB : B.Good P) {t : Tag} {i : Nat} (hi : i < P.T.n)
    (ht : t ≤ P.stop) (hf : Fit P.T t)
    (ih : ∀ u j, Before P rank (u, j) (t, i) → Claim P A B u j ∧ Claim P B A u j) {k : Nat} {v : V}
    (hg : Gen P A.log i t k v) : Gen P B.log i t k v ∨ (¬ B.passed i t ∧ B.could i t) := by
  -- an entry of the sender, or of the federate itself, before
  have key : ∀ j (x : Entry V), x ∈ A.log j → Before P rank (x.1, j) (t, i) →
      (x ∈ B.log j ∧ upTo x.1 (A.log j) = upTo x.1 (B.log j)) ∨ (¬ B.passed j x.1 ∧ B.could j x.1) := by
    intro j x hx hb
    by_cases pb : B.passed j x.1
    · left
      have pa := hA.reached j x hx
      refine ⟨(ih _ _ hb).1.1 pa pb x.2 hx, ?_⟩
      have hb' : ∀ u, P.first ≤ u → u ≤ x.1 → Before P rank (u, j) (t, i) := by
        intro u h1 h2
        refine ⟨h1, ?_⟩
        rcases Tag.lt_or_eq_of_le h2 with h2 | rfl
        · left
          rcases hb.2 with h3 | h3
          · exact Tag.lt_trans h2 h3
          · exact h3.1 ▸ h2
        · exact hb.2
      exact upTo_eq hA hB (fun u h1 h2 => (ih _ _ (hb' u h1 h2)).1) (fun u h1 h2 => (ih _ _ (hb' u h1 h2)).2) pa pb
    · right
      exact ⟨pb, (ih _ _ hb).1.2 x.2 hx pb⟩
  cases hg with
  | init h => exact .inl (.init h)
  | @sched _ x e hx he =>
    have hlt : x.1 < e.1 := by
      obtain ⟨y, h, hy⟩ := upTo_head (hA.sorted i) hx
      rw [hy.1] at he
      rw [← hy.2]
      exact hP.later i y h e he
    rcases key i x hx ⟨(hA.fits i x hx).2.1, .inl hlt⟩ with ⟨h1, h2⟩ | ⟨h1, h2⟩
    · rw [h2] at he; exact .inl (.sched h1 he)
    · exact .inr ⟨fun p => h1 (hB.down i _ _ p (Tag.le_of_lt hlt)), hB.raise i _ _ h2 (Tag.le_of_lt hlt) hf⟩
  | @mail j x o hx ho hs =>
    obtain ⟨hd, hc⟩ := hP.dest j _ o ho
    have hb : Before P rank (x.1, j) (lf_delay_tag x.1 o.delay, o.dest) := by
      refine ⟨(hA.fits j x hx).2.1, ?_⟩
      by_cases hw : 0 ≤ o.delay
      · exact .inl (delay_before (hA.fits j x hx).2.2.2 hw (Tag.le_refl _))
      · right
        exact ⟨(C04_delay_tag_no_delay _ _ (by omega)).symm, hP.rank _ _ _ hc (by omega)⟩
    rcases key j x hx hb with ⟨h1, h2⟩ | ⟨h1, h2⟩
    · rw [h2] at ho; exact .inl (.mail h1 ho hs)
    · exact .inr (hB.hop j _ _ _ _ h2 hd hc hf (Tag.le_refl _) ht)

theorem claim_step (hP : P.Ok rank) {A B : Exec V} (hA : A.Good P) (hB : B.Good P) {t : Tag} {i : Nat}
    (ih : ∀ u j, Before P rank (u, j) (t, i) → Claim P A B u j ∧ Claim P B A u j) : Claim P A B t i := by
  refine ⟨fun pa pb x hx => ?_, fun x hx pb => ?_⟩
  · obtain ⟨hi, h1, h2, hf⟩ := hA.fits i _ hx
    have get : ∀ k v, x k = some v → ∃ y, (t, y) ∈ B.log i ∧ y k = some v := by
      intro k v hk
      rcases transfer hP hA hB hi h2 hf ih (hA.origin i t x k v hx hk) with h | h
      · rcases hB.events i hi t k v h h2 hf with h | h
        · exact h
        · exact absurd pb h.1
      · exact absurd pb h.1
    obtain ⟨y, hy⟩ : ∃ y, (t, y) ∈ B.log i := by
      rcases hA.cause i t x hx with h | h | ⟨k, v, h⟩
      · subst h; exact (hB.first i hi).1 pb
      · subst h; exact (hB.last i hi hf).1 pb
      · obtain ⟨y, hy, _⟩ := get k v h
        exact ⟨y, hy⟩
    have : x = y := by
      funext k
      cases hk : x k with
      | some v =>
        obtain ⟨y', hy', hv⟩ := get k v hk
        rw [pairwise_unique (hB.sorted i) hy hy', hv]
      | none =>
        cases hk' : y k with
        | none => rfl
        | some v =>
          exfalso
          rcases transfer hP hB hA hi h2 hf (fun u j h => (ih u j h).symm) (hB.origin i t y k v hy hk') with h | h
          · rcases hA.events i hi t k v h h2 hf with ⟨x', hx', hv⟩ | h
            · rw [pairwise_unique (hA.sorted i) hx' hx, hk] at hv; cases hv
            · exact h.1 pa
          · exact h.1 pa
    rw [this]; exact hy
  · obtain ⟨hi, h1, h2, hf⟩ := hA.fits i _ hx
    rcases hA.cause i t x hx with h | h | ⟨k, v, h⟩
    · subst h; exact (hB.first i hi).2 pb
    · subst h; exact (hB.last i hi hf).2 pb
    · rcases transfer hP hA hB hi h2 hf ih (hA.origin i t x k v hx h) with h | h
      · rcases hB.events i hi t k v h h2 hf with ⟨y, hy, _⟩ | h
        · exact absurd (hB.reached i _ hy) pb
        · exact h.2
      · exact h.2

theorem claims (hP : P.Ok rank) {A B : Exec V} (hA : A.Good P) (hB : B.Good P) (t : Tag) (i : Nat) :
    Claim P A B t i ∧ Claim P B A t i := by
  have := (Before.wf P rank).induction (C := fun a => Claim P A B a.1 a.2 ∧ Claim P B A a.1 a.2) (t, i)
    (fun a ih => ⟨claim_step hP hA hB fun u j h => ih (u, j) h, claim_step hP hB hA fun u j h => (ih (u, j) h).symm⟩)
  exact this

/-- Two executions agree on everything that both have got to. -/
theorem agree (hP : P.Ok rank) {A B : Exec V} (hA : A.Good P) (hB : B.Good P) {t : Tag} {i : Nat} (pa : A.passed i t)
    (pb : B.passed i t) : upTo t (A.log i) = upTo t (B.log i) :=
  upTo_eq hA hB (fun u _ _ => (claims hP hA hB u i).1) (fun u _ _ => (claims hP hA hB u i).2) pa pb

end

end ReactorC.FedDet
