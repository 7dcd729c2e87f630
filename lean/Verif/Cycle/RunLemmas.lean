import Verif.Cycle.RunSpec
import Verif.Cycle.Inv

/-!
# C86: the invariant
-/

namespace ReactorC.Cycle.Run
open ReactorC
variable {S V : Type} {M : Federation S V} {x : Nat → S}

/-! ### One connection -/

/-- What holds of one connection: `ta m` is the tag for which it is that is sent at tag `m`, `o m` what is sent, `ch` what is on the way,
`kn` what is known about the port, `i` the inputs. -/
structure ChanOk (ta : Nat → Tag) (o : Nat → Option V) (sent past : Nat → Prop) (ch : List (Tag × Option V)) (kn : Tag)
    (i : Tag → Option V) : Prop where
  sorted : ch.Pairwise fun a b => a.1 < b.1
  origin : ∀ e ∈ ch, ∃ m, sent m ∧ e = (ta m, o m)
  status : ∀ m, sent m → ((ta m, o m) ∈ ch ∧ i (ta m) = none) ∨ (ta m ≤ kn ∧ i (ta m) = o m)
  unknown : ∀ e ∈ ch, kn < e.1
  future : ∀ m, ¬ past m → kn < ta m
  ord : ∀ m m', sent m → ¬ past m' → m < m'
  notSent : ∀ m, ¬ sent m → i (ta m) = none
  gap : ∀ t, (∀ m, t ≠ ta m) → i t = none

theorem mono_lt {ta : Nat → Tag} (h : ∀ m, ta m < ta (m + 1)) {a b : Nat} (hab : a < b) : ta a < ta b := by
  induction hab with
  | refl => exact h a
  | step _ ih => exact Tag.lt_trans ih (h _)

theorem mono_le {ta : Nat → Tag} (h : ∀ m, ta m < ta (m + 1)) {a b : Nat} (hab : a ≤ b) : ta a ≤ ta b := by
  rcases Nat.lt_or_eq_of_le hab with h1 | h1
  · exact Tag.le_of_lt (mono_lt h h1)
  · rw [h1]
    exact Tag.le_refl _

theorem lt_of_mono {ta : Nat → Tag} (h : ∀ m, ta m < ta (m + 1)) {a b : Nat} (hab : ta a < ta b) : a < b := by
  by_contra hn
  exact absurd hab (Tag.not_lt.2 (mono_le h (by omega)))

theorem le_of_mono {ta : Nat → Tag} (h : ∀ m, ta m < ta (m + 1)) {a b : Nat} (hab : ta a ≤ ta b) : a ≤ b := by
  by_contra hn
  exact absurd hab (Tag.not_le.2 (mono_lt h (by omega)))

theorem inj_of_mono {ta : Nat → Tag} (h : ∀ m, ta m < ta (m + 1)) {a b : Nat} (hab : ta a = ta b) : a = b := by
  have h1 := le_of_mono h (a := a) (b := b) (by rw [hab]; exact Tag.le_refl _)
  have h2 := le_of_mono h (a := b) (b := a) (by rw [hab]; exact Tag.le_refl _)
  omega

variable {ta : Nat → Tag} {o o' : Nat → Option V} {sent sent' past past' : Nat → Prop} {ch : List (Tag × Option V)} {kn kn' : Tag}
  {i : Tag → Option V}

theorem ChanOk.mono (h : ChanOk ta o sent past ch kn i) (hs : ∀ m, sent' m ↔ sent m) (ho : ∀ m, sent m → o' m = o m)
    (hp : ∀ m, past m → past' m) : ChanOk ta o' sent' past' ch kn i := by
  refine ⟨h.sorted, ?_, ?_, h.unknown, fun m hm => h.future m fun hc => hm (hp m hc), ?_, fun m hm => h.notSent m fun hc => hm ((hs m).2 hc), h.gap⟩
  · intro e he
    obtain ⟨m, h1, h2⟩ := h.origin e he
    exact ⟨m, (hs m).2 h1, by rw [ho m h1]; exact h2⟩
  · intro m hm
    rw [ho m ((hs m).1 hm)]
    exact h.status m ((hs m).1 hm)
  · exact fun m m' h1 h2 => h.ord m m' ((hs m).1 h1) fun hc => h2 (hp m' hc)

theorem ChanOk.raise (h : ChanOk ta o sent past ch kn i) (hk : kn ≤ kn') (hc : ∀ e ∈ ch, kn' < e.1) (hf : ∀ m, ¬ past m → kn' < ta m) :
    ChanOk ta o sent past ch kn' i := by
  refine ⟨h.sorted, h.origin, ?_, hc, hf, h.ord, h.notSent, h.gap⟩
  intro m hm
  rcases h.status m hm with h1 | ⟨h1, h2⟩
  · exact Or.inl h1
  · exact Or.inr ⟨Tag.le_trans h1 hk, h2⟩

theorem ChanOk.arrive {t : Tag} {v : Option V} {i' : Tag → Option V} (hm : ∀ m, ta m < ta (m + 1))
    (h : ChanOk ta o sent past ((t, v) :: ch) kn i) (h1 : i' t = v) (h2 : ∀ t', t' ≠ t → i' t' = i t') : ChanOk ta o sent past ch t i' := by
  obtain ⟨m0, hs0, e0⟩ := h.origin (t, v) List.mem_cons_self
  obtain ⟨e1, e2⟩ := Prod.mk.inj e0
  have hkn := h.unknown (t, v) List.mem_cons_self
  have hso := List.pairwise_cons.1 h.sorted
  refine ⟨hso.2, fun e he => h.origin e (List.mem_cons_of_mem _ he), ?_, hso.1, ?_, h.ord, ?_, ?_⟩
  · intro m hsm
    by_cases e : ta m = t
    · have : m = m0 := inj_of_mono hm (by rw [e, e1])
      right
      rw [e, h1, e2, this]
      exact ⟨Tag.le_refl _, rfl⟩
    · rw [h2 _ e]
      rcases h.status m hsm with ⟨h3, h4⟩ | ⟨h3, h4⟩
      · left
        refine ⟨?_, h4⟩
        rcases List.mem_cons.1 h3 with h5 | h5
        · exact absurd (Prod.mk.inj h5).1 e
        · exact h5
      · exact Or.inr ⟨Tag.le_of_lt (Tag.lt_of_le_of_lt h3 hkn), h4⟩
  · intro m hp
    rw [e1]
    exact mono_lt hm (h.ord m0 m hs0 hp)
  · intro m hns
    rw [h2]
    · exact h.notSent m hns
    · intro e
      have : m = m0 := inj_of_mono hm (by rw [e, e1])
      exact hns (this ▸ hs0)
  · intro t' ht'
    rw [h2]
    · exact h.gap t' ht'
    · intro e
      exact ht' m0 (by rw [e, e1])

theorem ChanOk.send {m0 : Nat} (hm : ∀ m, ta m < ta (m + 1)) (h : ChanOk ta o sent past ch kn i) (hp0 : ¬ past m0) (hpast : ∀ m, sent m → past m)
    (hs : ∀ m, sent' m ↔ sent m ∨ m = m0) (ho : ∀ m, sent m → o' m = o m) (hp : ∀ m, past m → past' m) (hp' : past' m0) (hord : ∀ m, m < m0 → past m) :
    ChanOk ta o' sent' past' (ch ++ [(ta m0, o' m0)]) kn i := by
  refine ⟨?_, ?_, ?_, ?_, fun m hpm => h.future m fun hc => hpm (hp m hc), ?_, fun m hm => h.notSent m fun hc => hm ((hs m).2 (Or.inl hc)), h.gap⟩
  · rw [List.pairwise_append]
    refine ⟨h.sorted, List.pairwise_singleton _ _, ?_⟩
    intro a ha b hb
    obtain ⟨m, h1, h2⟩ := h.origin a ha
    rw [List.mem_singleton] at hb
    subst hb h2
    exact mono_lt hm (h.ord m m0 h1 hp0)
  · intro e he
    rcases List.mem_append.1 he with he | he
    · obtain ⟨m, h1, h2⟩ := h.origin e he
      exact ⟨m, (hs m).2 (Or.inl h1), by rw [ho m h1]; exact h2⟩
    · rw [List.mem_singleton] at he
      exact ⟨m0, (hs m0).2 (Or.inr rfl), he⟩
  · intro m hsm
    rcases (hs m).1 hsm with h1 | h1
    · rw [ho m h1]
      rcases h.status m h1 with ⟨h2, h3⟩ | h2
      · exact Or.inl ⟨List.mem_append_left _ h2, h3⟩
      · exact Or.inr h2
    · subst h1
      left
      exact ⟨List.mem_append_right _ (List.mem_singleton.2 rfl), h.notSent m fun hc => hp0 (hpast m hc)⟩
  · intro e he
    rcases List.mem_append.1 he with he | he
    · exact h.unknown e he
    · rw [List.mem_singleton] at he
      subst he
      exact h.future m0 hp0
  · intro m m' h1 h2
    rcases (hs m).1 h1 with h3 | h3
    · exact h.ord m m' h3 fun hc => h2 (hp m' hc)
    · subst h3
      by_contra hlt
      rcases Nat.lt_or_eq_of_le (Nat.le_of_not_lt hlt) with h4 | h4
      · exact h2 (hp m' (hord m' h4))
      · exact h2 (h4 ▸ hp')

/-! ### The federation -/

/-- What is sent on connection `k` at tag `m`. -/
def sends (M : Federation S V) (s : State S V) (k m : Nat) : Option V :=
  M.P.out k ((s.fed (M.P.conn k).src).tr m (M.P.conn k).sendLevel)

/-- The number of the tag at which the source of connection `k` is. -/
def srcN (M : Federation S V) (s : State S V) (k : Nat) : Nat := (s.fed (M.P.conn k).src).n

def srcPos (M : Federation S V) (s : State S V) (k : Nat) : Nat := pos M.P (M.P.conn k).src (s.fed (M.P.conn k).src).pc

def Sent (M : Federation S V) (s : State S V) (k m : Nat) : Prop :=
  (m < srcN M s k ∧ ((sends M s k m).isSome = true ∨ (M.P.conn k).tells = true)) ∨
  (m = srcN M s k ∧ (((M.P.conn k).sendLevel < srcPos M s k ∧ (sends M s k m).isSome = true) ∨
    ((M.P.conn k).absLevel < srcPos M s k ∧ (M.P.conn k).tells = true ∧ sends M s k m = none)))

def Past (M : Federation S V) (s : State S V) (k m : Nat) : Prop := m < srcN M s k ∨ Sent M s k m

/-- The federate as it is seen at its tag. -/
def view (M : Federation S V) (f : Node S V) : Fed S V := ⟨f.lv, f.pc, f.st, f.inp (M.tau f.n), f.tr f.n⟩

def NodeInv (M : Federation S V) (j : Nat) (f : Node S V) : Prop :=
  FedInv M.P (M.tau f.n) (fun _ => f.tr f.n 0) j (view M f)

structure Hist (M : Federation S V) (x : Nat → S) (j : Nat) (f : Node S V) : Prop where
  zero : f.tr 0 0 = M.enter j 0 (x j)
  next : ∀ m < f.n, f.tr (m + 1) 0 = M.enter j (m + 1) (f.tr m (M.P.levels j))
  step : ∀ m < f.n, ∀ L < M.P.levels j, f.tr m (L + 1) = M.P.exec j L (f.tr m L) (f.inp (M.tau m))

/-- Nothing is on the way on connection `k`, or will be, for tags before `i`. -/
def Ahead (M : Federation S V) (s : State S V) (k i : Nat) : Prop :=
  (∀ e ∈ s.chan k, M.tau i ≤ e.1) ∧ ∀ m, ¬ Past M s k m → i ≤ M.arr k m

def ChanInv (M : Federation S V) (s : State S V) (k : Nat) : Prop :=
  ChanOk (fun m => M.tau (M.arr k m)) (sends M s k) (Sent M s k) (Past M s k) (s.chan k)
    ((s.fed (M.P.conn k).dst).lv.known (M.P.conn k).port) (fun t => (s.fed (M.P.conn k).dst).inp t (M.P.conn k).port)

/-- `PtagIn` if there are no connections with a delay between cycles. -/
def PtagOk (M : Federation S V) (s : State S V) (j i : Nat) : Prop :=
  ∀ k < M.P.nc, (M.P.conn k).dst = j → if cyc M k = true then SettledBefore M s k i else Settled M s k i

theorem ptagIn_iff (hw : WF M) {s : State S V} {j i : Nat} : PtagIn M s j i ↔ PtagOk M s j i := by
  have : ∀ k < M.P.nc, lax M k = cyc M k := by
    intro k hk
    have := hw.rings k hk
    unfold lax cyc
    cases hd : M.delayed k with
    | false => cases M.P.zdc (M.P.conn k).src <;> cases M.P.zdc (M.P.conn k).dst <;> rfl
    | true =>
      cases h1 : M.P.zdc (M.P.conn k).src with
      | false => rfl
      | true =>
        cases h2 : M.P.zdc (M.P.conn k).dst with
        | false => rfl
        | true => simp [this hd h1 h2]
  unfold PtagIn PtagOk
  constructor
  · intro h k hk
    rw [← this k hk]
    exact h k hk
  · intro h k hk
    rw [this k hk]
    exact h k hk

/-- What a grant for tag `i` in federate `f` says. -/
def Granted (M : Federation S V) (s : State S V) (j : Nat) (f : Node S V) : Prop :=
  ∀ i, f.n ≤ i → M.tau i ≤ f.lv.lastTAG → (i = f.n ∧ PtagOk M s j i) ∨ (AllIn M s j i ∧ ∀ p < (M.P.cfg j).n, M.tau i ≤ f.lv.known p)

structure Inv (M : Federation S V) (x : Nat → S) (s : State S V) : Prop where
  ok : s.fault = false
  fed : ∀ j < M.P.n, NodeInv M j (s.fed j)
  hist : ∀ j < M.P.n, Hist M x j (s.fed j)
  grants : ∀ j < M.P.n, Granted M s j (s.fed j)
  ahead : ∀ k < M.P.nc, Ahead M s k (s.fed (M.P.conn k).dst).n
  chan : ∀ k < M.P.nc, ChanInv M s k
  noConn : ∀ j < M.P.n, ∀ p, (∀ k < M.P.nc, ¬((M.P.conn k).dst = j ∧ (M.P.conn k).port = p)) → ∀ t, (s.fed j).inp t p = none

theorem WF.toLocal (hw : WF M) : Local M.P := by
  refine ⟨hw.central, ?_, hw.few, hw.reads⟩
  intro j hj p hp hc
  obtain ⟨k, hk, e1, e2, _⟩ := hw.connected j hj p hp hc
  subst e1 e2
  exact hw.logical k hk

theorem arr_mono (hw : WF M) {k : Nat} (hk : k < M.P.nc) {a b : Nat} (h : a < b) : M.arr k a < M.arr k b := by
  induction h with
  | refl => exact hw.inOrder k hk a
  | step _ ih => exact Nat.lt_trans ih (hw.inOrder k hk _)

theorem ta_mono (hw : WF M) {k : Nat} (hk : k < M.P.nc) (m : Nat) : M.tau (M.arr k m) < M.tau (M.arr k (m + 1)) :=
  mono_lt hw.tags (hw.inOrder k hk m)

theorem not_past {s : State S V} {k m : Nat} (h : ¬ Past M s k m) : srcN M s k ≤ m := by
  by_contra hn
  exact h (Or.inl (by omega))

theorem sent_le {s : State S V} {k m : Nat} (h : Sent M s k m) : m ≤ srcN M s k := by
  rcases h with h | h <;> omega

theorem settled_mono (hw : WF M) {s : State S V} {k i i' : Nat} (h : Settled M s k i) (hi : i' ≤ i) : Settled M s k i' :=
  ⟨fun m hm => h.1 m (by omega), fun e he => Tag.lt_of_le_of_lt (mono_le hw.tags hi) (h.2 e he)⟩

theorem init_inv (hw : WF M) {s : State S V} (h : Initial M x s) : Inv M x s := by
  have hno : ∀ k m, ¬ Sent M s k m := by
    intro k m
    have h1 : srcN M s k = 0 := h.n _
    have h2 : srcPos M s k = 0 := by
      unfold srcPos
      rw [h.pc]
      rfl
    unfold Sent
    rw [h1, h2]
    omega
  refine ⟨h.ok, fun j _ => ?_, fun j _ => ⟨h.tr j, ?_, ?_⟩, ?_, ?_, ?_, fun j _ p _ t => h.inp j t p⟩
  · have hp := h.pc j
    have hn := h.n j
    unfold NodeInv view
    rw [hn]
    refine ⟨h.running j, fun _ => h.cur j, fun hn => absurd hp hn, fun hl => absurd hl (Tag.not_le.2 (h.grant j)), fun hn => absurd hp hn, ?_, ?_, ?_,
      ?_, rfl, ?_, ?_⟩
    · intro L hL
      have hL : (s.fed j).lv.asleep L = true := hL
      rw [h.awake j L] at hL
      cases hL
    · intro L hL
      have hL : (s.fed j).pc = .level L := hL
      rw [hp] at hL
      cases hL
    · intro L hL
      have hL : (s.fed j).pc = .passed L := hL
      rw [hp] at hL
      cases hL
    · intro p _ _ hl
      dsimp only at hl
      rw [hp] at hl
      exact absurd hl (Nat.not_lt_zero _)
    · intro L hL
      dsimp only at hL
      rw [hp] at hL
      exact absurd hL (Nat.not_lt_zero _)
    · dsimp only
      rw [hp, h.st j]
      exact (h.tr j).symm
  · intro m hm
    rw [h.n j] at hm
    omega
  · intro m hm
    rw [h.n j] at hm
    omega
  · intro j _ i _ hl
    exact absurd (Tag.le_trans (mono_le hw.tags (Nat.zero_le i)) hl) (Tag.not_le.2 (h.grant j))
  · intro k hk
    refine ⟨?_, ?_⟩
    · rw [h.chan k]
      intro e he
      cases he
    · intro m _
      rw [h.n]
      exact Nat.zero_le _
  · intro k hk
    unfold ChanInv
    rw [h.chan k]
    refine ⟨List.Pairwise.nil, fun e he => (by cases he), fun m hm => absurd hm (hno k m), fun e he => (by cases he), ?_, fun m _ hm => absurd hm (hno k m),
      fun m _ => h.inp _ _ _, fun t _ => h.inp _ _ _⟩
    intro m _
    exact Tag.lt_of_lt_of_le (h.known _ _) (mono_le hw.tags (Nat.zero_le _))

/-! ### Steps of one federate -/

/-- Only federate `j` changes, and only what it knows and whether it waits. -/
theorem local_inv (hw : WF M) {s : State S V} (h : Inv M x s) {j : Nat} (hj : j < M.P.n) {f : Node S V} (hf : NodeInv M j f)
    (hn : f.n = (s.fed j).n) (htr : f.tr = (s.fed j).tr) (hinp : f.inp = (s.fed j).inp) (hpos : pos M.P j f.pc = pos M.P j (s.fed j).pc)
    (hknown : f.lv.known = (s.fed j).lv.known ∨ ∃ i, AllIn M s j i ∧ ∀ p, f.lv.known p = (s.fed j).lv.known p ∨
      ((s.fed j).lv.known p ≤ M.tau i ∧ f.lv.known p = M.tau i))
    (hgrant : Granted M s j f) : Inv M x { s with fed := upd s.fed j f } := by
  have hfed : ∀ i, i ≠ j → upd s.fed j f i = s.fed i := fun i hi => upd_other _ _ hi
  have hns : ∀ i, (upd s.fed j f i).n = (s.fed i).n := by
    intro i
    by_cases e : i = j
    · rw [e, upd_same, hn]
    · rw [hfed i e]
  have htrs : ∀ i, (upd s.fed j f i).tr = (s.fed i).tr := by
    intro i
    by_cases e : i = j
    · rw [e, upd_same, htr]
    · rw [hfed i e]
  have hinps : ∀ i, (upd s.fed j f i).inp = (s.fed i).inp := by
    intro i
    by_cases e : i = j
    · rw [e, upd_same, hinp]
    · rw [hfed i e]
  have hposs : ∀ i, pos M.P i (upd s.fed j f i).pc = pos M.P i (s.fed i).pc := by
    intro i
    by_cases e : i = j
    · rw [e, upd_same, hpos]
    · rw [hfed i e]
  generalize hs' : ({ s with fed := upd s.fed j f } : State S V) = s'
  have hfs : s'.fed = upd s.fed j f := by rw [← hs']
  have hch : s'.chan = s.chan := by rw [← hs']
  have e1 : ∀ k, srcN M s' k = srcN M s k := by
    intro k
    unfold srcN
    rw [hfs, hns]
  have e2 : ∀ k, srcPos M s' k = srcPos M s k := by
    intro k
    unfold srcPos
    rw [hfs, hposs]
  have e3 : ∀ k m, sends M s' k m = sends M s k m := by
    intro k m
    unfold sends
    rw [hfs, htrs]
  have e4 : ∀ k m, Sent M s' k m ↔ Sent M s k m := by
    intro k m
    unfold Sent
    rw [e1, e2, e3]
  have e5 : ∀ k m, Past M s' k m ↔ Past M s k m := by
    intro k m
    unfold Past
    rw [e1, e4]
  have hset : ∀ k i, Settled M s' k i ↔ Settled M s k i := by
    intro k i
    unfold Settled
    rw [hfs, hns, hch]
  have hsb : ∀ k i, SettledBefore M s' k i ↔ SettledBefore M s k i := by
    intro k i
    unfold SettledBefore
    rw [hfs, hns, hch]
  have hall : ∀ i m, AllIn M s' i m ↔ AllIn M s i m := by
    intro i m
    unfold AllIn
    simp only [hset]
  have hpt : ∀ i m, PtagOk M s' i m ↔ PtagOk M s i m := by
    intro i m
    unfold PtagOk
    simp only [hset, hsb]
  have hgr : ∀ i f, Granted M s i f → Granted M s' i f := by
    intro i f hg m hm hl
    rw [hall, hpt]
    exact hg m hm hl
  refine ⟨by rw [← hs']; exact h.ok, ?_, ?_, ?_, ?_, ?_, ?_⟩
  · intro i hi
    rw [hfs]
    by_cases e : i = j
    · rw [e, upd_same]
      exact hf
    · rw [hfed i e]
      exact h.fed i hi
  · intro i hi
    have := h.hist i hi
    refine ⟨?_, ?_, ?_⟩
    · rw [hfs, htrs]
      exact this.zero
    · rw [hfs, htrs, hns]
      exact this.next
    · rw [hfs, htrs, hns, hinps]
      exact this.step
  · intro i hi
    rw [hfs]
    by_cases e : i = j
    · rw [e, upd_same]
      exact hgr j f hgrant
    · rw [hfed i e]
      exact hgr i _ (h.grants i hi)
  · intro k hk
    obtain ⟨h1, h2⟩ := h.ahead k hk
    rw [hfs, hns]
    refine ⟨by rw [hch]; exact h1, fun m hm => h2 m fun hc => hm ((e5 k m).2 hc)⟩
  · intro k hk
    have hC := h.chan k hk
    unfold ChanInv at hC ⊢
    rw [hch, hfs, hinps]
    have hC' : ChanOk (fun m => M.tau (M.arr k m)) (sends M s' k) (Sent M s' k) (Past M s' k) (s.chan k)
        ((s.fed (M.P.conn k).dst).lv.known (M.P.conn k).port) (fun t => (s.fed (M.P.conn k).dst).inp t (M.P.conn k).port) :=
      hC.mono (e4 k) (fun m _ => e3 k m) (fun m hm => (e5 k m).2 hm)
    by_cases e : (M.P.conn k).dst = j
    · rw [e, upd_same]
      rw [e] at hC'
      rcases hknown with h1 | ⟨i, h1, h2⟩
      · rw [h1]
        exact hC'
      · rcases h2 (M.P.conn k).port with h3 | ⟨h3, h4⟩
        · rw [h3]
          exact hC'
        · rw [h4]
          have hS := h1 k hk e
          refine hC'.raise h3 hS.2 ?_
          intro m hm
          refine mono_lt hw.tags ?_
          by_contra hlt
          have := hS.1 m (by omega)
          exact hm (Or.inl (by rw [e1]; exact this))
    · rw [hfed _ e]
      exact hC'
  · intro i hi p hp t
    rw [hfs, hinps]
    exact h.noConn i hi p hp t

end ReactorC.Cycle.Run
