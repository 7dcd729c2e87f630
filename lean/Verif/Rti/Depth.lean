import Verif.Rti.GrantProps

/-!
# The recursions of the RTI are not deeper than the number of federates

`notify_provisional_tag_advance_grant` and `notify_downstream_advance_grant_if_safe` are recursive; the model gives both a
bound on the depth.  Here the bound is shown never to be reached, so that it is not a simplification.
-/

set_option linter.unusedSimpArgs false
set_option linter.unusedVariables false

namespace ReactorC.Rti
open ReactorC

section
variable {T : Topology} {start : Int}

theorem countP_mono' {p q : Nat → Bool} (l : List Nat) (h : ∀ x, p x = true → q x = true) :
    l.countP p ≤ l.countP q := by
  induction l with
  | nil => simp
  | cons a l ih =>
    rw [List.countP_cons, List.countP_cons]
    have := h a
    cases hp : p a <;> cases hq : q a <;> simp_all <;> omega

theorem countP_strict {p q : Nat → Bool} {l : List Nat} (h : ∀ x, p x = true → q x = true) {a : Nat} (ha : a ∈ l)
    (h1 : q a = true) (h2 : p a = false) : l.countP p < l.countP q := by
  induction l with
  | nil => cases ha
  | cons b l ih =>
    rw [List.countP_cons, List.countP_cons]
    have hm := countP_mono' l h
    rcases List.mem_cons.1 ha with e | e
    · subst e; rw [h1, h2]; simp; omega
    · have := ih e
      have := h b
      cases hp : p b <;> cases hq : q b <;> simp_all <;> omega

/-- How many nodes have not been granted `t` provisionally. -/
def pending (T : Topology) (t : Tag) (s : Rti) : Nat :=
  (List.range T.n).countP fun j => decide ((s.node j).lastProvisional < t)

/-- The bound was not reached, and provisional grants went forward. -/
def NotDeeper (a b : Rti) : Prop :=
  b.deep = a.deep ∧ ∀ j, (a.node j).lastProvisional ≤ (b.node j).lastProvisional

theorem NotDeeper.refl (a : Rti) : NotDeeper a a := ⟨rfl, fun _ => Tag.le_refl _⟩

theorem NotDeeper.trans {a b c : Rti} (h1 : NotDeeper a b) (h2 : NotDeeper b c) : NotDeeper a c :=
  ⟨h2.1.trans h1.1, fun j => Tag.le_trans (h1.2 j) (h2.2 j)⟩

theorem notDeeper_setNode (s : Rti) (i : Nat) (f : Node → Node)
    (h : (s.node i).lastProvisional ≤ (f (s.node i)).lastProvisional) : NotDeeper s (s.setNode i f) := by
  refine ⟨rfl, fun j => ?_⟩
  by_cases e : j = i
  · subst e; rw [setNode_same]; exact h
  · rw [setNode_other _ _ e]; exact Tag.le_refl _

theorem Quiet.notDeeper {a b : Rti} (h : Quiet T start a b) : NotDeeper a b := by
  induction h with
  | refl => exact .refl _
  | @cache s' i _ _ ih =>
    refine ih.trans ?_
    rcases @updateMin_cases T i s' with ⟨c, _, h⟩ | ⟨hn, h⟩
    · rw [h]; exact .refl _
    · rw [h]; exact notDeeper_setNode _ _ _ (Tag.le_refl _)
  | @heard s' i _ ih =>
    refine ih.trans ?_
    rcases @heard_cases start i s' with ⟨_, h⟩ | ⟨hn, h⟩
    · rw [h]; exact .refl _
    · rw [h]; exact notDeeper_setNode _ _ _ (Tag.le_refl _)

theorem pending_mono {t : Tag} {a b : Rti} (h : NotDeeper a b) : pending T t b ≤ pending T t a := by
  refine countP_mono' _ fun x hx => ?_
  rw [decide_eq_true_iff] at hx ⊢
  exact Tag.lt_of_le_of_lt (h.2 x) hx

theorem notifyTag_notDeeper (i : Nat) (t : Tag) (s : Rti) : NotDeeper s (notifyTag i t s) := by
  unfold notifyTag
  split
  · exact .refl _
  · split
    · exact notDeeper_setNode _ _ _ (Tag.le_refl _)
    · exact NotDeeper.trans (b := s.write i (.tag t)) ⟨rfl, fun _ => Tag.le_refl _⟩
        (notDeeper_setNode _ _ _ (Tag.le_refl _))

theorem notifyProvisional_notDeeper (h0 : 0 ≤ start) (hT : T.Ok) (t : Tag) (depth : Nat) :
    ∀ {i : Nat} {s : Rti}, i < T.n → pending T t s < depth → NotDeeper s (notifyProvisional T start depth i t s) := by
  induction depth with
  | zero => intro i s _ h; omega
  | succ depth ihd =>
    intro i s hi hp
    unfold notifyProvisional
    by_cases hg : (s.node i).connected = false ∨ lf_tag_compare t (s.node i).lastGranted ≤ 0 ∨
        lf_tag_compare t (s.node i).lastProvisional ≤ 0
    · rw [if_pos hg]; exact .refl s
    · rw [if_neg hg]
      simp only [cmp_le_zero, cmp_lt_zero, not_or, Tag.not_le, Tag.not_lt, Bool.not_eq_false] at hg
      split
      · exact notDeeper_setNode _ _ _ (Tag.le_refl _)
      · have hs : NotDeeper s ((s.write i (.ptag t)).setNode i fun nd => { nd with lastProvisional := t }) :=
          NotDeeper.trans (b := s.write i (.ptag t)) ⟨rfl, fun _ => Tag.le_refl _⟩
            (notDeeper_setNode _ _ _ (Tag.le_of_lt hg.2.2))
        have hlt : pending T t ((s.write i (.ptag t)).setNode i fun nd => { nd with lastProvisional := t }) <
            pending T t s := by
          refine countP_strict (a := i) (fun x hx => ?_) (List.mem_range.2 hi) ?_ ?_
          · rw [decide_eq_true_iff] at hx ⊢
            exact Tag.lt_of_le_of_lt (hs.2 x) hx
          · rw [decide_eq_true_iff]; exact hg.2.2
          · rw [decide_eq_false_iff_not, setNode_same]; exact Tag.lt_irrefl _
        refine hs.trans ?_
        have hr : ∀ e ∈ T.up i, e.1 < T.n := fun e he => hT.range i e.1 e.2 he
        have hq : pending T t ((s.write i (.ptag t)).setNode i fun nd => { nd with lastProvisional := t }) < depth := by
          omega
        generalize T.up i = es at hr
        generalize ((s.write i (.ptag t)).setNode i fun nd => { nd with lastProvisional := t }) = a at hq
        clear hlt hs
        induction es generalizing a with
        | nil => exact .refl a
        | cons e es ih =>
          rw [List.foldl_cons]
          have he := hr e List.mem_cons_self
          have hrs : ∀ e ∈ es, e.1 < T.n := fun e he => hr e (List.mem_cons_of_mem _ he)
          have key : ∀ b, NotDeeper a b → NotDeeper a (es.foldl _ b) := fun b hb =>
            hb.trans (ih hrs b (Nat.lt_of_le_of_lt (pending_mono hb) hq))
          refine key _ ?_
          by_cases hcn : (a.node e.1).connected = true
          · rw [if_pos hcn]
            obtain ⟨s1, d, h1, h2, h3, h4, _⟩ := eimt_spec h0 he a
            rw [h1]
            dsimp only
            have q2 := @eimtStrict_quiet T start h0 hT e.1 s1
            generalize hs2 : eimtStrict T start e.1 s1 = r at q2 ⊢
            obtain ⟨s2, ds⟩ := r
            dsimp only at q2 ⊢
            have q := (h2.trans q2).notDeeper
            split
            · exact q.trans (notifyTag_notDeeper _ _ _)
            · split
              · exact q.trans (ihd he (Nat.lt_of_le_of_lt (pending_mono q) hq))
              · exact q
          · rw [if_neg hcn]; exact .refl a

theorem pending_le (t : Tag) (s : Rti) : pending T t s ≤ T.n := by
  have := List.countP_le_length (p := fun j => decide ((s.node j).lastProvisional < t)) (l := List.range T.n)
  rw [List.length_range] at this
  exact this

theorem notifyIfSafe_notDeeper (h0 : 0 ≤ start) (hT : T.Ok) {i : Nat} (hi : i < T.n) (s : Rti) :
    NotDeeper s (notifyIfSafe T start i s) := by
  obtain ⟨s', t, p, h1, h2, _⟩ := tagAdvanceGrantIfSafe_spec h0 hT hi s
  unfold notifyIfSafe
  rw [h1]
  dsimp only
  split
  · split
    · exact h2.notDeeper.trans (notifyProvisional_notDeeper h0 hT t _ hi (Nat.lt_succ_of_le (pending_le t s')))
    · exact h2.notDeeper.trans (notifyTag_notDeeper _ _ _)
  · exact h2.notDeeper

/-- How many nodes have not been visited. -/
def unvisited (T : Topology) (v : Nat → Bool) : Nat := (List.range T.n).countP fun j => !v j

theorem notifyDownstream_notDeeper (h0 : 0 ≤ start) (hT : T.Ok) (hD : T.DownOk) (depth : Nat) :
    ∀ (i : Nat) (a : Rti × (Nat → Bool)), i < T.n → a.2 i = false → unvisited T a.2 < depth →
      NotDeeper a.1 (notifyDownstream T start depth i a).1 ∧
      ∀ j, a.2 j = true → (notifyDownstream T start depth i a).2 j = true := by
  induction depth with
  | zero => intro i a _ _ h; omega
  | succ depth ihd =>
    intro i a hi hv hu
    unfold notifyDownstream
    have hlt : unvisited T (put a.2 i true) < unvisited T a.2 := by
      refine countP_strict (a := i) (fun x hx => ?_) (List.mem_range.2 hi) ?_ ?_
      · by_cases e : x = i
        · subst e; rw [put_same] at hx; simp at hx
        · rw [put_other _ _ _ e] at hx; exact hx
      · rw [hv]; rfl
      · rw [put_same]; rfl
    have hr : ∀ j ∈ T.down i, j < T.n := fun j hj => hD i j hj
    have hmono : ∀ j, a.2 j = true → put a.2 i true j = true := by
      intro j hj
      by_cases e : j = i
      · subst e; exact put_same _ _ _
      · rw [put_other _ _ _ e]; exact hj
    have hq : unvisited T (put a.2 i true) < depth := by omega
    suffices H : ∀ (l : List Nat) (b : Rti × (Nat → Bool)), (∀ j ∈ l, j < T.n) → unvisited T b.2 < depth →
        NotDeeper b.1 (l.foldl (fun (a : Rti × (Nat → Bool)) (j : Nat) =>
          if a.2 j then a else notifyDownstream T start depth j (notifyIfSafe T start j a.1, a.2)) b).1 ∧
        ∀ j, b.2 j = true → (l.foldl (fun (a : Rti × (Nat → Bool)) (j : Nat) =>
          if a.2 j then a else notifyDownstream T start depth j (notifyIfSafe T start j a.1, a.2)) b).2 j = true by
      obtain ⟨h1, h2⟩ := H (T.down i) (a.1, put a.2 i true) hr hq
      exact ⟨h1, fun j hj => h2 j (hmono j hj)⟩
    intro l
    induction l with
    | nil => intro b _ _; exact ⟨.refl _, fun _ h => h⟩
    | cons j l ih =>
      intro b hl hb
      rw [List.foldl_cons]
      have hls : ∀ j ∈ l, j < T.n := fun x hx => hl x (List.mem_cons_of_mem _ hx)
      by_cases hj : b.2 j = true
      · rw [if_pos hj]; exact ih b hls hb
      · rw [if_neg hj]
        have hjn := hl j List.mem_cons_self
        obtain ⟨k1, k2⟩ := ihd j (notifyIfSafe T start j b.1, b.2) hjn (by simpa using hj) hb
        have hle : unvisited T (notifyDownstream T start depth j (notifyIfSafe T start j b.1, b.2)).2 ≤ unvisited T b.2 := by
          refine countP_mono' _ fun x hx => ?_
          have := k2 x
          dsimp only at this
          cases hbx : b.2 x
          · rfl
          · rw [this hbx] at hx; simp at hx
        obtain ⟨k3, k4⟩ := ih (notifyDownstream T start depth j (notifyIfSafe T start j b.1, b.2)) hls (by omega)
        exact ⟨(notifyIfSafe_notDeeper h0 hT hjn b.1).trans (k1.trans k3), fun x hx => k4 x (k2 x hx)⟩

theorem notifyAllDownstream_notDeeper (h0 : 0 ≤ start) (hT : T.Ok) (hD : T.DownOk) {i : Nat} (hi : i < T.n) (s : Rti) :
    NotDeeper s (notifyAllDownstream T start i s) := by
  refine (notifyDownstream_notDeeper h0 hT hD (T.n + 1) i (s, fun _ => false) hi rfl ?_).1
  have := List.countP_le_length (p := fun j => !(fun _ => false : Nat → Bool) j) (l := List.range T.n)
  rw [List.length_range] at this
  exact Nat.lt_succ_of_le this

theorem updateFederate_notDeeper (h0 : 0 ≤ start) (hT : T.Ok) (hD : T.DownOk) {i : Nat} (hi : i < T.n) (t : Tag) (s : Rti) :
    (updateFederateNextEvent T start i t s).deep = s.deep := by
  have key : ∀ t, (updateNextEvent T start i t s).deep = s.deep := by
    intro t
    unfold updateNextEvent
    dsimp only
    rw [(notifyAllDownstream_notDeeper h0 hT hD hi _).1]
    split
    · exact (notifyIfSafe_notDeeper h0 hT hi _).1
    · rfl
  unfold updateFederateNextEvent
  split <;> exact key _

theorem logicalTagComplete_notDeeper (h0 : 0 ≤ start) (hT : T.Ok) (hD : T.DownOk) (i : Nat) (c : Tag) (s : Rti) :
    (logicalTagComplete T start i c s).deep = s.deep := by
  unfold logicalTagComplete
  have : ∀ (l : List Nat) (a : Rti), (∀ j ∈ l, j < T.n) →
      (l.foldl (fun (s : Rti) (j : Nat) => notifyAllDownstream T start j (notifyIfSafe T start j s)) a).deep = a.deep := by
    intro l
    induction l with
    | nil => intro a _; rfl
    | cons j l ih =>
      intro a hl
      rw [List.foldl_cons, ih _ fun x hx => hl x (List.mem_cons_of_mem _ hx)]
      have hj := hl j List.mem_cons_self
      exact ((notifyAllDownstream_notDeeper h0 hT hD hj _).1).trans (notifyIfSafe_notDeeper h0 hT hj a).1
  exact this _ _ (fun j hj => hD i j hj)

/-- The recursions of the RTI are never deeper than the number of federates plus one, in any reachable state. -/
theorem C24_recursions_bounded (hT : T.Ok) (hD : T.DownOk) (h0 : 0 ≤ start) {σ : Sys} (h : Reach T start σ) :
    σ.rti.deep = false := by
  induction h with
  | init => rfl
  | @step σ σ' hr hs ih =>
    have num := hr.numbered
    cases hs with
    | sendMsg => exact ih
    | receive => exact ih
    | sendNet => exact ih
    | sendLtc => exact ih
    | sendResign => exact ih
    | msg j d s w m q r hj hq hr =>
      have hd : d < T.n := num.2 j d s w m (by rw [hq]; exact List.mem_cons_self)
      dsimp only
      unfold handleTimedMessage at hr
      split at hr
      · cases hr; exact ih
      split at hr
      · cases hr
      dsimp only at hr
      have h1 : (σ.rti.write d (.msg m)).deep = false := ih
      generalize σ.rti.write d (.msg m) = a at hr h1
      generalize hb : (if lf_tag_compare (a.node d).completed m < 0 then
        if m ∈ a.transit d then a else { a with transit := put a.transit d (m :: a.transit d) } else a) = b at hr
      have h2 : b.deep = false := by
        rw [← hb]
        split
        · split <;> exact h1
        · exact h1
      split at hr
      · cases hr; rw [updateFederate_notDeeper h0 hT hD hd]; exact h2
      · cases hr; exact h2
    | net j n p q hj hq =>
      exact (updateFederate_notDeeper h0 hT hD (num.1 j (by rw [hq]; simp)) n σ.rti).trans ih
    | ltc j c q hj hq => exact (logicalTagComplete_notDeeper h0 hT hD j c σ.rti).trans ih
    | clean j c q hq => exact ih
    | resign j q hj hq =>
      exact ((notifyAllDownstream_notDeeper h0 hT hD (num.1 j (by rw [hq]; simp)) _).1).trans ih
    | stop t => exact ih
    | closed j => exact ih
    | breaks j => exact ih

end

end ReactorC.Rti
