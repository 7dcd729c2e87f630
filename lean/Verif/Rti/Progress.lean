import Verif.Rti.Depth

/-!
# The RTI keeps its grants up to date

Lemmas for C27: after every message the RTI handles, every federate it has heard of either has a grant for its next event
or there is something upstream that could still cause an event there.
-/

set_option linter.unusedSimpArgs false
set_option linter.unusedVariables false

namespace ReactorC.Rti
open ReactorC

/-- There is no cycle of connections without delay. -/
def Topology.NoZeroDelayCycle (T : Topology) : Prop :=
  ∀ e ws, Path T (fun _ => true) e e ws → ∃ w ∈ ws, 0 ≤ w

/-- The arrays `downstream` agree with the arrays `upstream`. -/
def Topology.Consistent (T : Topology) : Prop := ∀ i u w, (u, w) ∈ T.up i → i ∈ T.down u

section
variable {T : Topology} {start : Int}

theorem Path.all {conn : Nat → Bool} {e u : Nat} {ws : List Int} (h : Path T conn e u ws) : Path T (fun _ => true) e u ws := by
  induction h with
  | last u w _ hm => exact .last u w rfl hm
  | step u i w ws _ hm _ ih => exact .step u i w ws rfl hm ih

theorem Path.append {conn : Nat → Bool} {a b c : Nat} {ws vs : List Int} (h : Path T conn b a ws) (h' : Path T conn c b vs) :
    Path T conn c a (ws ++ vs) := by
  induction h with
  | last u w hb hm => exact .step u b w vs hb hm h'
  | step u i w ws hb hm _ ih => exact .step u i w _ hb hm ih

/-- The next event of a node, or the start if it is not known. -/
def eff (start : Int) (s : Rti) (j : Nat) : Tag :=
  if (s.node j).nextEvent = NEVER_TAG then ⟨start, 0⟩ else (s.node j).nextEvent

/-- Nothing more can be granted to `i`. -/
def Settled (T : Topology) (start : Int) (i : Nat) (s : Rti) : Prop :=
  (s.node i).connected = false ∨ FOREVER_TAG ≤ (s.node i).nextEvent ∨ (s.node i).nextEvent ≤ (s.node i).lastGranted ∨
    ∃ conn x, (searchFrom T conn i).delays x < FOREVER_TAG ∧
      lf_tag_add (eff start s x) ((searchFrom T conn i).delays x) ≤ (s.node i).nextEvent

structure PI (T : Topology) (s : Rti) : Prop where
  cache : ∀ u c, (s.node u).cache = some c → u < T.n ∧ ∃ conn : Nat → Bool,
    c = (minDelays T conn u, (searchFrom T conn u).inZeroDelayCycle)
  prov : ∀ j, (s.node j).lastProvisional = NEVER_TAG
  ok : ∀ j, s.broken j = false
  sent : ∀ j, T.up j ≠ [] → (s.node j).lastGranted = NEVER_TAG ∨ Down.tag (s.node j).lastGranted ∈ s.out j
  gone : ∀ j, (s.node j).connected = false → (s.node j).nextEvent = FOREVER_TAG
  time : ∀ j, (s.node j).nextEvent = NEVER_TAG ∨ 0 ≤ (s.node j).nextEvent.time

structure Stays (start : Int) (a b : Rti) : Prop where
  next : ∀ j, (a.node j).nextEvent ≠ NEVER_TAG → (b.node j).nextEvent = (a.node j).nextEvent
  eff : ∀ j, eff start b j = eff start a j
  granted : ∀ j, (a.node j).lastGranted ≤ (b.node j).lastGranted
  conn : ∀ j, (b.node j).connected = true → (a.node j).connected = true

theorem Stays.refl (a : Rti) : Stays start a a := ⟨fun _ _ => rfl, fun _ => rfl, fun _ => Tag.le_refl _, fun _ h => h⟩

theorem Stays.trans {a b c : Rti} (h1 : Stays start a b) (h2 : Stays start b c) : Stays start a c := by
  refine ⟨fun j h => ?_, fun j => (h2.eff j).trans (h1.eff j), fun j => Tag.le_trans (h1.granted j) (h2.granted j),
    fun j h => h1.conn j (h2.conn j h)⟩
  have e := h1.next j h
  rw [h2.next j (by rw [e]; exact h), e]

theorem Stays.never {a b : Rti} (h : Stays start a b) {j : Nat} (k : (a.node j).nextEvent ≠ NEVER_TAG) :
    (b.node j).nextEvent ≠ NEVER_TAG := by
  rw [h.next j k]; exact k

theorem Stays.settled {a b : Rti} (h : Stays start a b) {i : Nat} (hn : (a.node i).nextEvent ≠ NEVER_TAG)
    (hs : Settled T start i a) : Settled T start i b := by
  unfold Settled
  rw [h.next i hn]
  rcases hs with k | k | k | ⟨conn, x, k1, k2⟩
  · left
    by_cases hb : (b.node i).connected = true
    · have := h.conn i hb; rw [k] at this; cases this
    · simpa using hb
  · exact .inr (.inl k)
  · exact .inr (.inr (.inl (Tag.le_trans k (h.granted i))))
  · exact .inr (.inr (.inr ⟨conn, x, k1, by rw [h.eff x]; exact k2⟩))

theorem stays_setNode (s : Rti) (i : Nat) (f : Node → Node) (h1 : (f (s.node i)).nextEvent = (s.node i).nextEvent)
    (h2 : (s.node i).lastGranted ≤ (f (s.node i)).lastGranted)
    (h3 : (f (s.node i)).connected = true → (s.node i).connected = true) : Stays start s (s.setNode i f) := by
  refine ⟨fun j _ => ?_, fun j => ?_, fun j => ?_, fun j h => ?_⟩ <;> by_cases e : j = i
  · subst e; rw [setNode_same, h1]
  · rw [setNode_other _ _ e]
  · subst e; unfold Rti.eff; rw [setNode_same, h1]
  · unfold Rti.eff; rw [setNode_other _ _ e]
  · subst e; rw [setNode_same]; exact h2
  · rw [setNode_other _ _ e]; exact Tag.le_refl _
  · subst e; rw [setNode_same] at h; exact h3 h
  · rw [setNode_other _ _ e] at h; exact h

theorem PI.setNode {s : Rti} (h : PI T s) (i : Nat) (f : Node → Node)
    (h1 : ∀ c, (f (s.node i)).cache = some c → (s.node i).cache = some c ∨ (i < T.n ∧ ∃ conn : Nat → Bool,
      c = (minDelays T conn i, (searchFrom T conn i).inZeroDelayCycle)))
    (h2 : (f (s.node i)).lastProvisional = (s.node i).lastProvisional)
    (h3 : (f (s.node i)).lastGranted = (s.node i).lastGranted ∨ T.up i = [])
    (h4 : (f (s.node i)).connected = false → (f (s.node i)).nextEvent = FOREVER_TAG)
    (h5 : (f (s.node i)).nextEvent = NEVER_TAG ∨ 0 ≤ (f (s.node i)).nextEvent.time) : PI T (s.setNode i f) := by
  refine ⟨fun u c hc => ?_, fun j => ?_, h.ok, fun j hu => ?_, fun j hj => ?_, fun j => ?_⟩
  · by_cases e : u = i
    · subst e; rw [setNode_same] at hc
      rcases h1 c hc with k | k
      · exact h.cache u c k
      · exact k
    · rw [setNode_other _ _ e] at hc; exact h.cache u c hc
  · by_cases e : j = i
    · subst e; rw [setNode_same, h2]; exact h.prov j
    · rw [setNode_other _ _ e]; exact h.prov j
  · by_cases e : j = i
    · subst e; rw [setNode_same]
      rcases h3 with k | k
      · rw [k]; exact h.sent j hu
      · exact absurd k hu
    · rw [setNode_other _ _ e]; exact h.sent j hu
  · by_cases e : j = i
    · subst e; rw [setNode_same] at hj ⊢; exact h4 hj
    · rw [setNode_other _ _ e] at hj ⊢; exact h.gone j hj
  · by_cases e : j = i
    · subst e; rw [setNode_same]; exact h5
    · rw [setNode_other _ _ e]; exact h.time j

theorem Quiet.pi (h0 : 0 ≤ start) {a b : Rti} (h : Quiet T start a b) (hp : PI T a) : PI T b ∧ Stays start a b := by
  induction h with
  | refl => exact ⟨hp, .refl _⟩
  | @cache s' i hi _ ih =>
    obtain ⟨p, k⟩ := ih
    rcases @updateMin_cases T i s' with ⟨c, _, h⟩ | ⟨hn, h⟩
    · rw [h]; exact ⟨p, k⟩
    · rw [h]
      refine ⟨p.setNode i _ (fun c hc => .inr ⟨hi, _, (Option.some.inj hc).symm⟩) rfl (.inl rfl) (p.gone i) (p.time i),
        k.trans (stays_setNode _ _ _ rfl (Tag.le_refl _) (fun h => h))⟩
  | @heard s' i _ ih =>
    obtain ⟨p, k⟩ := ih
    rcases @heard_cases start i s' with ⟨_, h⟩ | ⟨hn, h⟩
    · rw [h]; exact ⟨p, k⟩
    · rw [h]
      refine ⟨p.setNode i _ (fun c hc => .inl hc) rfl (.inl rfl) (fun hc => ?_) (.inr h0), k.trans ?_⟩
      · have := p.gone i hc
        rw [hn] at this
        cases this
      · refine ⟨fun j hj => ?_, fun j => ?_, fun j => ?_, fun j hj => ?_⟩ <;> by_cases e : j = i
        · subst e; exact absurd hn hj
        · rw [setNode_other _ _ e]
        · subst e; unfold Rti.eff; rw [setNode_same]; dsimp only; rw [if_pos hn]
          split <;> rfl
        · unfold Rti.eff; rw [setNode_other _ _ e]
        · subst e; rw [setNode_same]; exact Tag.le_refl _
        · rw [setNode_other _ _ e]; exact Tag.le_refl _
        · subst e; rw [setNode_same] at hj; exact hj
        · rw [setNode_other _ _ e] at hj; exact hj

theorem notifyTag_pi {i : Nat} {t : Tag} {s : Rti} (hp : PI T s) :
    PI T (notifyTag i t s) ∧ Stays start s (notifyTag i t s) ∧
    (0 ≤ t.time → (s.node i).connected = true → t ≤ ((notifyTag i t s).node i).lastGranted) := by
  unfold notifyTag
  by_cases hg : (s.node i).connected = false ∨ lf_tag_compare t (s.node i).lastGranted ≤ 0 ∨
      lf_tag_compare t (s.node i).lastProvisional < 0
  · rw [if_pos hg]
    refine ⟨hp, .refl s, fun ht hc => ?_⟩
    simp only [cmp_le_zero, cmp_lt_zero] at hg
    rcases hg with k | k | k
    · rw [hc] at k; cases k
    · exact k
    · rw [hp.prov i] at k
      have : NEVER_TAG.time < 0 := by decide
      tag_omega
  · rw [if_neg hg, if_neg (by rw [hp.ok i]; simp)]
    simp only [cmp_le_zero, cmp_lt_zero, not_or, Tag.not_le, Tag.not_lt, Bool.not_eq_false] at hg
    have hp' : PI T (s.write i (.tag t)) :=
      ⟨hp.cache, hp.prov, hp.ok, fun j hu => (hp.sent j hu).imp id fun h => mem_write.2 (.inl h), hp.gone, hp.time⟩
    refine ⟨⟨fun u c hc => ?_, fun j => ?_, hp.ok, fun j hu => ?_, fun j hj => ?_, fun j => ?_⟩, ?_, fun _ _ => ?_⟩
    · by_cases e : u = i
      · subst e; rw [setNode_same] at hc; exact hp.cache u c hc
      · rw [setNode_other _ _ e] at hc; exact hp.cache u c hc
    · by_cases e : j = i
      · subst e; rw [setNode_same]; exact hp.prov j
      · rw [setNode_other _ _ e]; exact hp.prov j
    · by_cases e : j = i
      · subst e; right; rw [setNode_same]
        show _ ∈ (s.write j (.tag t)).out j
        rw [mem_write]; exact .inr ⟨rfl, rfl⟩
      · rw [setNode_other _ _ e]; exact hp'.sent j hu
    · by_cases e : j = i
      · subst e; rw [setNode_same] at hj ⊢; exact hp.gone j hj
      · rw [setNode_other _ _ e] at hj ⊢; exact hp.gone j hj
    · by_cases e : j = i
      · subst e; rw [setNode_same]; exact hp.time j
      · rw [setNode_other _ _ e]; exact hp.time j
    · exact Stays.trans (b := s.write i (.tag t))
        ⟨fun _ _ => rfl, fun _ => rfl, fun _ => Tag.le_refl _, fun _ h => h⟩
        (stays_setNode _ _ _ rfl (Tag.le_of_lt hg.2.1) (fun h => h))
    · rw [setNode_same]; exact Tag.le_refl _

theorem not_zdc (hT : T.Ok) (hz : T.NoZeroDelayCycle) {s : Rti} (hp : PI T s) (i : Nat) : s.zdc i = false := by
  unfold Rti.zdc
  cases hc : (s.node i).cache with
  | none => rfl
  | some c =>
    obtain ⟨hi, conn, e⟩ := hp.cache i c hc
    rw [e]
    dsimp only
    by_cases h : (searchFrom T conn i).inZeroDelayCycle = true
    · obtain ⟨ws, h1, h2⟩ := (C26_cycle_flags conn hT hi).2.1 h
      obtain ⟨w, h3, h4⟩ := hz i ws h1.all
      have := h2 w h3
      omega
    · simpa using h

/-- A node is evaluated. -/
theorem notifyIfSafe_pi (h0 : 0 ≤ start) (hT : T.Ok) (hz : T.NoZeroDelayCycle) {i : Nat} (hi : i < T.n) {s : Rti}
    (hp : PI T s) : PI T (notifyIfSafe T start i s) ∧ Stays start s (notifyIfSafe T start i s) ∧
      ((s.node i).nextEvent ≠ NEVER_TAG → Settled T start i (notifyIfSafe T start i s)) := by
  have hneg : NEVER_TAG.time < 0 := by decide
  unfold notifyIfSafe tagAdvanceGrantIfSafe
  by_cases hA : lf_tag_compare (minUpstreamCompleted T i s) (s.node i).lastGranted > 0 ∧
      lf_tag_compare (minUpstreamCompleted T i s) (s.node i).nextEvent ≥ 0
  · rw [if_pos hA]
    dsimp only
    generalize minUpstreamCompleted T i s = m at hA
    have hge := (cmp_ge_zero _ _).1 hA.2
    by_cases hn : lf_tag_compare m NEVER_TAG ≠ 0
    · rw [if_pos hn, if_neg (by simp)]
      obtain ⟨k1, k2, k3⟩ := notifyTag_pi (start := start) (i := i) (t := m) hp
      refine ⟨k1, k2, fun hne => ?_⟩
      have ht : 0 ≤ m.time := by
        rcases hp.time i with k | k
        · exact absurd k hne
        · tag_omega
      by_cases hc : ((notifyTag i m s).node i).connected = true
      · right; right; left
        rw [k2.next i hne]
        exact Tag.le_trans hge (k3 ht (k2.conn i hc))
      · left; simpa using hc
    · rw [if_neg hn]
      refine ⟨hp, .refl s, fun hne => ?_⟩
      simp only [ne_eq, not_not] at hn
      rw [cmp_eq_zero] at hn
      rcases hp.time i with k | k
      · exact absurd k hne
      · subst hn; tag_omega
  · rw [if_neg hA]
    obtain ⟨s1, d, h1, h2, h3, h4, h5⟩ := eimt_spec h0 hi s
    rw [h1]
    dsimp only
    have q2 := @eimtStrict_quiet T start h0 hT i s1
    generalize hs2 : eimtStrict T start i s1 = r at q2 ⊢
    obtain ⟨s2, ds⟩ := r
    dsimp only at q2 ⊢
    obtain ⟨p1, k1⟩ := h2.pi h0 hp
    obtain ⟨p2, k2⟩ := q2.pi h0 p1
    have k12 := k1.trans k2
    by_cases hB : lf_tag_compare d (s2.node i).nextEvent > 0 ∧ lf_tag_compare (s2.node i).nextEvent NEVER_TAG > 0 ∧
        lf_tag_compare d (s2.node i).lastProvisional ≥ 0 ∧ lf_tag_compare d (s2.node i).lastGranted > 0
    · rw [if_pos hB]
      dsimp only
      have hn : lf_tag_compare (s2.node i).nextEvent NEVER_TAG ≠ 0 := by have := hB.2.1; omega
      rw [if_pos hn, if_neg (by simp)]
      obtain ⟨j1, j2, j3⟩ := notifyTag_pi (start := start) (i := i) (t := (s2.node i).nextEvent) p2
      refine ⟨j1, k12.trans j2, fun hne => ?_⟩
      have hne2 := k12.never hne
      have ht : 0 ≤ (s2.node i).nextEvent.time := by
        rcases p2.time i with k | k
        · exact absurd k hne2
        · exact k
      by_cases hc : ((notifyTag i (s2.node i).nextEvent s2).node i).connected = true
      · right; right; left
        rw [j2.next i hne2]
        exact j3 ht (j2.conn i hc)
      · left; simpa using hc
    · rw [if_neg hB]
      have hzdc := not_zdc hT hz p2 i
      have hC : ¬ (lf_tag_compare d (s2.node i).nextEvent = 0 ∧ s2.zdc i = true ∧
          lf_tag_compare ds (s2.node i).nextEvent > 0 ∧ lf_tag_compare d (s2.node i).lastProvisional > 0 ∧
          lf_tag_compare d (s2.node i).lastGranted > 0) := by rw [hzdc]; simp
      rw [if_neg hC]
      dsimp only
      rw [if_neg (fun h => h ((cmp_eq_zero NEVER_TAG NEVER_TAG).2 rfl))]
      refine ⟨p2, k12, fun hne => ?_⟩
      have hne2 := k12.never hne
      by_cases hd : d ≤ (s2.node i).nextEvent
      · right
        rcases h5 with h5 | ⟨e, he, h5⟩
        · left
          rw [h5] at hd; exact hd
        · right; right
          obtain ⟨es, z, hc, hall⟩ := h4
          have hes : s1.entries i = es := by unfold Rti.entries; rw [hc]
          rw [hes] at he
          obtain ⟨_, conn, hcc⟩ := p1.cache i _ hc
          have hes' : es = minDelays T conn i := congrArg Prod.fst hcc
          rw [hes'] at he
          obtain ⟨m1, m2, m3⟩ := (mem_minDelays (conn := conn) hT hi).1 (show (e.1, e.2) ∈ _ from he)
          refine ⟨conn, e.1, by rw [← m2]; exact m3, ?_⟩
          have hne1 := (hall e (by rw [hes']; exact he)).1
          have : eff start s2 e.1 = (s1.node e.1).nextEvent := by
            rw [k2.eff]; unfold Rti.eff; rw [if_neg hne1]
          rw [this, ← m2, ← h5]
          exact hd
      · rw [Tag.not_le] at hd
        right; right; left
        have hN : NEVER_TAG < (s2.node i).nextEvent := by
          rcases p2.time i with k | k
          · exact absurd k hne2
          · tag_omega
        have hP : (s2.node i).lastProvisional ≤ d := by
          rw [p2.prov i]; exact Tag.le_of_lt (Tag.lt_of_lt_of_le hN (Tag.le_of_lt hd))
        have : ¬ (s2.node i).lastGranted < d := fun hg =>
          hB ⟨(cmp_gt_zero _ _).2 hd, (cmp_gt_zero _ _).2 hN, (cmp_ge_zero _ _).2 hP, (cmp_gt_zero _ _).2 hg⟩
        exact Tag.le_of_lt (Tag.lt_of_lt_of_le hd (Tag.not_lt.1 this))

/-! ## Everything downstream is evaluated -/

theorem notifyDownstream_pi (h0 : 0 ≤ start) (hT : T.Ok) (hD : T.DownOk) (hz : T.NoZeroDelayCycle) (depth : Nat) :
    ∀ (i : Nat) (a : Rti × (Nat → Bool)), i < T.n → a.2 i = false → unvisited T a.2 < depth → PI T a.1 →
      PI T (notifyDownstream T start depth i a).1 ∧ Stays start a.1 (notifyDownstream T start depth i a).1 ∧
      (∀ j, a.2 j = true → (notifyDownstream T start depth i a).2 j = true) ∧
      (notifyDownstream T start depth i a).2 i = true ∧
      (∀ j, (notifyDownstream T start depth i a).2 j = true → a.2 j = true ∨
        ((∀ c ∈ T.down j, (notifyDownstream T start depth i a).2 c = true) ∧
          (j = i ∨ ((a.1.node j).nextEvent ≠ NEVER_TAG → Settled T start j (notifyDownstream T start depth i a).1)))) := by
  induction depth with
  | zero => intro i a _ _ h; omega
  | succ depth ihd =>
    intro i a hi hv hu hpi
    unfold notifyDownstream
    have hlt : unvisited T (put a.2 i true) < unvisited T a.2 := by
      refine countP_strict (a := i) (fun x hx => ?_) (List.mem_range.2 hi) ?_ ?_
      · by_cases e : x = i
        · subst e; rw [put_same] at hx; simp at hx
        · rw [put_other _ _ _ e] at hx; exact hx
      · rw [hv]; rfl
      · rw [put_same]; rfl
    have hr : ∀ j ∈ T.down i, j < T.n := fun j hj => hD i j hj
    have hmono : ∀ j, a.2 j = true → put a.2 i true j = true := by
      intro j hj
      by_cases e : j = i
      · subst e; exact put_same _ _ _
      · rw [put_other _ _ _ e]; exact hj
    have hq : unvisited T (put a.2 i true) < depth := by omega
    let F : List Nat → Rti × (Nat → Bool) → Rti × (Nat → Bool) := fun l b =>
      l.foldl (fun (a : Rti × (Nat → Bool)) (j : Nat) =>
          if a.2 j then a else notifyDownstream T start depth j (notifyIfSafe T start j a.1, a.2)) b
    suffices H : ∀ (l : List Nat) (b : Rti × (Nat → Bool)), (∀ j ∈ l, j < T.n) → unvisited T b.2 < depth → PI T b.1 →
        PI T (F l b).1 ∧ Stays start b.1 (F l b).1 ∧ (∀ j, b.2 j = true → (F l b).2 j = true) ∧
        (∀ c ∈ l, (F l b).2 c = true) ∧
        (∀ j, (F l b).2 j = true → b.2 j = true ∨ ((∀ c ∈ T.down j, (F l b).2 c = true) ∧
          ((b.1.node j).nextEvent ≠ NEVER_TAG → Settled T start j (F l b).1))) by
      obtain ⟨h1, h2, h3, h4, h5⟩ := H (T.down i) (a.1, put a.2 i true) hr hq hpi
      refine ⟨h1, h2, fun j hj => h3 j (hmono j hj), h3 i (put_same _ _ _), fun j hj => ?_⟩
      rcases h5 j hj with k | k
      · by_cases e : j = i
        · subst e; exact .inr ⟨h4, .inl rfl⟩
        · dsimp only at k; rw [put_other _ _ _ e] at k; exact .inl k
      · exact .inr ⟨k.1, .inr k.2⟩
    intro l
    induction l with
    | nil => intro b _ _ hb; exact ⟨hb, .refl _, fun _ h => h, (by simp), fun _ h => .inl h⟩
    | cons c l ih =>
      intro b hl hb hbp
      have hls : ∀ j ∈ l, j < T.n := fun x hx => hl x (List.mem_cons_of_mem _ hx)
      have hcn := hl c List.mem_cons_self
      by_cases hc : b.2 c = true
      · have e : F (c :: l) b = F l b := by
          show List.foldl _ _ _ = _
          rw [List.foldl_cons, if_pos hc]
        rw [e]
        obtain ⟨h1, h2, h3, h4, h5⟩ := ih b hls hb hbp
        refine ⟨h1, h2, h3, fun x hx => ?_, h5⟩
        rcases List.mem_cons.1 hx with k | k
        · subst k; exact h3 _ hc
        · exact h4 x k
      · have e : F (c :: l) b = F l (notifyDownstream T start depth c (notifyIfSafe T start c b.1, b.2)) := by
          show List.foldl _ _ _ = _
          rw [List.foldl_cons, if_neg hc]
        rw [e]
        obtain ⟨n1, n2, n3⟩ := notifyIfSafe_pi h0 hT hz hcn hbp
        obtain ⟨d1, d2, d3, d4, d5⟩ := ihd c (notifyIfSafe T start c b.1, b.2) hcn (by simpa using hc) hb n1
        generalize notifyDownstream T start depth c (notifyIfSafe T start c b.1, b.2) = b' at d1 d2 d3 d4 d5
        dsimp only at d2 d3 d5
        have hle : unvisited T b'.2 ≤ unvisited T b.2 := by
          refine countP_mono' _ fun x hx => ?_
          have := d3 x
          cases hbx : b.2 x
          · rfl
          · rw [this hbx] at hx; simp at hx
        obtain ⟨h1, h2, h3, h4, h5⟩ := ih b' hls (by omega) d1
        refine ⟨h1, n2.trans (d2.trans h2), fun j hj => h3 j (d3 j hj), fun x hx => ?_, fun j hj => ?_⟩
        · rcases List.mem_cons.1 hx with k | k
          · subst k; exact h3 _ d4
          · exact h4 x k
        · rcases h5 j hj with k | ⟨k1, k2⟩
          · rcases d5 j k with m | ⟨m1, m2⟩
            · exact .inl m
            · right
              refine ⟨fun x hx => h3 x (m1 x hx), fun hne => ?_⟩
              have hne' := n2.never hne
              have hne'' := d2.never hne'
              rcases m2 with m2 | m2
              · subst m2
                exact h2.settled hne'' (d2.settled hne' (n3 hne))
              · exact h2.settled hne'' (m2 hne')
          · right
            exact ⟨k1, fun hne => k2 (d2.never (n2.never hne))⟩

/-- `Below T k j`: something from `k` can reach `j`. -/
inductive Below (T : Topology) (k : Nat) : Nat → Prop
  | edge (j : Nat) : j ∈ T.down k → Below T k j
  | step (i j : Nat) : Below T k i → j ∈ T.down i → Below T k j

theorem Below.trans {a b c : Nat} (h1 : Below T a b) (h2 : Below T b c) : Below T a c := by
  induction h2 with
  | edge j h => exact .step b j h1 h
  | step i j _ h ih => exact .step i j ih h

theorem Path.leads (hK : T.Consistent) {conn : Nat → Bool} {e u : Nat} {ws : List Int} (h : Path T conn e u ws) :
    Below T u e := by
  induction h with
  | last u w _ hm => exact .edge e (hK e u w hm)
  | step u i w ws _ hm _ ih => exact (Below.edge i (hK i u w hm)).trans ih

theorem notifyAllDownstream_pi (h0 : 0 ≤ start) (hT : T.Ok) (hD : T.DownOk) (hz : T.NoZeroDelayCycle) {i : Nat}
    (hi : i < T.n) {s : Rti} (hp : PI T s) :
    PI T (notifyAllDownstream T start i s) ∧ Stays start s (notifyAllDownstream T start i s) ∧
    ∀ j, Below T i j → j ≠ i → (s.node j).nextEvent ≠ NEVER_TAG → Settled T start j (notifyAllDownstream T start i s) := by
  have hu : unvisited T (fun _ => false) < T.n + 1 := by
    have := List.countP_le_length (p := fun j => !(fun _ => false : Nat → Bool) j) (l := List.range T.n)
    rw [List.length_range] at this
    exact Nat.lt_succ_of_le this
  obtain ⟨h1, h2, _, h4, h5⟩ := notifyDownstream_pi h0 hT hD hz (T.n + 1) i (s, fun _ => false) hi rfl hu hp
  refine ⟨h1, h2, fun j hb hj hne => ?_⟩
  have hvis : (notifyDownstream T start (T.n + 1) i (s, fun _ => false)).2 j = true := by
    clear hj hne
    induction hb with
    | edge j h =>
      rcases h5 i h4 with k | k
      · cases k
      · exact k.1 j h
    | step x j _ h ih =>
      rcases h5 x ih with k | k
      · cases k
      · exact k.1 j h
  rcases h5 j hvis with k | ⟨_, k | k⟩
  · cases k
  · exact absurd k hj
  · exact k hne

/-- Those in `R` have been heard of, and nothing more can be granted to them. -/
def Current (T : Topology) (start : Int) (R : Nat → Bool) (s : Rti) : Prop :=
  ∀ j, R j = true → (s.node j).nextEvent ≠ NEVER_TAG ∧ Settled T start j s

theorem Stays.current {a b : Rti} (h : Stays start a b) {R : Nat → Bool} (k : Current T start R a) : Current T start R b :=
  fun j hj => ⟨h.never (k j hj).1, h.settled (k j hj).1 (k j hj).2⟩

theorem delays_below (hT : T.Ok) (hK : T.Consistent) {conn : Nat → Bool} {j k : Nat} (hj : j < T.n)
    (h : (searchFrom T conn j).delays k < FOREVER_TAG) : Below T k j := by
  obtain ⟨g, _⟩ := searchFrom_spec (conn := conn) hT hj
  rcases g.entry k with e | ⟨_, _, _, ws, hp, _, _⟩
  · rw [e] at h; exact absurd h (Tag.lt_irrefl _)
  · exact hp.leads hK

/-- Changing the next event of `k` leaves the nodes that are not downstream as they are. -/
theorem settled_setNext (hT : T.Ok) (hK : T.Consistent) {s : Rti} {k j : Nat} (hj : j < T.n) (hjk : j ≠ k)
    (hb : ¬ Below T k j) (f : Node → Node) (hs : Settled T start j s) : Settled T start j (s.setNode k f) := by
  unfold Settled
  rw [setNode_other _ _ hjk]
  rcases hs with h | h | h | ⟨conn, x, h1, h2⟩
  · exact .inl h
  · exact .inr (.inl h)
  · exact .inr (.inr (.inl h))
  · refine .inr (.inr (.inr ⟨conn, x, h1, ?_⟩))
    have hx : x ≠ k := by
      intro e; subst e; exact hb (delays_below hT hK hj h1)
    have : eff start (s.setNode k f) x = eff start s x := by
      unfold Rti.eff; rw [setNode_other _ _ hx]
    rw [this]; exact h2

theorem updateNextEvent_pi (h0 : 0 ≤ start) (hT : T.Ok) (hD : T.DownOk) (hz : T.NoZeroDelayCycle) (hK : T.Consistent)
    {R : Nat → Bool} (hR : ∀ j, R j = true → j < T.n) {k : Nat} (hk : k < T.n) {s : Rti} (hp : PI T s)
    (hcn : (s.node k).connected = true) {t : Tag} (ht : 0 ≤ t.time) (hc : Current T start R s) :
    PI T (updateNextEvent T start k t s) ∧ Current T start (put R k true) (updateNextEvent T start k t s) := by
  have hneg : NEVER_TAG.time < 0 := by decide
  have htn : t ≠ NEVER_TAG := by intro e; subst e; omega
  unfold updateNextEvent
  dsimp only
  have p1 : PI T (s.setNode k fun nd => { nd with nextEvent := t }) :=
    hp.setNode k _ (fun c hc => .inl hc) rfl (.inl rfl) (fun h => by dsimp only at h; rw [hcn] at h; cases h) (.inr ht)
  have n1 : ∀ j, R j = true → j ≠ k → ((s.setNode k fun nd => { nd with nextEvent := t }).node j).nextEvent ≠ NEVER_TAG := by
    intro j hj e
    rw [setNode_other _ _ e]; exact (hc j hj).1
  have c1 : ∀ j, R j = true → j ≠ k → ¬ Below T k j →
      Settled T start j (s.setNode k fun nd => { nd with nextEvent := t }) :=
    fun j hj e hb => settled_setNext hT hK (hR j hj) e hb _ (hc j hj).2
  have e1 : ((s.setNode k fun nd => { nd with nextEvent := t }).node k).nextEvent = t := by rw [setNode_same]
  have l1 : ((s.setNode k fun nd => { nd with nextEvent := t }).node k).connected = true := by rw [setNode_same]; exact hcn
  generalize (s.setNode k fun nd => { nd with nextEvent := t }) = a at p1 n1 c1 e1 l1
  -- after `k` itself is evaluated
  have mid : ∀ b, PI T b → (b.node k).nextEvent = t → Settled T start k b →
      (∀ j, R j = true → j ≠ k → (b.node j).nextEvent ≠ NEVER_TAG ∧ (¬ Below T k j → Settled T start j b)) →
      PI T (notifyAllDownstream T start k b) ∧ Current T start (put R k true) (notifyAllDownstream T start k b) := by
    intro b pb eb sb cb
    obtain ⟨h1, h2, h3⟩ := notifyAllDownstream_pi h0 hT hD hz hk pb
    refine ⟨h1, fun j hj => ?_⟩
    by_cases e : j = k
    · subst e
      have hne : (b.node j).nextEvent ≠ NEVER_TAG := by rw [eb]; exact htn
      exact ⟨h2.never hne, h2.settled hne sb⟩
    · rw [put_other _ _ _ e] at hj
      obtain ⟨m1, m2⟩ := cb j hj e
      refine ⟨h2.never m1, ?_⟩
      by_cases hb : Below T k j
      · exact h3 j hb e m1
      · exact h2.settled m1 (m2 hb)
  by_cases hu : T.up k ≠ []
  · rw [if_pos hu]
    obtain ⟨h1, h2, h3⟩ := notifyIfSafe_pi h0 hT hz hk p1
    have hne : (a.node k).nextEvent ≠ NEVER_TAG := by rw [e1]; exact htn
    refine mid _ h1 ?_ (h3 hne) fun j hj e => ⟨h2.never (n1 j hj e), fun hb => h2.settled (n1 j hj e) (c1 j hj e hb)⟩
    rw [h2.next k hne]; exact e1
  · rw [if_neg hu]
    have hu : T.up k = [] := by simpa using hu
    refine mid _ (p1.setNode k _ (fun c hc => .inl hc) rfl (.inr hu) (p1.gone k) (p1.time k)) ?_ ?_ fun j hj e => ⟨?_, fun hb => ?_⟩
    · rw [setNode_same]; exact e1
    · right; right; left; rw [setNode_same]; dsimp only; rw [e1]; exact Tag.le_refl _
    · rw [setNode_other _ _ e]; exact n1 j hj e
    · exact settled_setNext hT hK (hR j hj) e hb _ (c1 j hj e hb)

end

end ReactorC.Rti
