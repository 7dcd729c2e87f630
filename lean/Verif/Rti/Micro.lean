import Verif.Rti.Model
import Verif.Rti.DelaysProps

/-!
# The RTI's functions as sequences of small steps

Every function of Verif.Rti.Model that searches for grants is a sequence of steps of five kinds: a table of delays is
computed, a node not heard of gets the start tag as its next event, a grant of one of the two kinds is sent with a reason,
or a node whose socket cannot be written to is disconnected.
-/

set_option linter.unusedSimpArgs false
set_option linter.unusedVariables false

namespace ReactorC.Rti
open ReactorC

/-- All upstream nodes have completed so much that nothing at or before `t` can come directly from them. -/
def ByCompletion (T : Topology) (s : Rti) (i : Nat) (t : Tag) : Prop :=
  ∀ u w, (u, w) ∈ T.up i → (s.node u).connected = true → t ≤ lf_delay_strict (s.node u).completed w

/-- The table of `i` is known, all nodes in it have a next event, and what they can cause at `i` satisfies `R`. -/
def ByEvents (R : Tag → Prop) (s : Rti) (i : Nat) : Prop :=
  ∃ es z, (s.node i).cache = some (es, z) ∧
    ∀ e ∈ es, (s.node e.1).nextEvent ≠ NEVER_TAG ∧ R (lf_tag_add (s.node e.1).nextEvent e.2)

/-- Every upstream node of `i` is on a zero-delay cycle, as far as the tables tell, or can send to `i` only what is later
than `t`: it has no earlier event, and nothing earlier can be caused at it. -/
def Outside (T : Topology) (s : Rti) (i : Nat) (t : Tag) : Prop :=
  ∀ u w, (u, w) ∈ T.up i → s.zdc u = true ∨ ∃ z, z ≤ FOREVER_TAG ∧ t < lf_delay_tag z w ∧
    (s.node u).nextEvent ≠ NEVER_TAG ∧ z ≤ (s.node u).nextEvent ∧ ByEvents (fun x => z ≤ x) s u

/-- One small step. -/
inductive Micro (T : Topology) (start : Int) : Rti → Rti → Prop
  | cache (s : Rti) (i : Nat) : i < T.n → Micro T start s (updateMin T i s)
  | heard (s : Rti) (i : Nat) : Micro T start s (heard start i s)
  | tag (s : Rti) (i : Nat) (t : Tag) : i < T.n → (s.node i).connected = true → (s.node i).lastGranted < t →
      (s.node i).lastProvisional ≤ t → s.broken i = false →
      (ByCompletion T s i t ∨ (t < FOREVER_TAG ∧ ByEvents (fun x => t < x) s i)) →
      Micro T start s ((s.write i (.tag t)).setNode i fun nd => { nd with lastGranted := t })
  | ptag (s : Rti) (i : Nat) (t : Tag) : i < T.n → (s.node i).connected = true → (s.node i).lastGranted < t →
      (s.node i).lastProvisional < t → s.broken i = false → t ≤ FOREVER_TAG → ByEvents (fun x => t ≤ x) s i →
      Outside T s i t → (∃ u, s.zdc u = true) →
      Micro T start s ((s.write i (.ptag t)).setNode i fun nd => { nd with lastProvisional := t })
  | drop (s : Rti) (i : Nat) : s.broken i = true → Micro T start s (s.setNode i fun nd => { nd with connected := false })
  | deep (s : Rti) : Micro T start s { s with deep := true }

/-- Steps that only compute tables and default next events. -/
inductive Quiet (T : Topology) (start : Int) : Rti → Rti → Prop
  | refl (s : Rti) : Quiet T start s s
  | cache {s s' : Rti} (i : Nat) : i < T.n → Quiet T start s s' → Quiet T start s (updateMin T i s')
  | heard {s s' : Rti} (i : Nat) : Quiet T start s s' → Quiet T start s (heard start i s')

inductive Micros (T : Topology) (start : Int) : Rti → Rti → Prop
  | refl (s : Rti) : Micros T start s s
  | tail {s s' s'' : Rti} : Micros T start s s' → Micro T start s' s'' → Micros T start s s''

section
variable {T : Topology} {start : Int}

theorem Micros.trans {a b c : Rti} (h1 : Micros T start a b) (h2 : Micros T start b c) : Micros T start a c := by
  induction h2 with
  | refl => exact h1
  | tail _ h ih => exact .tail ih h

theorem Micros.one {a b : Rti} (h : Micro T start a b) : Micros T start a b := .tail (.refl _) h

theorem Quiet.trans {a b c : Rti} (h1 : Quiet T start a b) (h2 : Quiet T start b c) : Quiet T start a c := by
  induction h2 with
  | refl => exact h1
  | cache i hi _ ih => exact .cache i hi ih
  | heard i _ ih => exact .heard i ih

theorem Quiet.micros {a b : Rti} (h : Quiet T start a b) : Micros T start a b := by
  induction h with
  | refl => exact .refl _
  | cache i hi _ ih => exact .tail ih (.cache _ i hi)
  | heard i _ ih => exact .tail ih (.heard _ i)

/-! ## Fields after an assignment -/

theorem setNode_same (s : Rti) (i : Nat) (f : Node → Node) : (s.setNode i f).node i = f (s.node i) := put_same _ _ _
theorem setNode_other (s : Rti) {i j : Nat} (f : Node → Node) (h : j ≠ i) : (s.setNode i f).node j = s.node j :=
  put_other _ _ _ h

/-- What a step that only computes tables and default next events keeps. -/
structure Keeps (a b : Rti) : Prop where
  completed : ∀ j, (b.node j).completed = (a.node j).completed
  lastGranted : ∀ j, (b.node j).lastGranted = (a.node j).lastGranted
  lastProvisional : ∀ j, (b.node j).lastProvisional = (a.node j).lastProvisional
  connected : ∀ j, (b.node j).connected = (a.node j).connected
  nextEvent : ∀ j, (a.node j).nextEvent ≠ NEVER_TAG → (b.node j).nextEvent = (a.node j).nextEvent
  cache : ∀ j c, (a.node j).cache = some c → (b.node j).cache = some c
  transit : b.transit = a.transit
  broken : b.broken = a.broken
  out : b.out = a.out
  deep : b.deep = a.deep

theorem Keeps.refl (a : Rti) : Keeps a a :=
  ⟨fun _ => rfl, fun _ => rfl, fun _ => rfl, fun _ => rfl, fun _ _ => rfl, fun _ _ h => h, rfl, rfl, rfl, rfl⟩

theorem Keeps.trans {a b c : Rti} (h1 : Keeps a b) (h2 : Keeps b c) : Keeps a c := by
  constructor
  · exact fun j => (h2.completed j).trans (h1.completed j)
  · exact fun j => (h2.lastGranted j).trans (h1.lastGranted j)
  · exact fun j => (h2.lastProvisional j).trans (h1.lastProvisional j)
  · exact fun j => (h2.connected j).trans (h1.connected j)
  · intro j h
    have e := h1.nextEvent j h
    rw [h2.nextEvent j (by rw [e]; exact h), e]
  · exact fun j c h => h2.cache j c (h1.cache j c h)
  · exact h2.transit.trans h1.transit
  · exact h2.broken.trans h1.broken
  · exact h2.out.trans h1.out
  · exact h2.deep.trans h1.deep

theorem updateMin_cases (i : Nat) (s : Rti) :
    (∃ c, (s.node i).cache = some c ∧ updateMin T i s = s) ∨
    ((s.node i).cache = none ∧ updateMin T i s = s.setNode i fun nd =>
      { nd with cache := some (minDelays T (fun j => (s.node j).connected) i,
                  (searchFrom T (fun j => (s.node j).connected) i).inZeroDelayCycle) }) := by
  unfold updateMin
  cases h : (s.node i).cache with
  | some c => left; exact ⟨c, rfl, rfl⟩
  | none => right; exact ⟨rfl, rfl⟩

theorem keeps_updateMin (i : Nat) (s : Rti) : Keeps s (updateMin T i s) := by
  rcases @updateMin_cases T i s with ⟨c, _, h⟩ | ⟨hn, h⟩
  · rw [h]; exact .refl s
  · rw [h]
    have key : ∀ j, j = i ∨ j ≠ i := fun j => Classical.em _
    constructor
    · intro j; rcases key j with rfl | hj
      · rw [setNode_same]
      · rw [setNode_other _ _ hj]
    · intro j; rcases key j with rfl | hj
      · rw [setNode_same]
      · rw [setNode_other _ _ hj]
    · intro j; rcases key j with rfl | hj
      · rw [setNode_same]
      · rw [setNode_other _ _ hj]
    · intro j; rcases key j with rfl | hj
      · rw [setNode_same]
      · rw [setNode_other _ _ hj]
    · intro j _; rcases key j with rfl | hj
      · rw [setNode_same]
      · rw [setNode_other _ _ hj]
    · intro j c hc; rcases key j with rfl | hj
      · rw [hn] at hc; cases hc
      · rw [setNode_other _ _ hj]; exact hc
    all_goals rfl

theorem heard_cases (i : Nat) (s : Rti) :
    ((s.node i).nextEvent ≠ NEVER_TAG ∧ heard start i s = s) ∨
    ((s.node i).nextEvent = NEVER_TAG ∧ heard start i s = s.setNode i fun nd => { nd with nextEvent := ⟨start, 0⟩ }) := by
  unfold heard
  by_cases h : (s.node i).nextEvent = NEVER_TAG
  · right; exact ⟨h, if_pos ((cmp_eq_zero _ _).2 h)⟩
  · left; exact ⟨h, if_neg fun hc => h ((cmp_eq_zero _ _).1 hc)⟩

theorem keeps_heard (i : Nat) (s : Rti) : Keeps s (heard start i s) := by
  rcases @heard_cases start i s with ⟨_, h⟩ | ⟨hn, h⟩
  · rw [h]; exact .refl s
  · rw [h]
    have key : ∀ j, j = i ∨ j ≠ i := fun j => Classical.em _
    constructor
    · intro j; rcases key j with rfl | hj
      · rw [setNode_same]
      · rw [setNode_other _ _ hj]
    · intro j; rcases key j with rfl | hj
      · rw [setNode_same]
      · rw [setNode_other _ _ hj]
    · intro j; rcases key j with rfl | hj
      · rw [setNode_same]
      · rw [setNode_other _ _ hj]
    · intro j; rcases key j with rfl | hj
      · rw [setNode_same]
      · rw [setNode_other _ _ hj]
    · intro j hj; rcases key j with rfl | hj'
      · exact absurd hn hj
      · rw [setNode_other _ _ hj']
    · intro j c hc; rcases key j with rfl | hj
      · rw [setNode_same]; exact hc
      · rw [setNode_other _ _ hj]; exact hc
    all_goals rfl

theorem Quiet.keeps {a b : Rti} (h : Quiet T start a b) : Keeps a b := by
  induction h with
  | refl => exact .refl _
  | cache i _ _ ih => exact ih.trans (keeps_updateMin i _)
  | heard i _ ih => exact ih.trans (keeps_heard i _)

theorem updateMin_cache (i : Nat) (s : Rti) : ∃ c, ((updateMin T i s).node i).cache = some c := by
  rcases @updateMin_cases T i s with ⟨c, hc, h⟩ | ⟨_, h⟩
  · rw [h]; exact ⟨c, hc⟩
  · rw [h, setNode_same]; exact ⟨_, rfl⟩

theorem heard_nextEvent (h0 : 0 ≤ start) (i : Nat) (s : Rti) : ((heard start i s).node i).nextEvent ≠ NEVER_TAG := by
  rcases @heard_cases start i s with ⟨hn, h⟩ | ⟨hn, h⟩
  · rw [h]; exact hn
  · rw [h, setNode_same]
    intro hc
    have h1 : start = NEVER := congrArg Tag.time hc
    have : NEVER = -9223372036854775808 := rfl
    omega

theorem ByEvents.keeps {R : Tag → Prop} {a b : Rti} {i : Nat} (h : ByEvents R a i) (k : Keeps a b) : ByEvents R b i := by
  obtain ⟨es, z, hc, he⟩ := h
  refine ⟨es, z, k.cache i _ hc, fun e hm => ?_⟩
  obtain ⟨h1, h2⟩ := he e hm
  rw [k.nextEvent _ h1]
  exact ⟨h1, h2⟩

theorem ByEvents.imp {R R' : Tag → Prop} {a : Rti} {i : Nat} (h : ByEvents R a i) (k : ∀ x, R x → R' x) :
    ByEvents R' a i := by
  obtain ⟨es, z, hc, he⟩ := h
  exact ⟨es, z, hc, fun e hm => ⟨(he e hm).1, k _ (he e hm).2⟩⟩

/-! ## The functions -/

/-- The loop of `eimt`. -/
theorem eimt_loop (h0 : 0 ≤ start) (es : List (Nat × Tag)) :
    ∀ (s : Rti) (m : Tag), ∃ s' t,
      es.foldl
        (fun (a : Rti × Tag) (e : Nat × Tag) =>
          let s := heard start e.1 a.1
          if lf_tag_compare (lf_tag_add (s.node e.1).nextEvent e.2) a.2 < 0 then
            (s, lf_tag_add (s.node e.1).nextEvent e.2)
          else (s, a.2)) (s, m) = (s', t) ∧
      Quiet T start s s' ∧ t ≤ m ∧
      (∀ e ∈ es, (s'.node e.1).nextEvent ≠ NEVER_TAG ∧ t ≤ lf_tag_add (s'.node e.1).nextEvent e.2) ∧
      (t = m ∨ ∃ e ∈ es, t = lf_tag_add (s'.node e.1).nextEvent e.2) := by
  induction es with
  | nil => intro s m; exact ⟨s, m, rfl, .refl s, Tag.le_refl _, by simp, .inl rfl⟩
  | cons e es ih =>
    intro s m
    have hn := heard_nextEvent h0 e.1 s
    have hq : Quiet T start s (heard start e.1 s) := .heard e.1 (.refl s)
    rw [List.foldl_cons]
    dsimp only
    by_cases hc : lf_tag_compare (lf_tag_add ((heard start e.1 s).node e.1).nextEvent e.2) m < 0
    · rw [if_pos hc]
      rw [cmp_lt_zero] at hc
      obtain ⟨s', t, h1, h2, h3, h4, h5⟩ := ih (heard start e.1 s) (lf_tag_add ((heard start e.1 s).node e.1).nextEvent e.2)
      have hk := h2.keeps.nextEvent e.1 hn
      refine ⟨s', t, h1, hq.trans h2, Tag.le_trans h3 (Tag.le_of_lt hc), ?_, ?_⟩
      · intro x hx
        rcases List.mem_cons.1 hx with rfl | hx
        · rw [hk]; exact ⟨hn, h3⟩
        · exact h4 x hx
      · right
        rcases h5 with h5 | ⟨x, hx, h5⟩
        · exact ⟨e, List.mem_cons_self, by rw [hk]; exact h5⟩
        · exact ⟨x, List.mem_cons_of_mem _ hx, h5⟩
    · rw [if_neg hc]
      rw [cmp_lt_zero, Tag.not_lt] at hc
      obtain ⟨s', t, h1, h2, h3, h4, h5⟩ := ih (heard start e.1 s) m
      have hk := h2.keeps.nextEvent e.1 hn
      refine ⟨s', t, h1, hq.trans h2, h3, ?_, ?_⟩
      · intro x hx
        rcases List.mem_cons.1 hx with rfl | hx
        · rw [hk]; exact ⟨hn, Tag.le_trans h3 hc⟩
        · exact h4 x hx
      · rcases h5 with h5 | ⟨x, hx, h5⟩
        · exact .inl h5
        · exact .inr ⟨x, List.mem_cons_of_mem _ hx, h5⟩

/-- `eimt` returns the minimum over the table. -/
theorem eimt_spec (h0 : 0 ≤ start) {i : Nat} (hi : i < T.n) (s : Rti) :
    ∃ s' t, eimt T start i s = (s', t) ∧ Quiet T start s s' ∧ t ≤ FOREVER_TAG ∧ ByEvents (fun x => t ≤ x) s' i ∧
      (t = FOREVER_TAG ∨ ∃ e ∈ s'.entries i, t = lf_tag_add (s'.node e.1).nextEvent e.2) := by
  obtain ⟨⟨es, z⟩, hc⟩ := @updateMin_cache T i s
  obtain ⟨s', t, h1, h2, h3, h4, h5⟩ := @eimt_loop T start h0 es (updateMin T i s) FOREVER_TAG
  have hes : (updateMin T i s).entries i = es := by unfold Rti.entries; rw [hc]
  have hc' := h2.keeps.cache i _ hc
  have hes' : s'.entries i = es := by unfold Rti.entries; rw [hc']
  refine ⟨s', t, ?_, (Quiet.cache i hi (.refl s)).trans h2, h3, ⟨es, z, hc', h4⟩, ?_⟩
  · unfold eimt; rw [hes]; exact h1
  · rw [hes']; exact h5

theorem Keeps.zdc {a b : Rti} (k : Keeps a b) {u : Nat} (h : a.zdc u = true) : b.zdc u = true := by
  unfold Rti.zdc at h ⊢
  cases hc : (a.node u).cache with
  | none => rw [hc] at h; cases h
  | some c => rw [hc] at h; rw [k.cache u c hc]; exact h

/-- The loop of `eimtStrict`. -/
theorem eimtStrict_loop (h0 : 0 ≤ start) (es : List (Nat × Int)) : ∀ (s : Rti) (m : Tag), (∀ e ∈ es, e.1 < T.n) →
    ∃ s' d, es.foldl
      (fun (a : Rti × Tag) (e : Nat × Int) =>
        let z := isInZeroDelayCycle T e.1 a.1
        if z.2 then (z.1, a.2)
        else
          let s := heard start e.1 z.1
          let r := eimt T start e.1 s
          let earliest := if lf_tag_compare (r.1.node e.1).nextEvent r.2 < 0 then (r.1.node e.1).nextEvent else r.2
          if lf_tag_compare (lf_delay_tag earliest e.2) a.2 < 0 then (r.1, lf_delay_tag earliest e.2) else (r.1, a.2))
        (s, m) = (s', d) ∧
      Quiet T start s s' ∧ d ≤ m ∧
      ∀ u w, (u, w) ∈ es → s'.zdc u = true ∨ ∃ z, z ≤ FOREVER_TAG ∧ d ≤ lf_delay_tag z w ∧
        (s'.node u).nextEvent ≠ NEVER_TAG ∧ z ≤ (s'.node u).nextEvent ∧ ByEvents (fun x => z ≤ x) s' u := by
  induction es with
  | nil => intro s m _; exact ⟨s, m, rfl, .refl s, Tag.le_refl _, by simp⟩
  | cons e es ih =>
    intro s m hr
    rw [List.foldl_cons]
    dsimp only [isInZeroDelayCycle]
    have he := hr e List.mem_cons_self
    have hrs : ∀ e ∈ es, e.1 < T.n := fun e he => hr e (List.mem_cons_of_mem _ he)
    have q1 : Quiet T start s (updateMin T e.1 s) := .cache e.1 he (.refl s)
    by_cases hz : (updateMin T e.1 s).zdc e.1 = true
    · rw [if_pos hz]
      obtain ⟨s', d, h1, h2, h3, h4⟩ := ih (updateMin T e.1 s) m hrs
      refine ⟨s', d, h1, q1.trans h2, h3, fun u w hm => ?_⟩
      rcases List.mem_cons.1 hm with hm | hm
      · subst hm; exact .inl (h2.keeps.zdc hz)
      · exact h4 u w hm
    · rw [if_neg hz]
      obtain ⟨s1, t, h1, h2, h3, h4, _⟩ := eimt_spec h0 he (heard start e.1 (updateMin T e.1 s))
      rw [h1]
      dsimp only
      have q2 : Quiet T start s s1 := (Quiet.heard e.1 q1).trans h2
      have hn0 := heard_nextEvent h0 e.1 (updateMin T e.1 s)
      have hn : (s1.node e.1).nextEvent ≠ NEVER_TAG := by rw [h2.keeps.nextEvent e.1 hn0]; exact hn0
      obtain ⟨z, hzd, hzt, hzn⟩ : ∃ z, (if lf_tag_compare (s1.node e.1).nextEvent t < 0 then (s1.node e.1).nextEvent
          else t) = z ∧ z ≤ t ∧ z ≤ (s1.node e.1).nextEvent := by
        by_cases hc : lf_tag_compare (s1.node e.1).nextEvent t < 0
        · rw [if_pos hc]; rw [cmp_lt_zero] at hc; exact ⟨_, rfl, Tag.le_of_lt hc, Tag.le_refl _⟩
        · rw [if_neg hc]; rw [cmp_lt_zero, Tag.not_lt] at hc; exact ⟨_, rfl, Tag.le_refl _, hc⟩
      rw [hzd]
      have hev : ByEvents (fun x => z ≤ x) s1 e.1 := h4.imp fun x hx => Tag.le_trans hzt hx
      have fin : ∀ {s' d}, Quiet T start s1 s' → d ≤ lf_delay_tag z e.2 →
          ∃ z, z ≤ FOREVER_TAG ∧ d ≤ lf_delay_tag z e.2 ∧
            (s'.node e.1).nextEvent ≠ NEVER_TAG ∧ z ≤ (s'.node e.1).nextEvent ∧ ByEvents (fun x => z ≤ x) s' e.1 := by
        intro s' d hq hd
        have := hq.keeps.nextEvent e.1 hn
        exact ⟨z, Tag.le_trans hzt h3, hd, by rw [this]; exact hn, by rw [this]; exact hzn, hev.keeps hq.keeps⟩
      by_cases hc : lf_tag_compare (lf_delay_tag z e.2) m < 0
      · rw [if_pos hc]
        rw [cmp_lt_zero] at hc
        obtain ⟨s', d, k1, k2, k3, k4⟩ := ih s1 (lf_delay_tag z e.2) hrs
        refine ⟨s', d, k1, q2.trans k2, Tag.le_trans k3 (Tag.le_of_lt hc), fun u w hm => ?_⟩
        rcases List.mem_cons.1 hm with hm | hm
        · subst hm; exact .inr (fin k2 k3)
        · exact k4 u w hm
      · rw [if_neg hc]
        rw [cmp_lt_zero, Tag.not_lt] at hc
        obtain ⟨s', d, k1, k2, k3, k4⟩ := ih s1 m hrs
        refine ⟨s', d, k1, q2.trans k2, k3, fun u w hm => ?_⟩
        rcases List.mem_cons.1 hm with hm | hm
        · subst hm; exact .inr (fin k2 (Tag.le_trans k3 hc))
        · exact k4 u w hm

/-- `eimtStrict` only computes tables and default next events; its result bounds what can come from outside of the
zero-delay cycles. -/
theorem eimtStrict_spec (h0 : 0 ≤ start) (hT : T.Ok) (i : Nat) (s : Rti) :
    ∃ s' d, eimtStrict T start i s = (s', d) ∧ Quiet T start s s' ∧ ∀ t, t < d → Outside T s' i t := by
  obtain ⟨s', d, h1, h2, _, h4⟩ := @eimtStrict_loop T start h0 (T.up i) s FOREVER_TAG
    fun e he => hT.range i e.1 e.2 he
  refine ⟨s', d, h1, h2, fun t ht u w hm => ?_⟩
  rcases h4 u w hm with h | ⟨z, z1, z2, z3⟩
  · exact .inl h
  · exact .inr ⟨z, z1, Tag.lt_of_lt_of_le ht z2, z3⟩

theorem eimtStrict_quiet (h0 : 0 ≤ start) (hT : T.Ok) {i : Nat} (s : Rti) : Quiet T start s (eimtStrict T start i s).1 := by
  obtain ⟨s', d, h1, h2, _⟩ := @eimtStrict_spec T start h0 hT i s
  rw [h1]; exact h2

/-- The least adjusted completed tag. -/
theorem minUpstreamCompleted_spec (i : Nat) (s : Rti) : ByCompletion T s i (minUpstreamCompleted T i s) := by
  unfold ByCompletion minUpstreamCompleted
  have key : ∀ (es : List (Nat × Int)) (m : Tag),
      (es.foldl (fun (m : Tag) (e : Nat × Int) =>
        if (s.node e.1).connected then
          if lf_tag_compare (lf_delay_strict (s.node e.1).completed e.2) m < 0 then
            lf_delay_strict (s.node e.1).completed e.2
          else m
        else m) m) ≤ m ∧
      ∀ u w, (u, w) ∈ es → (s.node u).connected = true →
        (es.foldl (fun (m : Tag) (e : Nat × Int) =>
          if (s.node e.1).connected then
            if lf_tag_compare (lf_delay_strict (s.node e.1).completed e.2) m < 0 then
              lf_delay_strict (s.node e.1).completed e.2
            else m
          else m) m) ≤ lf_delay_strict (s.node u).completed w := by
    intro es
    induction es with
    | nil => intro m; exact ⟨Tag.le_refl _, by simp⟩
    | cons e es ih =>
      intro m
      rw [List.foldl_cons]
      by_cases hcn : (s.node e.1).connected = true
      · rw [if_pos hcn]
        by_cases hlt : lf_tag_compare (lf_delay_strict (s.node e.1).completed e.2) m < 0
        · rw [if_pos hlt]
          rw [cmp_lt_zero] at hlt
          obtain ⟨h1, h2⟩ := ih (lf_delay_strict (s.node e.1).completed e.2)
          refine ⟨Tag.le_trans h1 (Tag.le_of_lt hlt), fun u w hm hu => ?_⟩
          rcases List.mem_cons.1 hm with hm | hm
          · subst hm; exact h1
          · exact h2 u w hm hu
        · rw [if_neg hlt]
          rw [cmp_lt_zero, Tag.not_lt] at hlt
          obtain ⟨h1, h2⟩ := ih m
          refine ⟨h1, fun u w hm hu => ?_⟩
          rcases List.mem_cons.1 hm with hm | hm
          · subst hm; exact Tag.le_trans h1 hlt
          · exact h2 u w hm hu
      · rw [if_neg hcn]
        obtain ⟨h1, h2⟩ := ih m
        refine ⟨h1, fun u w hm hu => ?_⟩
        rcases List.mem_cons.1 hm with hm | hm
        · subst hm; exact absurd hu hcn
        · exact h2 u w hm hu
  exact fun u w hm hu => (key (T.up i) FOREVER_TAG).2 u w hm hu

/-- The reason for a tag advance grant. -/
def TagReason (T : Topology) (s : Rti) (i : Nat) (t : Tag) : Prop :=
  ByCompletion T s i t ∨ (t < FOREVER_TAG ∧ ByEvents (fun x => t < x) s i)

theorem tagAdvanceGrantIfSafe_spec (h0 : 0 ≤ start) (hT : T.Ok) {i : Nat} (hi : i < T.n) (s : Rti) :
    ∃ s' t p, tagAdvanceGrantIfSafe T start i s = (s', t, p) ∧ Quiet T start s s' ∧
      (t ≠ NEVER_TAG → p = false → TagReason T s' i t) ∧
      (t ≠ NEVER_TAG → p = true → t ≤ FOREVER_TAG ∧ ByEvents (fun x => t ≤ x) s' i ∧ Outside T s' i t ∧
        ∃ u, s'.zdc u = true) := by
  unfold tagAdvanceGrantIfSafe
  by_cases hA : lf_tag_compare (minUpstreamCompleted T i s) (s.node i).lastGranted > 0 ∧
      lf_tag_compare (minUpstreamCompleted T i s) (s.node i).nextEvent ≥ 0
  · rw [if_pos hA]
    exact ⟨s, _, _, rfl, .refl s, fun _ _ => .inl (minUpstreamCompleted_spec i s), fun _ h => by cases h⟩
  · rw [if_neg hA]
    obtain ⟨s1, d, h1, h2, h3, h4, _⟩ := eimt_spec h0 hi s
    rw [h1]
    dsimp only
    obtain ⟨s2, ds, hs2, q2, hout⟩ := @eimtStrict_spec T start h0 hT i s1
    rw [hs2]
    dsimp only
    have h4' := h4.keeps q2.keeps
    by_cases hB : lf_tag_compare d (s2.node i).nextEvent > 0 ∧ lf_tag_compare (s2.node i).nextEvent NEVER_TAG > 0 ∧
        lf_tag_compare d (s2.node i).lastProvisional ≥ 0 ∧ lf_tag_compare d (s2.node i).lastGranted > 0
    · rw [if_pos hB]
      refine ⟨s2, _, _, rfl, h2.trans q2, fun _ _ => .inr ?_, fun _ h => by cases h⟩
      have hlt := (cmp_gt_zero _ _).1 hB.1
      exact ⟨Tag.lt_of_lt_of_le hlt h3, h4'.imp fun x hx => Tag.lt_of_lt_of_le hlt hx⟩
    · rw [if_neg hB]
      split
      · rename_i hC
        refine ⟨s2, _, _, rfl, h2.trans q2, fun _ h => (by cases h), fun _ _ => ?_⟩
        have he := (cmp_eq_zero _ _).1 hC.1
        have ho := hout _ ((cmp_gt_zero _ _).1 hC.2.2.1)
        rw [← he] at ho ⊢
        exact ⟨h3, h4', ho, i, hC.2.1⟩
      · exact ⟨s2, _, _, rfl, h2.trans q2, fun h => absurd rfl h, fun h => absurd rfl h⟩

theorem notifyTag_micros {i : Nat} {t : Tag} {s : Rti} (hi : i < T.n) (h : TagReason T s i t) :
    Micros T start s (notifyTag i t s) := by
  unfold notifyTag
  by_cases hg : (s.node i).connected = false ∨ lf_tag_compare t (s.node i).lastGranted ≤ 0 ∨
      lf_tag_compare t (s.node i).lastProvisional < 0
  · rw [if_pos hg]; exact .refl s
  · rw [if_neg hg]
    simp only [cmp_le_zero, cmp_lt_zero, not_or, Tag.not_le, Tag.not_lt, Bool.not_eq_false] at hg
    by_cases hb : s.broken i = true
    · rw [if_pos hb]; exact .one (.drop s i hb)
    · rw [if_neg hb]
      exact .one (.tag s i t hi hg.1 hg.2.1 hg.2.2 (by simpa using hb) h)

theorem zdc_setNode {s : Rti} (i : Nat) (f : Node → Node) (h1 : ∀ nd, (f nd).cache = nd.cache)
    (h : ∃ u, s.zdc u = true) : ∃ u, (s.setNode i f).zdc u = true := by
  obtain ⟨u, h⟩ := h
  refine ⟨u, ?_⟩
  unfold Rti.zdc at h ⊢
  by_cases hu : u = i
  · subst hu; rw [setNode_same, h1]; exact h
  · rw [setNode_other _ _ hu]; exact h

theorem Micro.zdc {a b : Rti} (hm : Micro T start a b) (h : ∃ u, a.zdc u = true) : ∃ u, b.zdc u = true := by
  cases hm with
  | cache i hi => obtain ⟨u, h⟩ := h; exact ⟨u, (keeps_updateMin i a).zdc h⟩
  | heard i => obtain ⟨u, h⟩ := h; exact ⟨u, (keeps_heard i a).zdc h⟩
  | tag i t => exact zdc_setNode (s := a.write i (.tag t)) i _ (fun _ => rfl) h
  | ptag i t => exact zdc_setNode (s := a.write i (.ptag t)) i _ (fun _ => rfl) h
  | drop i => exact zdc_setNode i _ (fun _ => rfl) h
  | deep => exact h

theorem Micros.zdc {a b : Rti} (hm : Micros T start a b) (h : ∃ u, a.zdc u = true) : ∃ u, b.zdc u = true := by
  induction hm with
  | refl => exact h
  | tail _ k ih => exact k.zdc ih

theorem notifyProvisional_micros (h0 : 0 ≤ start) (hT : T.Ok) (t : Tag) (depth : Nat) :
    ∀ {i : Nat} {s : Rti}, i < T.n → t ≤ FOREVER_TAG → ByEvents (fun x => t ≤ x) s i →
      Outside T s i t → (∃ u, s.zdc u = true) → Micros T start s (notifyProvisional T start depth i t s) := by
  induction depth with
  | zero => intro i s _ _ _ _ _; exact .one (.deep s)
  | succ depth ihd =>
    intro i s hi hF h hO hz
    unfold notifyProvisional
    by_cases hg : (s.node i).connected = false ∨ lf_tag_compare t (s.node i).lastGranted ≤ 0 ∨
        lf_tag_compare t (s.node i).lastProvisional ≤ 0
    · rw [if_pos hg]; exact .refl s
    · rw [if_neg hg]
      simp only [cmp_le_zero, cmp_lt_zero, not_or, Tag.not_le, Tag.not_lt, Bool.not_eq_false] at hg
      by_cases hb : s.broken i = true
      · rw [if_pos hb]; exact .one (.drop s i hb)
      · rw [if_neg hb]
        have hm := Micro.ptag (start := start) s i t hi hg.1 hg.2.1 hg.2.2 (by simpa using hb) hF h hO hz
        refine Micros.trans (.one hm) ?_
        have hza := hm.zdc hz
        clear hm
        have hr : ∀ e ∈ T.up i, e.1 < T.n := fun e he => hT.range i e.1 e.2 he
        generalize T.up i = es at hr
        generalize ((s.write i (.ptag t)).setNode i fun nd => { nd with lastProvisional := t }) = a at hza
        induction es generalizing a with
        | nil => exact .refl a
        | cons e es ih =>
          rw [List.foldl_cons]
          have he := hr e List.mem_cons_self
          have hrs : ∀ e ∈ es, e.1 < T.n := fun e he => hr e (List.mem_cons_of_mem _ he)
          suffices h : Micros T start a _ from Micros.trans h (ih hrs _ (h.zdc hza))
          by_cases hcn : (a.node e.1).connected = true
          · rw [if_pos hcn]
            obtain ⟨s1, d, h1, h2, h3, h4, _⟩ := eimt_spec h0 he a
            rw [h1]
            dsimp only
            obtain ⟨s2, ds, hs2, q2, hout⟩ := @eimtStrict_spec T start h0 hT e.1 s1
            rw [hs2]
            dsimp only
            have h4' := h4.keeps q2.keeps
            have q := (h2.trans q2).micros
            by_cases hd : lf_tag_compare d t > 0
            · rw [if_pos hd]
              have hlt := (cmp_gt_zero _ _).1 hd
              exact q.trans (notifyTag_micros he
                (.inr ⟨Tag.lt_of_lt_of_le hlt h3, h4'.imp fun x hx => Tag.lt_of_lt_of_le hlt hx⟩))
            · rw [if_neg hd]
              split
              · rename_i hC
                have heq := (cmp_eq_zero _ _).1 hC.1
                exact q.trans (ihd he hF (by rw [← heq]; exact h4') (hout _ ((cmp_gt_zero _ _).1 hC.2))
                  (q.zdc hza))
              · exact q
          · rw [if_neg hcn]; exact .refl a

theorem notifyIfSafe_micros (h0 : 0 ≤ start) (hT : T.Ok) {i : Nat} (hi : i < T.n) (s : Rti) :
    Micros T start s (notifyIfSafe T start i s) := by
  obtain ⟨s', t, p, h1, h2, h3, h4⟩ := tagAdvanceGrantIfSafe_spec h0 hT hi s
  unfold notifyIfSafe
  rw [h1]
  dsimp only
  by_cases hn : lf_tag_compare t NEVER_TAG ≠ 0
  · rw [if_pos hn]
    have hn' : t ≠ NEVER_TAG := fun h => hn ((cmp_eq_zero _ _).2 h)
    cases p with
    | true =>
      rw [if_pos rfl]
      exact h2.micros.trans (notifyProvisional_micros h0 hT t _ hi (h4 hn' rfl).1 (h4 hn' rfl).2.1 (h4 hn' rfl).2.2.1
        (h4 hn' rfl).2.2.2)
    | false =>
      rw [if_neg (by simp)]
      exact h2.micros.trans (notifyTag_micros hi (h3 hn' rfl))
  · rw [if_neg hn]; exact h2.micros

/-- The lists of downstream nodes are in range. -/
def Topology.DownOk (T : Topology) : Prop := ∀ i, ∀ j ∈ T.down i, j < T.n

theorem notifyDownstream_micros (h0 : 0 ≤ start) (hT : T.Ok) (hD : T.DownOk) (depth : Nat) :
    ∀ (i : Nat) (a : Rti × (Nat → Bool)), Micros T start a.1 (notifyDownstream T start depth i a).1 := by
  induction depth with
  | zero => intro i a; exact .one (.deep a.1)
  | succ depth ihd =>
    intro i a
    unfold notifyDownstream
    have hr := hD i
    generalize T.down i = js at hr
    have : a.1 = (a.1, put a.2 i true).1 := rfl
    rw [this]
    generalize (a.1, put a.2 i true) = b
    induction js generalizing b with
    | nil => exact .refl _
    | cons j js ih =>
      rw [List.foldl_cons]
      have hrs : ∀ j ∈ js, j < T.n := fun j hj => hr j (List.mem_cons_of_mem _ hj)
      refine Micros.trans ?_ (ih hrs _)
      split
      · exact .refl _
      · exact (notifyIfSafe_micros h0 hT (hr j List.mem_cons_self) b.1).trans (ihd j (notifyIfSafe T start j b.1, b.2))

theorem notifyAllDownstream_micros (h0 : 0 ≤ start) (hT : T.Ok) (hD : T.DownOk) (i : Nat) (s : Rti) :
    Micros T start s (notifyAllDownstream T start i s) :=
  notifyDownstream_micros h0 hT hD (T.n + 1) i (s, fun _ => false)

end

end ReactorC.Rti
