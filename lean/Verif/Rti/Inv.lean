import Verif.Rti.Sane
import Verif.Rti.Micro

/-! The invariant of a federation under centralized coordination. -/

set_option linter.unusedSimpArgs false
set_option linter.unusedVariables false

namespace ReactorC.Rti
open ReactorC

/-- What may follow what on the way to a federate: a message that follows a grant is later than the tag granted (a message
at `FOREVER_TAG` is never handled); one that follows a provisional grant is not earlier than it. -/
def Later : Down → Down → Prop
  | .tag g, .msg m => g < m ∨ m = FOREVER_TAG
  | .ptag g, .msg m => g ≤ m
  | _, _ => True

section
variable {T : Topology} {start : Int}

/-- Whatever any node can still cause at `i` satisfies `R`, where `β` bounds from below when a node acts; if `own`, even when `i` is
not connected any more. -/
def CausesOnly (T : Topology) (own : Bool) (R : Tag → Prop) (β : Nat → Tag) (s : Rti) (i : Nat) : Prop :=
  i < T.n ∧ ∃ conn : Nat → Bool, ((own = true → conn i = true) ∧ ∀ j, (s.node j).connected = true → conn j = true) ∧
    ∀ x, R (lf_tag_add (β x) ((searchFrom T conn i).delays x))

/-- The promise contained in a grant still holds. -/
def SafeTag (T : Topology) (β : Nat → Tag) (s : Rti) (i : Nat) (g : Tag) : Prop :=
  ByCompletion T s i g ∨ (g < FOREVER_TAG ∧ CausesOnly T true (fun x => g < x) β s i)

/-- The node `u` is on a cycle of connections without delay. -/
def OnZeroDelayCycle (T : Topology) (u : Nat) : Prop := ∃ ws, Path T (fun _ => true) u u ws ∧ ∀ w ∈ ws, w < 0

/-- What happens at `x` is sent over a connection with delay `w` only with tags later than `g`. -/
def Beyond (g : Tag) (w : Int) (x : Tag) : Prop := ∃ z, z ≤ x ∧ g < lf_delay_tag z w

/-- Whatever happens at `u` itself, now or as a consequence of something elsewhere, satisfies `R`. -/
def ActsOnly (T : Topology) (R : Tag → Prop) (β : Nat → Tag) (s : Rti) (u : Nat) : Prop :=
  R (β u) ∧ CausesOnly T false R β s u

structure RInv (T : Topology) (start : Int) (β : Nat → Tag) (s : Rti) : Prop where
  sane : ∀ u, Sane T (β u) ∧ (⟨start, 0⟩ : Tag) ≤ β u
  next : ∀ u, ((s.node u).nextEvent = NEVER_TAG ∨ Sane T (s.node u).nextEvent) ∧ (s.node u).nextEvent ≤ β u
  cache : ∀ u c, (s.node u).cache = some c → u < T.n ∧ ∃ conn : Nat → Bool,
    (∀ j, (s.node j).connected = true → conn j = true) ∧ c.1 = minDelays T conn u ∧
    c.2 = (searchFrom T conn u).inZeroDelayCycle
  tags : ∀ i g, Down.tag g ∈ s.out i → SafeTag T β s i g
  ptags : ∀ i g, Down.ptag g ∈ s.out i → CausesOnly T true (fun x => g ≤ x) β s i
  outside : ∀ i g, Down.ptag g ∈ s.out i → ∀ u w, (u, w) ∈ T.up i → OnZeroDelayCycle T u ∨
    ActsOnly T (Beyond g w) β s u
  order : ∀ i, (s.out i).Pairwise Later

/-- What the small steps do not change. -/
structure MKeep (a b : Rti) : Prop where
  completed : ∀ j, (b.node j).completed = (a.node j).completed
  connected : ∀ j, (b.node j).connected = true → (a.node j).connected = true
  transit : b.transit = a.transit
  broken : b.broken = a.broken
  msgs : ∀ j p, Down.msg p ∈ b.out j ↔ Down.msg p ∈ a.out j

theorem MKeep.refl (a : Rti) : MKeep a a := ⟨fun _ => rfl, fun _ h => h, rfl, rfl, fun _ _ => Iff.rfl⟩

theorem MKeep.trans {a b c : Rti} (h1 : MKeep a b) (h2 : MKeep b c) : MKeep a c :=
  ⟨fun j => (h2.completed j).trans (h1.completed j), fun j h => h1.connected j (h2.connected j h),
    h2.transit.trans h1.transit, h2.broken.trans h1.broken, fun j p => (h2.msgs j p).trans (h1.msgs j p)⟩

theorem Keeps.mkeep {a b : Rti} (h : Keeps a b) : MKeep a b :=
  ⟨h.completed, fun j hj => by rw [← h.connected j]; exact hj, h.transit, h.broken, fun j p => by rw [h.out]⟩

/-- A change of one node that keeps `completed` and does not connect it. -/
theorem mkeep_setNode (s : Rti) (i : Nat) (f : Node → Node) (h1 : ∀ nd, (f nd).completed = nd.completed)
    (h2 : ∀ nd, (f nd).connected = true → nd.connected = true) : MKeep s (s.setNode i f) := by
  refine ⟨fun j => ?_, fun j h => ?_, rfl, rfl, fun _ _ => Iff.rfl⟩
  · by_cases hj : j = i
    · subst hj; rw [setNode_same, h1]
    · rw [setNode_other _ _ hj]
  · by_cases hj : j = i
    · subst hj; rw [setNode_same] at h; exact h2 _ h
    · rw [setNode_other _ _ hj] at h; exact h

theorem mem_write {s : Rti} {i j : Nat} {d x : Down} : x ∈ (s.write i d).out j ↔ x ∈ s.out j ∨ (j = i ∧ x = d) := by
  unfold Rti.write
  dsimp only
  by_cases hj : j = i
  · subst hj; rw [put_same]; simp
  · rw [put_other _ _ _ hj]; simp [hj]

theorem mkeep_write (s : Rti) (i : Nat) (d : Down) (h : ∀ p, d ≠ .msg p) : MKeep s (s.write i d) := by
  refine ⟨fun _ => rfl, fun _ h => h, rfl, rfl, fun j p => ?_⟩
  rw [mem_write]
  constructor
  · rintro (h' | ⟨_, h'⟩)
    · exact h'
    · exact absurd h'.symm (h p)
  · exact .inl

theorem ByCompletion.mono {a b : Rti} {i : Nat} {g : Tag} (h : ByCompletion T a i g) (k : MKeep a b) :
    ByCompletion T b i g := by
  intro u w hm hu
  rw [k.completed u]
  exact h u w hm (k.connected u hu)

theorem CausesOnly.mono {own : Bool} {R : Tag → Prop} {β : Nat → Tag} {a b : Rti} {i : Nat} (h : CausesOnly T own R β a i)
    (k : MKeep a b) : CausesOnly T own R β b i := by
  obtain ⟨hi, conn, h1, h2⟩ := h
  exact ⟨hi, conn, ⟨h1.1, fun j hj => h1.2 j (k.connected j hj)⟩, h2⟩

theorem ActsOnly.mono {R : Tag → Prop} {β : Nat → Tag} {a b : Rti} {i : Nat} (h : ActsOnly T R β a i)
    (k : MKeep a b) : ActsOnly T R β b i := ⟨h.1, h.2.mono k⟩

theorem SafeTag.mono {β : Nat → Tag} {a b : Rti} {i : Nat} {g : Tag} (h : SafeTag T β a i g) (k : MKeep a b) :
    SafeTag T β b i g := by
  rcases h with h | ⟨h1, h2⟩
  · exact .inl (h.mono k)
  · exact .inr ⟨h1, h2.mono k⟩

/-- A reason found in the tables is a reason in terms of the bounds. -/
theorem causes_of_events (hT : T.Ok) {β : Nat → Tag} {s : Rti} (hr : RInv T start β s) {i : Nat} {own : Bool}
    {R : Tag → Prop} (hup : ∀ x y, R x → x ≤ y → R y) (hF : R FOREVER_TAG) (h : ByEvents R s i)
    (ho : own = true → (s.node i).connected = true) : CausesOnly T own R β s i := by
  obtain ⟨es, z, hc, he⟩ := h
  obtain ⟨hi, conn, h1, h2, _⟩ := hr.cache i _ hc
  dsimp only at h2
  refine ⟨hi, conn, ⟨fun k => h1 i (ho k), h1⟩, fun x => ?_⟩
  obtain ⟨hd, hroom⟩ := @room_delays T hT conn i hi x
  by_cases hx : (searchFrom T conn i).delays x = FOREVER_TAG
  · rw [hx, add_forever_right (hr.sane x).1.delay]; exact hF
  · have hmem : (x, (searchFrom T conn i).delays x) ∈ es := by
      rw [h2, mem_minDelays hT hi]
      obtain ⟨g, _⟩ := searchFrom_spec (conn := conn) hT hi
      refine ⟨?_, rfl, ?_⟩
      · rcases g.entry x with k | k
        · exact absurd k hx
        · exact k.1
      · rcases Tag.lt_or_eq_of_le (le_forever hd) with k | k
        · exact k
        · exact absurd k hx
    obtain ⟨e1, e2⟩ := he _ hmem
    dsimp only at e1 e2
    obtain ⟨n1, n2⟩ := hr.next x
    rcases n1 with n1 | n1
    · exact absurd n1 e1
    · exact hup _ _ e2 (add_mono_left n1 (hr.sane x).1 hd hroom n2)

theorem Path.conn_true {conn : Nat → Bool} {e u : Nat} {ws : List Int} (h : Path T conn e u ws) :
    Path T (fun _ => true) e u ws := by
  induction h with
  | last u w _ hm => exact .last u w rfl hm
  | step u i w ws _ hm _ ih => exact .step u i w ws rfl hm ih

/-- A flag in the tables is a cycle. -/
theorem cycle_of_flag (hT : T.Ok) {β : Nat → Tag} {s : Rti} (hr : RInv T start β s) {u : Nat} (h : s.zdc u = true) :
    OnZeroDelayCycle T u := by
  unfold Rti.zdc at h
  cases hc : (s.node u).cache with
  | none => rw [hc] at h; cases h
  | some c =>
    rw [hc] at h
    obtain ⟨hu, conn, _, _, h3⟩ := hr.cache u c hc
    obtain ⟨ws, h4, h5⟩ := (C26_cycle_flags conn hT hu).2.1 (by rw [← h3]; exact h)
    exact ⟨ws, h4.conn_true, h5⟩

theorem outside_of_tables (hT : T.Ok) {β : Nat → Tag} {s : Rti} (hr : RInv T start β s) {i : Nat} {g : Tag}
    (h : Outside T s i g) : ∀ u w, (u, w) ∈ T.up i → OnZeroDelayCycle T u ∨ ActsOnly T (Beyond g w) β s u := by
  intro u w hm
  rcases h u w hm with h | ⟨z, z1, z2, z3, z4, z5⟩
  · exact .inl (cycle_of_flag hT hr h)
  · refine .inr ⟨⟨z, Tag.le_trans z4 (hr.next u).2, z2⟩, ?_⟩
    exact causes_of_events hT hr (fun x y ⟨z, a, b⟩ hxy => ⟨z, Tag.le_trans a hxy, b⟩) ⟨z, z1, z2⟩
      (z5.imp fun x hx => ⟨z, hx, z2⟩) (fun k => by cases k)

theorem pairwise_append_one {l : List Down} {d : Down} (h : l.Pairwise Later) (k : ∀ a ∈ l, Later a d) :
    (l ++ [d]).Pairwise Later := by
  rw [List.pairwise_append]
  refine ⟨h, List.pairwise_singleton _ _, fun a ha b hb => ?_⟩
  rw [List.mem_singleton] at hb
  subst hb
  exact k a ha

/-- A change of one node that keeps or improves everything the invariant looks at. -/
theorem RInv.setNode {β : Nat → Tag} {s : Rti} (hr : RInv T start β s) (i : Nat) (f : Node → Node)
    (h1 : ∀ nd, (f nd).completed = nd.completed) (h2 : ∀ nd, (f nd).connected = true → nd.connected = true)
    (h3 : ∀ nd, (f nd).nextEvent = nd.nextEvent) (h4 : ∀ nd, (f nd).cache = nd.cache) :
    RInv T start β (s.setNode i f) := by
  have k := mkeep_setNode s i f h1 h2
  refine ⟨hr.sane, fun u => ?_, fun u c hc => ?_, fun j g h => (hr.tags j g h).mono k,
    fun j g h => (hr.ptags j g h).mono k,
    fun j g h u w hm => (hr.outside j g h u w hm).imp id (·.mono k), hr.order⟩
  · by_cases hu : u = i
    · subst hu; rw [setNode_same, h3]; exact hr.next u
    · rw [setNode_other _ _ hu]; exact hr.next u
  · have hc' : (s.node u).cache = some c := by
      by_cases hu : u = i
      · subst hu; rw [setNode_same, h4] at hc; exact hc
      · rw [setNode_other _ _ hu] at hc; exact hc
    obtain ⟨a1, conn, a2, a3⟩ := hr.cache u c hc'
    exact ⟨a1, conn, fun j hj => a2 j (k.connected j hj), a3⟩

/-- The next event of a node is replaced by a tag below the bound. -/
theorem RInv.setNext {β : Nat → Tag} {s : Rti} (hr : RInv T start β s) (i : Nat) {t : Tag} (ht : Sane T t)
    (hle : t ≤ β i) : RInv T start β (s.setNode i fun nd => { nd with nextEvent := t }) := by
  have k := mkeep_setNode s i (fun nd => { nd with nextEvent := t }) (fun _ => rfl) (fun _ h => h)
  refine ⟨hr.sane, fun u => ?_, fun u c hc => ?_, fun j g h => (hr.tags j g h).mono k,
    fun j g h => (hr.ptags j g h).mono k,
    fun j g h u w hm => (hr.outside j g h u w hm).imp id (·.mono k), hr.order⟩
  · by_cases hu : u = i
    · subst hu; rw [setNode_same]; exact ⟨.inr ht, hle⟩
    · rw [setNode_other _ _ hu]; exact hr.next u
  · have hc' : (s.node u).cache = some c := by
      by_cases hu : u = i
      · subst hu; rw [setNode_same] at hc; exact hc
      · rw [setNode_other _ _ hu] at hc; exact hc
    obtain ⟨a1, conn, a2, a3⟩ := hr.cache u c hc'
    exact ⟨a1, conn, fun j hj => a2 j (k.connected j hj), a3⟩

/-- Something other than a message is sent. -/
theorem RInv.write {β : Nat → Tag} {s : Rti} (hr : RInv T start β s) (i : Nat) (d : Down) (hd : ∀ p, d ≠ .msg p)
    (h1 : ∀ g, d = .tag g → SafeTag T β s i g) (h2 : ∀ g, d = .ptag g → CausesOnly T true (fun x => g ≤ x) β s i ∧
      ∀ u w, (u, w) ∈ T.up i → OnZeroDelayCycle T u ∨ ActsOnly T (Beyond g w) β s u) :
    RInv T start β (s.write i d) := by
  have k := mkeep_write s i d hd
  refine ⟨hr.sane, hr.next, hr.cache, fun j g h => ?_, fun j g h => ?_, fun j g h => ?_, fun j => ?_⟩
  · rw [mem_write] at h
    rcases h with h | ⟨rfl, h⟩
    · exact (hr.tags j g h).mono k
    · exact (h1 g h.symm).mono k
  · rw [mem_write] at h
    rcases h with h | ⟨rfl, h⟩
    · exact (hr.ptags j g h).mono k
    · exact (h2 g h.symm).1.mono k
  · rw [mem_write] at h
    rcases h with h | ⟨rfl, h⟩
    · exact fun u w hm => (hr.outside j g h u w hm).imp id (·.mono k)
    · exact fun u w hm => ((h2 g h.symm).2 u w hm).imp id (·.mono k)
  · unfold Rti.write
    dsimp only
    by_cases hj : j = i
    · subst hj; rw [put_same]
      refine pairwise_append_one (hr.order j) fun a _ => ?_
      cases d with
      | msg p => exact absurd rfl (hd p)
      | tag g => cases a <;> trivial
      | ptag g => cases a <;> trivial
    · rw [put_other _ _ _ hj]; exact hr.order j

theorem sane_start (hT : T.Ok) (h0 : 0 ≤ start) (h1 : start < FOREVER) : Sane T ⟨start, 0⟩ := by
  have := hT.small
  have hU : UINT_MAX = 4294967295 := rfl
  exact .inr ⟨h0, h1, by dsimp only; omega⟩

/-- The small steps keep the invariant. -/
theorem Micro.inv (hT : T.Ok) (h0 : 0 ≤ start) (h1 : start < FOREVER) {β : Nat → Tag} {s s' : Rti}
    (h : Micro T start s s') (hr : RInv T start β s) : RInv T start β s' ∧ MKeep s s' := by
  cases h with
  | cache i hi =>
    refine ⟨?_, (keeps_updateMin i s).mkeep⟩
    have kk := keeps_updateMin (T := T) i s
    have k := kk.mkeep
    rcases @updateMin_cases T i s with ⟨c, _, h⟩ | ⟨hn, h⟩
    · rw [h]; exact hr
    · refine ⟨hr.sane, fun u => ?_, fun u c hc => ?_, fun j g hg => ?_, fun j g hg => ?_, fun j g hg => ?_, fun j => ?_⟩
      · rw [h]
        by_cases hu : u = i
        · subst hu; rw [setNode_same]; exact hr.next u
        · rw [setNode_other _ _ hu]; exact hr.next u
      · by_cases hu : u = i
        · subst hu
          rw [h, setNode_same] at hc
          dsimp only at hc
          have hc := Option.some.inj hc
          exact ⟨hi, fun j => (s.node j).connected, fun j hj => k.connected j hj, by rw [← hc], by rw [← hc]⟩
        · have hc' : (s.node u).cache = some c := by
            rw [h, setNode_other _ _ hu] at hc; exact hc
          obtain ⟨a1, conn, a2, a3⟩ := hr.cache u c hc'
          exact ⟨a1, conn, fun j hj => a2 j (k.connected j hj), a3⟩
      · rw [kk.out] at hg; exact (hr.tags j g hg).mono k
      · rw [kk.out] at hg; exact (hr.ptags j g hg).mono k
      · rw [kk.out] at hg; exact fun u w hm => (hr.outside j g hg u w hm).imp id (·.mono k)
      · rw [kk.out]; exact hr.order j
  | heard i =>
    refine ⟨?_, (keeps_heard i s).mkeep⟩
    rcases @heard_cases start i s with ⟨_, h⟩ | ⟨hn, h⟩
    · rw [h]; exact hr
    · rw [h]; exact hr.setNext i (sane_start hT h0 h1) (hr.sane i).2
  | tag i t hi hcn hg hp hb hreason =>
    have hs : SafeTag T β s i t := by
      rcases hreason with k | ⟨k1, k2⟩
      · exact .inl k
      · exact .inr ⟨k1, causes_of_events hT hr (fun x y a b => Tag.lt_of_lt_of_le a b) k1 k2 fun _ => hcn⟩
    have hw := hr.write i (.tag t) (by intro p h; cases h) (by intro g h; cases h; exact hs) (by intro g h; cases h)
    exact ⟨hw.setNode i _ (fun _ => rfl) (fun _ h => h) (fun _ => rfl) (fun _ => rfl),
      (mkeep_write s i (.tag t) (by intro p h; cases h)).trans
        (mkeep_setNode _ i _ (fun _ => rfl) (fun _ h => h))⟩
  | ptag i t hi hcn hg hp hb hF hreason hout _ =>
    have hs := causes_of_events hT hr (fun x y a b => Tag.le_trans a b) hF hreason (own := true) fun _ => hcn
    have ho := outside_of_tables hT hr hout
    have hw := hr.write i (.ptag t) (by intro p h; cases h) (by intro g h; cases h) (by intro g h; cases h; exact ⟨hs, ho⟩)
    exact ⟨hw.setNode i _ (fun _ => rfl) (fun _ h => h) (fun _ => rfl) (fun _ => rfl),
      (mkeep_write s i (.ptag t) (by intro p h; cases h)).trans
        (mkeep_setNode _ i _ (fun _ => rfl) (fun _ h => h))⟩
  | drop i hb =>
    exact ⟨hr.setNode i _ (fun _ => rfl) (fun _ h => by cases h) (fun _ => rfl) (fun _ => rfl),
      mkeep_setNode _ i _ (fun _ => rfl) (fun _ h => by cases h)⟩
  | deep =>
    exact ⟨⟨hr.sane, hr.next, hr.cache, hr.tags, hr.ptags, hr.outside, hr.order⟩, ⟨fun _ => rfl, fun _ h => h, rfl, rfl, fun _ _ => Iff.rfl⟩⟩

theorem Micros.inv (hT : T.Ok) (h0 : 0 ≤ start) (h1 : start < FOREVER) {β : Nat → Tag} {s s' : Rti}
    (h : Micros T start s s') (hr : RInv T start β s) : RInv T start β s' ∧ MKeep s s' := by
  induction h with
  | refl => exact ⟨hr, .refl _⟩
  | tail _ h ih =>
    obtain ⟨r, k⟩ := ih
    obtain ⟨r', k'⟩ := h.inv hT h0 h1 r
    exact ⟨r', k.trans k'⟩

/-- `update_scheduling_node_next_event_tag_locked` with a tag below the bound. -/
theorem updateNextEvent_inv (hT : T.Ok) (hD : T.DownOk) (h0 : 0 ≤ start) (h1 : start < FOREVER) {β : Nat → Tag} {s : Rti}
    (hr : RInv T start β s) {i : Nat} (hi : i < T.n) {t : Tag} (ht : Sane T t) (hle : t ≤ β i) :
    RInv T start β (updateNextEvent T start i t s) ∧ MKeep s (updateNextEvent T start i t s) := by
  unfold updateNextEvent
  dsimp only
  have r1 := hr.setNext i ht hle
  have k1 := mkeep_setNode s i (fun nd => { nd with nextEvent := t }) (fun _ => rfl) (fun _ h => h)
  generalize s.setNode i (fun nd => { nd with nextEvent := t }) = a at r1 k1
  by_cases hu : T.up i ≠ []
  · rw [if_pos hu]
    obtain ⟨r2, k2⟩ := (notifyIfSafe_micros h0 hT hi a).inv hT h0 h1 r1
    obtain ⟨r3, k3⟩ := (notifyAllDownstream_micros h0 hT hD i (notifyIfSafe T start i a)).inv hT h0 h1 r2
    exact ⟨r3, k1.trans (k2.trans k3)⟩
  · rw [if_neg hu]
    have r2 := r1.setNode i (fun nd => { nd with lastGranted := t }) (fun _ => rfl) (fun _ h => h) (fun _ => rfl) (fun _ => rfl)
    have k2 := mkeep_setNode a i (fun nd => { nd with lastGranted := t }) (fun _ => rfl) (fun _ h => h)
    obtain ⟨r3, k3⟩ := (notifyAllDownstream_micros h0 hT hD i _).inv hT h0 h1 r2
    exact ⟨r3, k1.trans (k2.trans k3)⟩

theorem peekTag_spec (q : List Tag) : peekTag q ≤ FOREVER_TAG ∧ (∀ t ∈ q, peekTag q ≤ t) ∧
    (peekTag q = FOREVER_TAG ∨ peekTag q ∈ q) := by
  unfold peekTag
  generalize FOREVER_TAG = m
  induction q generalizing m with
  | nil => exact ⟨Tag.le_refl _, by simp, .inl rfl⟩
  | cons t q ih =>
    rw [List.foldl_cons]
    by_cases h : lf_tag_compare t m < 0
    · rw [if_pos h]
      rw [cmp_lt_zero] at h
      obtain ⟨a, b, c⟩ := ih t
      refine ⟨Tag.le_trans a (Tag.le_of_lt h), fun x hx => ?_, .inr ?_⟩
      · rcases List.mem_cons.1 hx with rfl | hx
        · exact a
        · exact b x hx
      · rcases c with c | c
        · rw [c]; exact List.mem_cons_self
        · exact List.mem_cons_of_mem _ c
    · rw [if_neg h]
      rw [cmp_lt_zero, Tag.not_lt] at h
      obtain ⟨a, b, c⟩ := ih m
      refine ⟨a, fun x hx => ?_, c.imp id fun c => List.mem_cons_of_mem _ c⟩
      rcases List.mem_cons.1 hx with rfl | hx
      · exact Tag.le_trans a h
      · exact b x hx

/-- `update_federate_next_event_tag_locked`: the next event becomes the minimum of the tag and those in transit. -/
theorem updateFederate_inv (hT : T.Ok) (hD : T.DownOk) (h0 : 0 ≤ start) (h1 : start < FOREVER) {β : Nat → Tag} {s : Rti}
    (hr : RInv T start β s) {i : Nat} (hi : i < T.n) {t : Tag} (ht : Sane T t) (htr : ∀ x ∈ s.transit i, Sane T x)
    (hle : t ≤ β i ∨ ∃ x ∈ s.transit i, x ≤ β i) :
    RInv T start β (updateFederateNextEvent T start i t s) ∧ MKeep s (updateFederateNextEvent T start i t s) := by
  unfold updateFederateNextEvent
  obtain ⟨p1, p2, p3⟩ := peekTag_spec (s.transit i)
  by_cases h : lf_tag_compare (peekTag (s.transit i)) t < 0
  · rw [if_pos h]
    rw [cmp_lt_zero] at h
    have hs : Sane T (peekTag (s.transit i)) := by
      rcases p3 with p3 | p3
      · rw [p3]; exact .inl rfl
      · exact htr _ p3
    refine updateNextEvent_inv hT hD h0 h1 hr hi hs ?_
    rcases hle with hle | ⟨x, hx, hle⟩
    · exact Tag.le_trans (Tag.le_of_lt h) hle
    · exact Tag.le_trans (p2 x hx) hle
  · rw [if_neg h]
    rw [cmp_lt_zero, Tag.not_lt] at h
    refine updateNextEvent_inv hT hD h0 h1 hr hi ht ?_
    rcases hle with hle | ⟨x, hx, hle⟩
    · exact hle
    · exact Tag.le_trans h (Tag.le_trans (p2 x hx) hle)

end

end ReactorC.Rti
