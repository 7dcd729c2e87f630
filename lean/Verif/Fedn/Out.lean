import Verif.Rti.Safe
import Verif.Rti.GrantProps

/-! What the RTI writes to the socket of a federate: nothing is taken back, and every message has been sent by an upstream
federate. -/

namespace ReactorC.Rti
open ReactorC

/-- The sockets of the federates have been written to, but no message has been forwarded. -/
def Grow (a b : Rti) : Prop := ∀ i, a.out i <+: b.out i ∧ ∀ p, Down.msg p ∈ b.out i → Down.msg p ∈ a.out i

theorem Grow.refl (a : Rti) : Grow a a := fun _ => ⟨List.prefix_refl _, fun _ h => h⟩

theorem Grow.trans {a b c : Rti} (h1 : Grow a b) (h2 : Grow b c) : Grow a c :=
  fun i => ⟨(h1 i).1.trans (h2 i).1, fun p h => (h1 i).2 p ((h2 i).2 p h)⟩

theorem Grow.same {a b : Rti} (h : b.out = a.out) : Grow a b := by
  intro i; rw [h]; exact ⟨List.prefix_refl _, fun _ h => h⟩

theorem grow_setNode (s : Rti) (i : Nat) (f : Node → Node) : Grow s (s.setNode i f) := .same rfl

theorem write_prefix (s : Rti) (i : Nat) (d : Down) (j : Nat) : s.out j <+: (s.write i d).out j := by
  unfold Rti.write
  dsimp only
  by_cases hj : j = i
  · subst hj; rw [put_same]; exact List.prefix_append _ _
  · rw [put_other _ _ _ hj]

theorem grow_write (s : Rti) (i : Nat) (d : Down) (hd : ∀ p, d ≠ .msg p) : Grow s (s.write i d) := by
  intro j
  refine ⟨write_prefix s i d j, fun p h => ?_⟩
  rw [mem_write] at h
  rcases h with h | ⟨_, h⟩
  · exact h
  · exact absurd h.symm (hd p)

section
variable {T : Topology} {start : Int}

theorem Micro.grow {a b : Rti} (h : Micro T start a b) : Grow a b := by
  cases h with
  | cache i hi => exact .same (keeps_updateMin i a).out
  | heard i => exact .same (keeps_heard i a).out
  | tag i t => exact (grow_write a i _ (fun _ h => by cases h)).trans (grow_setNode _ _ _)
  | ptag i t => exact (grow_write a i _ (fun _ h => by cases h)).trans (grow_setNode _ _ _)
  | drop i => exact grow_setNode _ _ _
  | deep => exact .same rfl

theorem Micros.grow {a b : Rti} (h : Micros T start a b) : Grow a b := by
  induction h with
  | refl => exact .refl _
  | tail _ h ih => exact ih.trans h.grow

theorem updateNextEvent_grow (hT : T.Ok) (hD : T.DownOk) (h0 : 0 ≤ start) {i : Nat} (hi : i < T.n) (t : Tag) (s : Rti) :
    Grow s (updateNextEvent T start i t s) := by
  unfold updateNextEvent
  dsimp only
  refine Grow.trans ?_ (notifyAllDownstream_micros h0 hT hD i _).grow
  split
  · exact (grow_setNode s i _).trans (notifyIfSafe_micros h0 hT hi _).grow
  · exact (grow_setNode s i _).trans (grow_setNode _ _ _)

theorem updateFederate_grow (hT : T.Ok) (hD : T.DownOk) (h0 : 0 ≤ start) {i : Nat} (hi : i < T.n) (t : Tag) (s : Rti) :
    Grow s (updateFederateNextEvent T start i t s) := by
  unfold updateFederateNextEvent
  split <;> exact updateNextEvent_grow hT hD h0 hi _ _

theorem Cause.ge {i d : Nat} {s : Tag} {w : Int} {m : Tag} (h : Cause T start i d s w m) : (⟨start, 0⟩ : Tag) ≤ m :=
  Tag.le_trans h.started (Tag.le_trans (le_delay w h.sane) h.delay)

/-- What a step of the federation adds to what has been written. -/
theorem step_out (hT : T.Ok) (hD : T.DownOk) (h0 : 0 ≤ start) {β : Nat → Tag} {σ σ' : Sys}
    (h : SInv T start β σ) (hs : Step T start σ σ') (j : Nat) : σ.rti.out j <+: σ'.rti.out j ∧
      ∀ m, Down.msg m ∈ σ'.rti.out j → Down.msg m ∈ σ.rti.out j ∨
        (Sane T m ∧ (⟨start, 0⟩ : Tag) ≤ m ∧ T.up j ≠ [] ∧ ∃ i s w, Up.msg j s w m ∈ σ.up i) := by
  have key : ∀ {r : Rti}, Grow σ.rti r → σ.rti.out j <+: r.out j ∧
      ∀ m, Down.msg m ∈ r.out j → Down.msg m ∈ σ.rti.out j ∨
        (Sane T m ∧ (⟨start, 0⟩ : Tag) ≤ m ∧ T.up j ≠ [] ∧ ∃ i s w, Up.msg j s w m ∈ σ.up i) :=
    fun g => ⟨(g j).1, fun m hm => .inl ((g j).2 m hm)⟩
  cases hs with
  | sendMsg i d s w m hi hd hw hs hF hm hst hdone hnet hdel => exact key (.refl _)
  | receive i p hp hdone hnet => exact key (.refl _)
  | sendNet i n p hi hn hp hst hnp hnet => exact key (.refl _)
  | sendLtc i c hi hc hdone => exact key (.refl _)
  | sendResign i hi => exact key (.refl _)
  | msg i d s w m q r hi hq hr =>
    have hp := h.pre i hi
    rw [hq] at hp
    have hc := hp.1
    unfold handleTimedMessage at hr
    split at hr
    · cases hr; exact key (.refl _)
    · split at hr
      · cases hr
      · dsimp only at hr
        have hw : ∀ b : Rti, Grow (σ.rti.write d (.msg m)) b → σ.rti.out j <+: b.out j ∧
            ∀ p, Down.msg p ∈ b.out j → Down.msg p ∈ σ.rti.out j ∨
              (Sane T p ∧ (⟨start, 0⟩ : Tag) ≤ p ∧ T.up j ≠ [] ∧ ∃ i s w, Up.msg j s w p ∈ σ.up i) := by
          intro b g
          refine ⟨(write_prefix _ _ _ _).trans (g j).1, fun p hp => ?_⟩
          have := (g j).2 p hp
          rw [mem_write] at this
          rcases this with k | ⟨rfl, k⟩
          · exact .inl k
          · cases k
            refine .inr ⟨hc.msg, hc.ge, fun e => ?_, i, s, w, by rw [hq]; exact List.mem_cons_self⟩
            have := hc.conn
            rw [e] at this; cases this
        have hg : Grow (σ.rti.write d (.msg m))
            (if lf_tag_compare ((σ.rti.write d (.msg m)).node d).completed m < 0 then
              if m ∈ (σ.rti.write d (.msg m)).transit d then σ.rti.write d (.msg m)
              else { σ.rti.write d (.msg m) with
                     transit := put (σ.rti.write d (.msg m)).transit d (m :: (σ.rti.write d (.msg m)).transit d) }
            else σ.rti.write d (.msg m)) := by
          split
          · split
            · exact .refl _
            · exact .same rfl
          · exact .refl _
        generalize (if lf_tag_compare ((σ.rti.write d (.msg m)).node d).completed m < 0 then
              if m ∈ (σ.rti.write d (.msg m)).transit d then σ.rti.write d (.msg m)
              else { σ.rti.write d (.msg m) with
                     transit := put (σ.rti.write d (.msg m)).transit d (m :: (σ.rti.write d (.msg m)).transit d) }
            else σ.rti.write d (.msg m)) = x at hr hg
        split at hr
        · cases hr
          exact hw _ (hg.trans (updateFederate_grow hT hD h0 hc.dest _ _))
        · cases hr
          exact hw _ hg
  | net i n p q hi hq =>
    have hp := h.pre i hi
    rw [hq] at hp
    exact key (updateFederate_grow hT hD h0 hp.2.2.2.2.2.1 _ _)
  | ltc i c q hi hq => exact key ((grow_setNode _ _ _).trans (logicalTagComplete_micros h0 hT hD).grow)
  | clean i c q hq => exact key (.same rfl)
  | resign i q hi hq => exact key ((grow_setNode _ _ _).trans (notifyAllDownstream_micros h0 hT hD i _).grow)
  | stop t ht hst => exact key (.same rfl)
  | closed i => exact key (grow_setNode σ.rti i fun nd => { nd with connected := false })
  | breaks i => exact key (.same rfl)

/-- Every message forwarded leaves room for microsteps, is not earlier than the start tag, and is for a federate with upstream
federates. -/
theorem reach_msgs (hT : T.Ok) (hD : T.DownOk) (h0 : 0 ≤ start) (h1 : start < FOREVER) {σ : Sys} (h : Reach T start σ)
    {j : Nat} {m : Tag} (hm : Down.msg m ∈ σ.rti.out j) : Sane T m ∧ (⟨start, 0⟩ : Tag) ≤ m ∧ T.up j ≠ [] := by
  induction h with
  | init => cases hm
  | step hr hs ih =>
    obtain ⟨β, hi⟩ := hr.inv hT hD h0 h1
    rcases (step_out hT hD h0 hi hs j).2 m hm with k | k
    · exact ih k
    · exact ⟨k.1, k.2.1, k.2.2.1⟩

/-! ## Provisional grants -/

/-- Provisional grants are sent only if some table says that its node is on a zero-delay cycle. -/
def Flagged (s : Rti) : Prop := ∀ i g, Down.ptag g ∈ s.out i → ∃ u, s.zdc u = true

theorem Flagged.keep {a b : Rti} (h : Flagged a) (h1 : b.out = a.out) (h2 : ∀ j, (b.node j).cache = (a.node j).cache) :
    Flagged b := by
  intro i g hg
  rw [h1] at hg
  obtain ⟨u, hu⟩ := h i g hg
  refine ⟨u, ?_⟩
  unfold Rti.zdc at hu ⊢
  rw [h2]; exact hu

theorem Flagged.setNode {a : Rti} (h : Flagged a) (i : Nat) (f : Node → Node) (h1 : ∀ nd, (f nd).cache = nd.cache) :
    Flagged (a.setNode i f) := by
  refine h.keep rfl fun j => ?_
  by_cases hj : j = i
  · subst hj; rw [setNode_same, h1]
  · rw [setNode_other _ _ hj]

theorem Flagged.write {a : Rti} (h : Flagged a) (i : Nat) (d : Down) (hd : ∀ g, d = .ptag g → ∃ u, a.zdc u = true) :
    Flagged (a.write i d) := by
  intro j g hg
  rw [mem_write] at hg
  rcases hg with hg | ⟨_, hg⟩
  · exact h j g hg
  · exact hd g hg.symm

theorem Micro.flagged {a b : Rti} (hm : Micro T start a b) (h : Flagged a) : Flagged b := by
  have hz := hm.zdc
  cases hm with
  | cache i hi => intro j g hg; rw [(keeps_updateMin i a).out] at hg; exact hz (h j g hg)
  | heard i => intro j g hg; rw [(keeps_heard i a).out] at hg; exact hz (h j g hg)
  | tag i t => exact (h.write i _ (fun g hg => by cases hg)).setNode i _ (fun _ => rfl)
  | ptag i t _ _ _ _ _ _ _ _ hc => exact (h.write i _ (fun _ _ => hc)).setNode i _ (fun _ => rfl)
  | drop i => exact h.setNode i _ (fun _ => rfl)
  | deep => exact h.keep rfl (fun _ => rfl)

theorem Micros.flagged {a b : Rti} (hm : Micros T start a b) (h : Flagged a) : Flagged b := by
  induction hm with
  | refl => exact h
  | tail _ k ih => exact k.flagged ih

theorem updateNextEvent_flagged (hT : T.Ok) (hD : T.DownOk) (h0 : 0 ≤ start) {i : Nat} (hi : i < T.n) (t : Tag) {s : Rti}
    (h : Flagged s) : Flagged (updateNextEvent T start i t s) := by
  unfold updateNextEvent
  dsimp only
  refine (notifyAllDownstream_micros h0 hT hD i _).flagged ?_
  have h1 := h.setNode i (fun nd => { nd with nextEvent := t }) (fun _ => rfl)
  split
  · exact (notifyIfSafe_micros h0 hT hi _).flagged h1
  · exact h1.setNode i _ (fun _ => rfl)

theorem updateFederate_flagged (hT : T.Ok) (hD : T.DownOk) (h0 : 0 ≤ start) {i : Nat} (hi : i < T.n) (t : Tag) {s : Rti}
    (h : Flagged s) : Flagged (updateFederateNextEvent T start i t s) := by
  unfold updateFederateNextEvent
  split <;> exact updateNextEvent_flagged hT hD h0 hi _ h

theorem Reach.flagged (hT : T.Ok) (hD : T.DownOk) (h0 : 0 ≤ start) {σ : Sys} (h : Reach T start σ) : Flagged σ.rti := by
  induction h with
  | init => intro i g hg; cases hg
  | @step σ σ' hr hs ih =>
    have num := hr.numbered
    cases hs with
    | sendMsg => exact ih
    | receive => exact ih
    | sendNet => exact ih
    | sendLtc => exact ih
    | sendResign => exact ih
    | msg j d s w m q r hj hq hr =>
      have hd : d < T.n := num.2 j d s w m (by rw [hq]; exact List.mem_cons_self)
      dsimp only
      unfold handleTimedMessage at hr
      split at hr
      · cases hr; exact ih
      split at hr
      · cases hr
      dsimp only at hr
      have h1 := ih.write d (.msg m) (fun g hg => by cases hg)
      generalize σ.rti.write d (.msg m) = a at hr h1
      generalize hb : (if lf_tag_compare (a.node d).completed m < 0 then
        if m ∈ a.transit d then a else { a with transit := put a.transit d (m :: a.transit d) } else a) = b at hr
      have h2 : Flagged b := by
        rw [← hb]
        split
        · split
          · exact h1
          · exact h1.keep rfl (fun _ => rfl)
        · exact h1
      split at hr
      · cases hr; exact updateFederate_flagged hT hD h0 hd _ h2
      · cases hr; exact h2
    | net j n p q hj hq => exact updateFederate_flagged hT hD h0 (num.1 j (by rw [hq]; simp)) _ ih
    | ltc j c q hj hq => exact (logicalTagComplete_micros h0 hT hD).flagged (ih.setNode j _ (fun _ => rfl))
    | clean j c q hq => exact ih.keep rfl (fun _ => rfl)
    | resign j q hj hq => exact (notifyAllDownstream_micros h0 hT hD j _).flagged (ih.setNode j _ (fun _ => rfl))
    | stop t =>
      refine ih.keep rfl fun j => ?_
      dsimp only; unfold stopNode; split
      · split <;> rfl
      · rfl
    | closed j => exact ih.setNode j (fun nd => { nd with connected := false }) (fun _ => rfl)
    | breaks j => exact ih.keep rfl (fun _ => rfl)

/-- Where provisional grants have been sent there is a zero-delay cycle. -/
theorem reach_cycle (hT : T.Ok) (hD : T.DownOk) (h0 : 0 ≤ start) (h1 : start < FOREVER) {σ : Sys} (h : Reach T start σ)
    {i : Nat} {g : Tag} (hg : Down.ptag g ∈ σ.rti.out i) : ∃ u, OnZeroDelayCycle T u := by
  obtain ⟨u, hu⟩ := h.flagged hT hD h0 i g hg
  obtain ⟨β, hi⟩ := h.inv hT hD h0 h1
  exact ⟨u, cycle_of_flag hT hi.rti hu⟩

end

end ReactorC.Rti
