import Verif.Rti.GrantProps
import Verif.Fedn.Out

/-! What might still happen in a federation in which no connection breaks: a message might be sent, forwarded and received. -/

set_option linter.unusedVariables false

namespace ReactorC.Rti
open ReactorC

section
variable {T : Topology} {start : Int}

/-- `b` comes from `a` by the search for grants: no messages are forwarded, and no federate is lost if all can be written to. -/
structure Tame (a b : Rti) : Prop where
  out : ∀ i, ∃ l, b.out i = a.out i ++ l ∧ ∀ p, Down.msg p ∉ l
  broken : b.broken = a.broken
  connected : (∀ i, a.broken i = false) → ∀ i, (b.node i).connected = (a.node i).connected

theorem Tame.refl (a : Rti) : Tame a a := ⟨fun i => ⟨[], by simp⟩, rfl, fun _ _ => rfl⟩

theorem Tame.trans {a b c : Rti} (h1 : Tame a b) (h2 : Tame b c) : Tame a c := by
  refine ⟨fun i => ?_, h2.broken.trans h1.broken, fun h i => ?_⟩
  · obtain ⟨l, e, k⟩ := h1.out i
    obtain ⟨l', e', k'⟩ := h2.out i
    refine ⟨l ++ l', by rw [e', e, List.append_assoc], fun p hp => ?_⟩
    rcases List.mem_append.1 hp with hp | hp
    · exact k p hp
    · exact k' p hp
  · rw [h2.connected (by rw [h1.broken]; exact h) i, h1.connected h i]

theorem tame_setNode (s : Rti) (i : Nat) (f : Node → Node) (hf : ∀ nd, (f nd).connected = nd.connected) :
    Tame s (s.setNode i f) := by
  refine ⟨fun i => ⟨[], by simp [Rti.setNode]⟩, rfl, fun _ j => ?_⟩
  by_cases e : j = i
  · subst e; rw [setNode_same, hf]
  · rw [setNode_other _ _ e]

theorem tame_write (s : Rti) (i : Nat) (d : Down) (hd : ∀ p, d ≠ .msg p) : Tame s (s.write i d) := by
  refine ⟨fun j => ?_, rfl, fun _ _ => rfl⟩
  unfold Rti.write
  dsimp only
  by_cases e : j = i
  · subst e; rw [put_same]
    exact ⟨[d], rfl, fun p hp => hd p (List.mem_singleton.1 hp).symm⟩
  · rw [put_other _ _ _ e]; exact ⟨[], by simp⟩

theorem Keeps.tame {a b : Rti} (h : Keeps a b) : Tame a b :=
  ⟨fun i => ⟨[], by rw [h.out]; simp⟩, h.broken, fun _ i => h.connected i⟩

theorem Micro.tame {a b : Rti} (h : Micro T start a b) : Tame a b := by
  cases h with
  | cache i hi => exact (keeps_updateMin i a).tame
  | heard i => exact (keeps_heard i a).tame
  | tag i t => exact (tame_write a i _ (fun _ h => by cases h)).trans (tame_setNode _ _ _ fun _ => rfl)
  | ptag i t => exact (tame_write a i _ (fun _ h => by cases h)).trans (tame_setNode _ _ _ fun _ => rfl)
  | drop i hb =>
    exact ⟨fun i => ⟨[], by simp [Rti.setNode]⟩, rfl, fun h => by rw [h i] at hb; cases hb⟩
  | deep => exact ⟨fun i => ⟨[], by simp⟩, rfl, fun _ _ => rfl⟩

theorem Micros.tame {a b : Rti} (h : Micros T start a b) : Tame a b := by
  induction h with
  | refl => exact .refl _
  | tail _ h ih => exact ih.trans h.tame

theorem updateNextEvent_tame (hT : T.Ok) (hD : T.DownOk) (h0 : 0 ≤ start) {i : Nat} (hi : i < T.n) (t : Tag) (s : Rti) :
    Tame s (updateNextEvent T start i t s) := by
  unfold updateNextEvent
  dsimp only
  refine Tame.trans ?_ (notifyAllDownstream_micros h0 hT hD i _).tame
  split
  · exact (tame_setNode s i (fun nd => { nd with nextEvent := t }) fun _ => rfl).trans (notifyIfSafe_micros h0 hT hi _).tame
  · exact (tame_setNode s i (fun nd => { nd with nextEvent := t }) fun _ => rfl).trans
      (tame_setNode _ i (fun nd => { nd with lastGranted := t }) fun _ => rfl)

theorem updateFederate_tame (hT : T.Ok) (hD : T.DownOk) (h0 : 0 ≤ start) {i : Nat} (hi : i < T.n) (t : Tag) (s : Rti) :
    Tame s (updateFederateNextEvent T start i t s) := by
  unfold updateFederateNextEvent
  split <;> exact updateNextEvent_tame hT hD h0 hi _ _

theorem logicalTagComplete_tame (hT : T.Ok) (hD : T.DownOk) (h0 : 0 ≤ start) (i : Nat) (c : Tag) (s : Rti) :
    Tame s (logicalTagComplete T start i c s) :=
  (tame_setNode s i (fun nd => { nd with completed := c }) fun _ => rfl).trans (logicalTagComplete_micros h0 hT hD).tame

theorem removeInTransit_tame (i : Nat) (c : Tag) (s : Rti) : Tame s (removeInTransit i c s) :=
  ⟨fun i => ⟨[], by simp [removeInTransit]⟩, rfl, fun _ _ => rfl⟩

/-- A message is forwarded. -/
theorem handleTimed_tame (hT : T.Ok) (hD : T.DownOk) (h0 : 0 ≤ start) {d : Nat} (hd : d < T.n) (m : Tag) (s : Rti)
    (hc : (s.node d).connected = true) (hb : s.broken d = false) :
    ∃ r, handleTimedMessage T start d m s = some r ∧ Tame (s.write d (.msg m)) r := by
  unfold handleTimedMessage
  rw [if_neg (by rw [hc]; simp), if_neg (by rw [hb]; simp)]
  dsimp only
  have hg : Tame (s.write d (.msg m))
      (if lf_tag_compare ((s.write d (.msg m)).node d).completed m < 0 then
        if m ∈ (s.write d (.msg m)).transit d then s.write d (.msg m)
        else { s.write d (.msg m) with
               transit := put (s.write d (.msg m)).transit d (m :: (s.write d (.msg m)).transit d) }
      else s.write d (.msg m)) := by
    split
    · split
      · exact .refl _
      · exact ⟨fun i => ⟨[], by simp⟩, rfl, fun _ _ => rfl⟩
    · exact .refl _
  generalize (if lf_tag_compare ((s.write d (.msg m)).node d).completed m < 0 then
        if m ∈ (s.write d (.msg m)).transit d then s.write d (.msg m)
        else { s.write d (.msg m) with
               transit := put (s.write d (.msg m)).transit d (m :: (s.write d (.msg m)).transit d) }
      else s.write d (.msg m)) = x at hg ⊢
  split
  · exact ⟨_, rfl, hg.trans (updateFederate_tame hT hD h0 hd _ _)⟩
  · exact ⟨_, rfl, hg⟩

/-! ## What might follow -/

/-- All connections work. -/
def Whole (s : Rti) : Prop := ∀ i, s.broken i = false

/-- `σ'` might come after `σ`, without anything being promised or reported complete in between. -/
structure Ext (T : Topology) (start : Int) (σ σ' : Sys) : Prop where
  reach : Reach T start σ → Reach T start σ'
  whole : Whole σ.rti → Whole σ'.rti
  connected : Whole σ.rti → ∀ i, (σ'.rti.node i).connected = (σ.rti.node i).connected
  stays : ∀ i, Up.resign ∈ σ'.up i → Up.resign ∈ σ.up i
  out : ∀ i, σ.rti.out i <+: σ'.rti.out i
  net : ∀ i, σ'.net i ≤ σ.net i
  done : σ'.done = σ.done

theorem Ext.refl (σ : Sys) : Ext T start σ σ :=
  ⟨id, id, fun _ _ => rfl, fun _ => id, fun _ => List.prefix_refl _, fun _ => Tag.le_refl _, rfl⟩

theorem Ext.trans {a b c : Sys} (h1 : Ext T start a b) (h2 : Ext T start b c) : Ext T start a c :=
  ⟨h2.reach ∘ h1.reach, h2.whole ∘ h1.whole, fun h i => (h2.connected (h1.whole h) i).trans (h1.connected h i),
    fun i k => h1.stays i (h2.stays i k), fun i => (h1.out i).trans (h2.out i), fun i => Tag.le_trans (h2.net i) (h1.net i),
    h2.done.trans h1.done⟩

/-- The number of steps to handle a queue. -/
def work : List Up → Nat
  | [] => 0
  | .ltc _ :: q => work q + 2
  | _ :: q => work q + 1

/-- The message `m` has been forwarded to `d` after what `a` says. -/
def Forwarded (a b : Rti) (d : Nat) (m : Tag) : Prop := ∃ l l', b.out d = a.out d ++ l ++ Down.msg m :: l'

theorem Forwarded.earlier {a b c : Rti} {d : Nat} {m : Tag} (h : Forwarded b c d m) (k : a.out d <+: b.out d) : Forwarded a c d m := by
  obtain ⟨l, l', e⟩ := h
  obtain ⟨r, e'⟩ := k
  exact ⟨r ++ l, l', by rw [e, ← e']; simp⟩

/-- A message to a federate that is not connected is not forwarded. -/
theorem handleTimed_lost (d : Nat) (m : Tag) (s : Rti) (hc : (s.node d).connected = false) :
    handleTimedMessage T start d m s = some s := by
  unfold handleTimedMessage
  rw [if_pos hc]

theorem handleTimed_any (hT : T.Ok) (hD : T.DownOk) (h0 : 0 ≤ start) {d : Nat} (hd : d < T.n) (m : Tag) (s : Rti) (hb : Whole s) :
    ∃ r, handleTimedMessage T start d m s = some r ∧ (∀ i, s.out i <+: r.out i) ∧ Whole r ∧
      ∀ i, (r.node i).connected = (s.node i).connected := by
  cases hc : (s.node d).connected with
  | false => exact ⟨s, handleTimed_lost d m s hc, fun _ => List.prefix_refl _, hb, fun _ => rfl⟩
  | true =>
    obtain ⟨r, hr, k⟩ := handleTimed_tame hT hD h0 hd m s hc (hb d)
    refine ⟨r, hr, fun i => ?_, fun i => by rw [k.broken]; exact hb i, fun i => k.connected hb i⟩
    obtain ⟨l, e, _⟩ := k.out i
    exact (write_prefix s d (.msg m) i).trans ⟨l, e.symm⟩

/-- The RTI handles the first message of a federate. -/
theorem handle_next (hT : T.Ok) (hD : T.DownOk) (h0 : 0 ≤ start) (h1 : start < FOREVER) {σ : Sys} (hr : Reach T start σ)
    (hb : Whole σ.rti) {i : Nat} (hc : (σ.rti.node i).connected = true) {x : Up} {q : List Up} (hq : σ.up i = x :: q) (hx : x ≠ .resign) :
    ∃ σ' q', Ext T start σ σ' ∧ σ'.net = σ.net ∧ σ'.up i = q' ++ q ∧ work q' < work [x] ∧ Up.resign ∉ q' := by
  obtain ⟨β, hi⟩ := hr.inv hT hD h0 h1
  have hp := hi.pre i hc
  rw [hq] at hp
  have step : ∀ r q', Step T start σ { σ with rti := r, up := put σ.up i (q' ++ q) } → (∀ j, σ.rti.out j <+: r.out j) → Whole r →
      (∀ j, (r.node j).connected = (σ.rti.node j).connected) → work q' < work [x] → Up.resign ∉ q' →
      ∃ σ' q', Ext T start σ σ' ∧ σ'.net = σ.net ∧ σ'.up i = q' ++ q ∧ work q' < work [x] ∧ Up.resign ∉ q' := by
    intro r q' hs h2 h3 h4 h5 h6
    refine ⟨_, q', ⟨fun h => .step h hs, fun _ => h3, fun _ => h4, fun j hj => ?_, h2, fun _ => Tag.le_refl _, rfl⟩, rfl, put_same _ _ _, h5, h6⟩
    replace hj : Up.resign ∈ put σ.up i (q' ++ q) j := hj
    by_cases e : j = i
    · subst e
      rw [put_same] at hj
      rw [hq]
      rcases List.mem_append.1 hj with k | k
      · exact absurd k h6
      · exact List.mem_cons_of_mem _ k
    · rw [put_other _ _ _ e] at hj; exact hj
  have tame : ∀ r q', Step T start σ { σ with rti := r, up := put σ.up i (q' ++ q) } → Tame σ.rti r → work q' < work [x] → Up.resign ∉ q' →
      ∃ σ' q', Ext T start σ σ' ∧ σ'.net = σ.net ∧ σ'.up i = q' ++ q ∧ work q' < work [x] ∧ Up.resign ∉ q' := by
    intro r q' hs k
    refine step r q' hs (fun j => ?_) (fun j => by rw [k.broken]; exact hb j) (fun j => k.connected hb j)
    obtain ⟨l, e, _⟩ := k.out j
    exact ⟨l, e.symm⟩
  cases x with
  | net n p => exact tame _ [] (.net σ i n p q hc hq) (updateFederate_tame hT hD h0 hp.2.2.2.2.2.1 _ _) (by simp [work]) (by simp)
  | clean c => exact tame _ [] (.clean σ i c q hq) (removeInTransit_tame i c _) (by simp [work]) (by simp)
  | resign => exact absurd rfl hx
  | ltc c => exact tame _ [.clean c] (.ltc σ i c q hc hq) (logicalTagComplete_tame hT hD h0 i c σ.rti) (by simp [work]) (by simp)
  | msg d s w m =>
    obtain ⟨r, hr', k1, k2, k3⟩ := handleTimed_any hT hD h0 hp.1.dest m σ.rti hb
    exact step _ [] (.msg σ i d s w m q r hc hq hr') k1 k2 k3 (by simp [work]) (by simp)

theorem work_append (a b : List Up) : work (a ++ b) = work a + work b := by
  induction a with
  | nil => simp [work]
  | cons x a ih => cases x <;> simp [work, ih] <;> omega

/-- The RTI handles what a federate has sent before something. -/
theorem handle_until (hT : T.Ok) (hD : T.DownOk) (h0 : 0 ≤ start) (h1 : start < FOREVER) {i : Nat} {y : Up} {post : List Up} :
    ∀ (k : Nat) {σ : Sys} {pre : List Up}, work pre ≤ k → Reach T start σ → Whole σ.rti → (σ.rti.node i).connected = true →
    σ.up i = pre ++ y :: post → Up.resign ∉ pre →
    ∃ σ', Ext T start σ σ' ∧ σ'.net = σ.net ∧ σ'.up i = y :: post := by
  intro k
  induction k with
  | zero =>
    intro σ pre hk hr hb hc hq _
    cases pre with
    | nil => exact ⟨σ, .refl _, rfl, hq⟩
    | cons x pre => cases x <;> simp [work] at hk
  | succ k ih =>
    intro σ pre hk hr hb hc hq hn
    cases pre with
    | nil => exact ⟨σ, .refl _, rfl, hq⟩
    | cons x pre =>
      obtain ⟨σ', q', e1, n1, u1, w1, r1⟩ := handle_next hT hD h0 h1 hr hb hc hq (fun e => hn (by rw [e]; exact List.mem_cons_self))
      obtain ⟨σ'', e2, n2, u2⟩ := ih (σ := σ') (pre := q' ++ pre) (by
          have h2 := work_append [x] pre
          rw [work_append]
          simp only [List.cons_append, List.nil_append] at h2
          omega) (e1.reach hr) (e1.whole hb) ((e1.connected hb i).trans hc) (by rw [u1]; simp) (fun h => by
          rcases List.mem_append.1 h with h | h
          · exact r1 h
          · exact hn (List.mem_cons_of_mem _ h))
      exact ⟨σ'', e1.trans e2, n2.trans n1, u2⟩

/-- A message comes to the RTI. -/
theorem comes (hT : T.Ok) (hD : T.DownOk) (h0 : 0 ≤ start) (h1 : start < FOREVER) {σ : Sys} (hr : Reach T start σ) (hb : Whole σ.rti) {i : Nat}
    (hc : (σ.rti.node i).connected = true) (hl : ∀ q, σ.up i = q ++ [Up.resign] → Up.resign ∉ q)
    (hl' : Up.resign ∈ σ.up i → ∃ q, σ.up i = q ++ [Up.resign]) {d : Nat} {s m : Tag} {w : Int} (hm : Up.msg d s w m ∈ σ.up i) :
    ∃ σ' q, Ext T start σ σ' ∧ σ'.up i = .msg d s w m :: q := by
  obtain ⟨pre, post, e⟩ := List.append_of_mem hm
  have hn : Up.resign ∉ pre := by
    intro k
    obtain ⟨q, hq⟩ := hl' (by rw [e]; exact List.mem_append_left _ k)
    have := hl q hq
    rw [hq] at e
    rcases List.eq_nil_or_concat post with rfl | ⟨post', z, rfl⟩
    · have h2 := congrArg List.getLast? e
      simp at h2
    · have h2 : q ++ [Up.resign] = (pre ++ .msg d s w m :: post') ++ [z] := by rw [e]; simp
      obtain ⟨h3, _⟩ := List.append_inj' h2 rfl
      exact this (by rw [h3]; exact List.mem_append_left _ k)
  obtain ⟨σ', h2, _, h3⟩ := handle_until hT hD h0 h1 _ (Nat.le_refl _) hr hb hc e hn
  exact ⟨σ', post, h2, h3⟩

/-- A message that comes to the RTI is later than what has been granted. -/
theorem coming_later (hT : T.Ok) (hD : T.DownOk) (h0 : 0 ≤ start) (h1 : start < FOREVER) {σ : Sys} (hr : Reach T start σ) {i : Nat}
    (hc : (σ.rti.node i).connected = true) {d : Nat} {s m : Tag} {w : Int} {q : List Up} (hq : σ.up i = .msg d s w m :: q)
    (hm : m ≠ FOREVER_TAG) {g : Tag} (hg : Down.tag g ∈ σ.rti.out d) : g < m := by
  obtain ⟨β, hi⟩ := hr.inv hT hD h0 h1
  have hp := hi.pre i hc
  rw [hq] at hp
  rcases hi.rti.later hT hi.comp hp.1 hp.2.1 hp.2.2.1 hc _ hg with k | k
  · exact k
  · exact absurd k hm

/-- The RTI forwards a message. -/
theorem might_forward (hT : T.Ok) (hD : T.DownOk) (h0 : 0 ≤ start) (h1 : start < FOREVER) {σ : Sys} (hr : Reach T start σ) (hb : Whole σ.rti)
    {i : Nat} (hc : (σ.rti.node i).connected = true) {d : Nat} {s m : Tag} {w : Int} {q : List Up} (hq : σ.up i = .msg d s w m :: q)
    (hd : (σ.rti.node d).connected = true) : ∃ σ', Ext T start σ σ' ∧ Forwarded σ.rti σ'.rti d m := by
  obtain ⟨β, hi⟩ := hr.inv hT hD h0 h1
  have hp := hi.pre i hc
  rw [hq] at hp
  obtain ⟨r, hr', k⟩ := handleTimed_tame hT hD h0 hp.1.dest m σ.rti hd (hb d)
  refine ⟨{ σ with rti := r, up := put σ.up i q }, ⟨fun h => .step h (.msg σ i d s w m q r hc hq hr'), fun _ j => by
    show r.broken j = false; rw [k.broken]; exact hb j, fun _ j => k.connected hb j, fun j hj => ?_, fun j => ?_, fun _ => Tag.le_refl _, rfl⟩, ?_⟩
  · replace hj : Up.resign ∈ put σ.up i q j := hj
    by_cases e : j = i
    · subst e; rw [put_same] at hj; rw [hq]; exact List.mem_cons_of_mem _ hj
    · rw [put_other _ _ _ e] at hj; exact hj
  · obtain ⟨l, e, _⟩ := k.out j
    exact (write_prefix σ.rti d (.msg m) j).trans ⟨l, e.symm⟩
  · obtain ⟨l, e, _⟩ := k.out d
    refine ⟨[], l, ?_⟩
    show r.out d = _
    rw [e]; unfold Rti.write; dsimp only; rw [put_same]; simp

/-- A federate that may still act might send a message, which comes to the RTI. -/
theorem might_send (hT : T.Ok) (hD : T.DownOk) (h0 : 0 ≤ start) (h1 : start < FOREVER) {σ : Sys} (hr : Reach T start σ)
    (hb : Whole σ.rti) {i d : Nat} (hc : (σ.rti.node i).connected = true) (hn : Up.resign ∉ σ.up i) {s m : Tag} {w : Int} (hi : i < T.n)
    (hd : d < T.n) (hw : (i, w) ∈ T.up d) (hs : Sane T s) (hF : s ≠ FOREVER_TAG) (hm : Sane T m) (hst : ⟨start, 0⟩ ≤ s)
    (hdone : σ.done i < s) (hnet : σ.net i ≤ s) (hdel : lf_delay_tag s w ≤ m) :
    ∃ σ' q, Ext T start σ σ' ∧ σ'.up i = .msg d s w m :: q := by
  have e1 : Ext T start σ (σ.send i (.msg d s w m)) :=
    ⟨fun h => .step h (.sendMsg σ i d s w m hi hd hw hs hF hm hst hdone hnet hdel), id, fun _ _ => rfl, fun j hj => by
      unfold Sys.send at hj
      dsimp only at hj
      by_cases e : j = i
      · subst e; rw [put_same] at hj
        rcases List.mem_append.1 hj with k | k
        · exact k
        · cases List.mem_singleton.1 k
      · rw [put_other _ _ _ e] at hj; exact hj, fun _ => List.prefix_refl _, fun _ => Tag.le_refl _, rfl⟩
  obtain ⟨σ', e2, _, f⟩ := handle_until hT hD h0 h1 (i := i) _ (Nat.le_refl _) (e1.reach hr) hb hc
    (show (σ.send i (.msg d s w m)).up i = σ.up i ++ [.msg d s w m] from put_same _ _ _) hn
  exact ⟨σ', [], e1.trans e2, f⟩

/-- And the federate it is for might receive it. -/
theorem might_receive {σ σ' : Sys} {d : Nat} {m : Tag} (hf : Forwarded σ.rti σ'.rti d m) (hdone : σ'.done d < m) :
    ∃ σ'', Ext T start σ' σ'' ∧ σ''.net d ≤ m := by
  by_cases h : m < σ'.net d
  · refine ⟨{ σ' with net := put σ'.net d m }, ⟨fun k => .step k (.receive σ' d m ?_ hdone h), id, fun _ _ => rfl, fun _ => id,
      fun _ => List.prefix_refl _, fun j => ?_, rfl⟩, ?_⟩
    · obtain ⟨l, l', e⟩ := hf
      rw [e]; simp
    · show put σ'.net d m j ≤ _
      by_cases e : j = d
      · subst e; rw [put_same]; exact Tag.le_of_lt h
      · rw [put_other _ _ _ e]; exact Tag.le_refl _
    · show put σ'.net d m d ≤ _
      rw [put_same]; exact Tag.le_refl _
  · exact ⟨σ', .refl _, Tag.not_lt.1 h⟩

/-- Such a message is later than what has been granted. -/
theorem forwarded_later (hT : T.Ok) (hD : T.DownOk) (h0 : 0 ≤ start) (h1 : start < FOREVER) {σ σ' : Sys} (hr : Reach T start σ')
    {d : Nat} {m g : Tag} (hf : Forwarded σ.rti σ'.rti d m) (hm : m ≠ FOREVER_TAG) (hg : Down.tag g ∈ σ.rti.out d) : g < m := by
  obtain ⟨a, b, e⟩ := List.append_of_mem hg
  obtain ⟨l, l', e'⟩ := hf
  rcases C25_message_after_grant_is_later hT hD h0 h1 hr (i := d) (before := a) (between := b ++ l) (after := l') (g := g) (m := m)
    (by rw [e', e]; simp) with k | k
  · exact k
  · exact absurd k hm

end

end ReactorC.Rti
