import Verif.Rti.Safe

/-!
# Properties of the RTI's grants

C25: what the RTI forwards to a federate after a grant is later than the tag granted.
C24: the grants to a federate never go backwards, except for federates without upstream ones.
-/

set_option linter.unusedSimpArgs false
set_option linter.unusedVariables false

namespace ReactorC.Rti
open ReactorC

section
variable {T : Topology} {start : Int}

theorem pairwise_mem_append {R : Down → Down → Prop} {a b c : List Down} {x y : Down}
    (h : (a ++ x :: (b ++ y :: c)).Pairwise R) : R x y := by
  rw [List.pairwise_append] at h
  have := (List.pairwise_cons.1 h.2.1).1 y
  exact this (by simp)

/-! ## C25 -/

/-- C25.  In every state of a federation that the RTI and any federates that keep to the protocol can reach, whatever the
connections and their delays and however the messages are delayed: if the RTI has sent `TAG(g)` to a federate and later
forwarded a message with tag `m` to it, then `m` is later than `g`.  (A message whose tag has become the end of time is
never handled by a federate; the RTI may grant the end of time before.) -/
theorem C25_message_after_grant_is_later (hT : T.Ok) (hD : T.DownOk) (h0 : 0 ≤ start) (h1 : start < FOREVER) {σ : Sys}
    (h : Reach T start σ) {i : Nat} {before between after : List Down} {g m : Tag}
    (ho : σ.rti.out i = before ++ Down.tag g :: (between ++ Down.msg m :: after)) : g < m ∨ m = FOREVER_TAG := by
  obtain ⟨β, hi⟩ := h.inv hT hD h0 h1
  have := hi.rti.order i
  rw [ho] at this
  exact pairwise_mem_append this

/-- C25.  The same for a provisional grant: what follows `PTAG(g)` is not earlier than `g`. -/
theorem C25_message_after_provisional_grant_is_not_earlier (hT : T.Ok) (hD : T.DownOk) (h0 : 0 ≤ start)
    (h1 : start < FOREVER) {σ : Sys} (h : Reach T start σ) {i : Nat} {before between after : List Down} {g m : Tag}
    (ho : σ.rti.out i = before ++ Down.ptag g :: (between ++ Down.msg m :: after)) : g ≤ m := by
  obtain ⟨β, hi⟩ := h.inv hT hD h0 h1
  have := hi.rti.order i
  rw [ho] at this
  exact pairwise_mem_append this

theorem delay_mono_sane {z s : Tag} (w : Int) (h : Sane T s) (hz : z ≤ s) : lf_delay_tag z w ≤ lf_delay_tag s w := by
  have hF : FOREVER = 9223372036854775807 := rfl
  have hU : UINT_MAX = 4294967295 := rfl
  have hN : NEVER = -9223372036854775808 := rfl
  obtain ⟨d1, d2, d3⟩ := h.delay
  have hw : wrapU32 (s.microstep + 1) = s.microstep + 1 ∨ s = FOREVER_TAG := by
    rcases h with rfl | k
    · exact .inr rfl
    · left; unfold wrapU32; omega
  have hFt : FOREVER_TAG.time = FOREVER := rfl
  have hFm : FOREVER_TAG.microstep = UINT_MAX := rfl
  have hwz : wrapU32 (z.microstep + 1) ≤ z.microstep + 1 ∧ wrapU32 (z.microstep + 1) ≤ UINT_MAX := by
    unfold wrapU32; omega
  rcases lf_delay_tag_cases z w with x | x | x | x <;> rcases lf_delay_tag_cases s w with y | y | y | y
  all_goals first
    | (exfalso; tag_omega)
    | (rw [x.2, y.2]; exact hz)
    | (rw [x.2.2.2, y.2.2.2]; exact Tag.le_refl _)
    | (rw [x.2, y.2.2.2]; rcases hw with hw | hw <;> tag_omega)
    | (rw [x.2.2.2, y.2]; rcases hw with hw | hw <;> tag_omega)
    | (rw [x.2.2.2, y.2.2.2]; rcases hw with hw | hw <;> tag_omega)

/-- C25.  A provisional grant `PTAG(g)` leaves only the zero-delay cycles open: when the RTI forwards a message to the federate
from an upstream federate that is not on a cycle of connections without delay, the message is later than `g`. -/
theorem C25_provisional_grant_excludes_outside_messages (hT : T.Ok) (hD : T.DownOk) (h0 : 0 ≤ start) (h1 : start < FOREVER)
    {σ : Sys} (h : Reach T start σ) {i u : Nat} {g : Tag} (hg : Down.ptag g ∈ σ.rti.out i) {s m : Tag} {w : Int}
    {q : List Up} (hq : σ.up u = .msg i s w m :: q) (hu : (σ.rti.node u).connected = true)
    (hz : ¬ ∃ ws, Path T (fun _ => true) u u ws ∧ ∀ w ∈ ws, w < 0) : g < m := by
  obtain ⟨β, hi⟩ := h.inv hT hD h0 h1
  have hp := hi.pre u hu
  rw [hq] at hp
  obtain ⟨hc, hbs, _, _⟩ := hp
  rcases hi.rti.outside i g hg u w hc.conn with k | ⟨⟨z, k1, k2⟩, _⟩
  · exact absurd k hz
  · exact Tag.lt_of_lt_of_le k2 (Tag.le_trans (delay_mono_sane w hc.sane (Tag.le_trans k1 hbs)) hc.delay)

/-! ## C24 -/

/-- The grants to a federate go forward. -/
def Forward : Down → Down → Prop
  | .tag g, .tag g' => g < g'
  | .ptag p, .tag g => p ≤ g
  | .ptag p, .ptag p' => p < p'
  | .tag g, .ptag p => g < p
  | _, _ => True

structure GInv (T : Topology) (s : Rti) (i : Nat) : Prop where
  tags : ∀ g, Down.tag g ∈ s.out i → g ≤ (s.node i).lastGranted
  ptags : ∀ p, Down.ptag p ∈ s.out i → p ≤ (s.node i).lastProvisional
  order : (s.out i).Pairwise Forward
  base : NEVER_TAG ≤ (s.node i).lastGranted
  above : ∀ p, Down.ptag p ∈ s.out i → NEVER_TAG < p

theorem GInv.keep {a b : Rti} {i : Nat} (h : GInv T a i) (h1 : (b.node i).lastGranted = (a.node i).lastGranted)
    (h2 : (b.node i).lastProvisional = (a.node i).lastProvisional) (h3 : b.out i = a.out i) : GInv T b i := by
  refine ⟨fun g hg => ?_, fun p hp => ?_, ?_, ?_, fun p hp => ?_⟩
  · rw [h1]; rw [h3] at hg; exact h.tags g hg
  · rw [h2]; rw [h3] at hp; exact h.ptags p hp
  · rw [h3]; exact h.order
  · rw [h1]; exact h.base
  · rw [h3] at hp; exact h.above p hp

theorem GInv.setNode {a : Rti} {i : Nat} (h : GInv T a i) (j : Nat) (f : Node → Node)
    (h1 : ∀ nd, (f nd).lastGranted = nd.lastGranted) (h2 : ∀ nd, (f nd).lastProvisional = nd.lastProvisional) :
    GInv T (a.setNode j f) i := by
  refine h.keep ?_ ?_ rfl
  · by_cases hj : i = j
    · subst hj; rw [setNode_same, h1]
    · rw [setNode_other _ _ hj]
  · by_cases hj : i = j
    · subst hj; rw [setNode_same, h2]
    · rw [setNode_other _ _ hj]

theorem pairwise_forward_one {l : List Down} {d : Down} (h : l.Pairwise Forward) (k : ∀ a ∈ l, Forward a d) :
    (l ++ [d]).Pairwise Forward := by
  rw [List.pairwise_append]
  refine ⟨h, List.pairwise_singleton _ _, fun a ha b hb => ?_⟩
  rw [List.mem_singleton] at hb
  subst hb
  exact k a ha

theorem GInv.write {a : Rti} {i : Nat} (h : GInv T a i) (j : Nat) (d : Down) (f : Node → Node)
    (hd : j ≠ i ∨ (∀ x ∈ a.out i, Forward x d))
    (h1 : j = i → (a.node i).lastGranted ≤ (f (a.node i)).lastGranted ∧ ∀ g, d = .tag g → g ≤ (f (a.node i)).lastGranted)
    (h2 : j = i → (a.node i).lastProvisional ≤ (f (a.node i)).lastProvisional ∧
      ∀ g, d = .ptag g → g ≤ (f (a.node i)).lastProvisional)
    (h3 : j = i → ∀ p, d = .ptag p → NEVER_TAG < p) : GInv T ((a.write j d).setNode j f) i := by
  by_cases hj : i = j
  · subst hj
    refine ⟨fun g hg => ?_, fun p hp => ?_, ?_, ?_, fun p hp => ?_⟩
    · rw [setNode_same]
      have hg : Down.tag g ∈ (a.write i d).out i := hg
      rw [mem_write] at hg
      rcases hg with hg | ⟨_, hg⟩
      · exact Tag.le_trans (h.tags g hg) (h1 rfl).1
      · exact (h1 rfl).2 g hg.symm
    · rw [setNode_same]
      have hp : Down.ptag p ∈ (a.write i d).out i := hp
      rw [mem_write] at hp
      rcases hp with hp | ⟨_, hp⟩
      · exact Tag.le_trans (h.ptags p hp) (h2 rfl).1
      · exact (h2 rfl).2 p hp.symm
    · show ((a.write i d).out i).Pairwise Forward
      unfold Rti.write
      dsimp only
      rw [put_same]
      rcases hd with hd | hd
      · exact absurd rfl hd
      · exact pairwise_forward_one h.order hd
    · rw [setNode_same]; exact Tag.le_trans h.base (h1 rfl).1
    · have hp : Down.ptag p ∈ (a.write i d).out i := hp
      rw [mem_write] at hp
      rcases hp with hp | ⟨_, hp⟩
      · exact h.above p hp
      · exact h3 rfl p hp.symm
  · refine h.keep ?_ ?_ ?_
    · rw [setNode_other _ _ hj]; rfl
    · rw [setNode_other _ _ hj]; rfl
    · show (a.write j d).out i = _
      exact put_other _ _ _ hj

theorem Micro.ginv {s s' : Rti} (h : Micro T start s s') {i : Nat} (hg : GInv T s i) : GInv T s' i := by
  cases h with
  | cache j hj =>
    rcases @updateMin_cases T j s with ⟨c, _, h⟩ | ⟨hn, h⟩
    · rw [h]; exact hg
    · rw [h]; exact hg.setNode j _ (fun _ => rfl) (fun _ => rfl)
  | heard j =>
    rcases @heard_cases start j s with ⟨_, h⟩ | ⟨hn, h⟩
    · rw [h]; exact hg
    · rw [h]; exact hg.setNode j _ (fun _ => rfl) (fun _ => rfl)
  | tag j t hj hcn hlt hle hb hr =>
    refine hg.write j _ _ ?_ (fun e => ⟨?_, ?_⟩) (fun e => ⟨Tag.le_refl _, fun g h => by cases h⟩)
      (fun _ p h => by cases h)
    · by_cases e : j = i
      · subst e; right
        intro x hx
        cases x with
        | msg p => trivial
        | tag g => exact Tag.lt_of_le_of_lt (hg.tags g hx) hlt
        | ptag p => exact Tag.le_trans (hg.ptags p hx) hle
      · exact .inl e
    · subst e; exact Tag.le_of_lt hlt
    · intro g h; cases h; exact Tag.le_refl _
  | ptag j t hj hcn hlt hle hb hF hr hout _ =>
    refine hg.write j _ _ ?_ (fun e => ⟨Tag.le_refl _, fun g h => by cases h⟩) (fun e => ⟨?_, ?_⟩)
      (fun e p h => by cases h; subst e; exact Tag.lt_of_le_of_lt hg.base hlt)
    · by_cases e : j = i
      · subst e; right
        intro x hx
        cases x with
        | msg p => trivial
        | tag g => exact Tag.lt_of_le_of_lt (hg.tags g hx) hlt
        | ptag p => exact Tag.lt_of_le_of_lt (hg.ptags p hx) hle
      · exact .inl e
    · subst e; exact Tag.le_of_lt hle
    · intro g h; cases h; exact Tag.le_refl _
  | drop j hb => exact hg.setNode j _ (fun _ => rfl) (fun _ => rfl)
  | deep => exact ⟨hg.tags, hg.ptags, hg.order, hg.base, hg.above⟩

theorem Micros.ginv {s s' : Rti} (h : Micros T start s s') {i : Nat} (hg : GInv T s i) : GInv T s' i := by
  induction h with
  | refl => exact hg
  | tail _ h ih => exact h.ginv ih

theorem updateNextEvent_ginv (hT : T.Ok) (hD : T.DownOk) (h0 : 0 ≤ start) {i j : Nat} (hj : j < T.n) (hu : T.up i ≠ [])
    (t : Tag) {s : Rti} (hg : GInv T s i) : GInv T (updateNextEvent T start j t s) i := by
  unfold updateNextEvent
  dsimp only
  have h1 := hg.setNode j (fun nd => { nd with nextEvent := t }) (fun _ => rfl) (fun _ => rfl)
  refine (notifyAllDownstream_micros h0 hT hD j _).ginv ?_
  by_cases huj : T.up j ≠ []
  · rw [if_pos huj]; exact (notifyIfSafe_micros h0 hT hj _).ginv h1
  · rw [if_neg huj]
    have hij : i ≠ j := by
      intro e; subst e; exact huj hu
    exact h1.keep (by rw [setNode_other _ _ hij]) (by rw [setNode_other _ _ hij]) rfl

theorem updateFederate_ginv (hT : T.Ok) (hD : T.DownOk) (h0 : 0 ≤ start) {i j : Nat} (hj : j < T.n) (hu : T.up i ≠ [])
    (t : Tag) {s : Rti} (hg : GInv T s i) : GInv T (updateFederateNextEvent T start j t s) i := by
  unfold updateFederateNextEvent
  split
  · exact updateNextEvent_ginv hT hD h0 hj hu _ hg
  · exact updateNextEvent_ginv hT hD h0 hj hu _ hg

/-- Only federates of the federation send anything. -/
def Numbered (T : Topology) (σ : Sys) : Prop :=
  (∀ i, σ.up i ≠ [] → i < T.n) ∧ ∀ i d s w m, Up.msg d s w m ∈ σ.up i → d < T.n

theorem Numbered.send {σ : Sys} (h : Numbered T σ) {i : Nat} (hi : i < T.n) {x : Up}
    (hx : ∀ d s w m, x = .msg d s w m → d < T.n) : Numbered T (σ.send i x) := by
  refine ⟨fun j hj => ?_, fun j d s w m hm => ?_⟩ <;> unfold Sys.send at * <;> dsimp only at *
  · by_cases e : j = i
    · rw [e]; exact hi
    · rw [put_other _ _ _ e] at hj; exact h.1 j hj
  · by_cases e : j = i
    · subst e; rw [put_same] at hm
      rcases List.mem_append.1 hm with k | k
      · exact h.2 j d s w m k
      · exact hx d s w m (List.mem_singleton.1 k).symm
    · rw [put_other _ _ _ e] at hm; exact h.2 j d s w m hm

theorem Numbered.pop {σ : Sys} (h : Numbered T σ) {i : Nat} {x : Up} {q q' : List Up} (hq : σ.up i = x :: q)
    (hq' : ∀ y ∈ q', y ∈ q ∨ ∀ d s w m, y ≠ .msg d s w m) (r : Rti) : Numbered T { σ with rti := r, up := put σ.up i q' } := by
  refine ⟨fun j hj => ?_, fun j d s w m hm => ?_⟩ <;> dsimp only at *
  · by_cases e : j = i
    · rw [e]; exact h.1 i (by rw [hq]; simp)
    · rw [put_other _ _ _ e] at hj; exact h.1 j hj
  · by_cases e : j = i
    · subst e; rw [put_same] at hm
      rcases hq' _ hm with k | k
      · exact h.2 j d s w m (by rw [hq]; exact List.mem_cons_of_mem _ k)
      · exact absurd rfl (k d s w m)
    · rw [put_other _ _ _ e] at hm; exact h.2 j d s w m hm

theorem Reach.numbered {σ : Sys} (h : Reach T start σ) : Numbered T σ := by
  induction h with
  | init => exact ⟨fun i h => absurd rfl h, fun i d s w m h => by cases h⟩
  | step _ hs ih =>
    cases hs with
    | sendMsg i d s w m hi hd => exact ih.send hi (by intro d' s' w' m' h; cases h; exact hd)
    | receive i p _ _ _ => exact ih
    | sendNet i n p hi => exact ih.send (x := .net n p) hi (by intro d s w m h; cases h)
    | sendLtc i c hi => exact ih.send (x := .ltc c) hi (by intro d s w m h; cases h)
    | sendResign i hi => exact ih.send hi (by intro d s w m h; cases h)
    | msg i d s w m q r hi hq hr => exact ih.pop hq (fun y hy => .inl hy) _
    | net i n p q hi hq => exact ih.pop hq (fun y hy => .inl hy) _
    | ltc i c q hi hq =>
      refine ih.pop hq (fun y hy => ?_) _
      rcases List.mem_cons.1 hy with k | k
      · right; intro d s w m e; rw [k] at e; cases e
      · exact .inl k
    | clean i c q hq => exact ih.pop hq (fun y hy => .inl hy) _
    | resign i q hi hq => exact ih.pop hq (fun y hy => .inl hy) _
    | stop t _ _ => exact ih
    | closed i => exact ih
    | breaks i => exact ih

theorem GInv.writeMsg {a : Rti} {i : Nat} (h : GInv T a i) (d : Nat) (m : Tag) : GInv T (a.write d (.msg m)) i := by
  refine ⟨fun g hg => ?_, fun p hp => ?_, ?_, h.base, fun p hp => ?_⟩
  · rw [mem_write] at hg
    rcases hg with hg | ⟨_, hg⟩
    · exact h.tags g hg
    · cases hg
  · rw [mem_write] at hp
    rcases hp with hp | ⟨_, hp⟩
    · exact h.ptags p hp
    · cases hp
  · unfold Rti.write
    dsimp only
    by_cases hi : i = d
    · subst hi; rw [put_same]
      exact pairwise_forward_one h.order (fun x _ => by cases x <;> trivial)
    · rw [put_other _ _ _ hi]; exact h.order
  · rw [mem_write] at hp
    rcases hp with hp | ⟨_, hp⟩
    · exact h.above p hp
    · cases hp

theorem Reach.ginv (hT : T.Ok) (hD : T.DownOk) (h0 : 0 ≤ start) {σ : Sys} (h : Reach T start σ) {i : Nat}
    (hu : T.up i ≠ []) : GInv T σ.rti i := by
  induction h with
  | init =>
    refine ⟨fun g h => ?_, fun p h => ?_, List.Pairwise.nil, Tag.le_refl _, fun p h => ?_⟩
    · cases h
    · cases h
    · cases h
  | @step σ σ' hr hs ih =>
    have num := hr.numbered
    cases hs with
    | sendMsg => exact ih
    | receive => exact ih
    | sendNet => exact ih
    | sendLtc => exact ih
    | sendResign => exact ih
    | msg j d s w m q r hj hq hr =>
      have hd : d < T.n := num.2 j d s w m (by rw [hq]; exact List.mem_cons_self)
      dsimp only
      unfold handleTimedMessage at hr
      split at hr
      · cases hr; exact ih
      split at hr
      · cases hr
      dsimp only at hr
      have h1 := ih.writeMsg d m
      generalize σ.rti.write d (.msg m) = a at hr h1
      generalize hb : (if lf_tag_compare (a.node d).completed m < 0 then
        if m ∈ a.transit d then a else { a with transit := put a.transit d (m :: a.transit d) } else a) = b at hr
      have h2 : GInv T b i := by
        rw [← hb]
        split
        · split
          · exact h1
          · exact ⟨h1.tags, h1.ptags, h1.order, h1.base, h1.above⟩
        · exact h1
      split at hr
      · cases hr; exact updateFederate_ginv hT hD h0 hd hu _ h2
      · cases hr; exact h2
    | net j n p q hj hq => exact updateFederate_ginv hT hD h0 (num.1 j (by rw [hq]; simp)) hu _ ih
    | ltc j c q hj hq =>
      exact (logicalTagComplete_micros h0 hT hD).ginv (ih.setNode j _ (fun _ => rfl) (fun _ => rfl))
    | clean j c q hq => exact ⟨ih.tags, ih.ptags, ih.order, ih.base, ih.above⟩
    | resign j q hj hq =>
      exact (notifyAllDownstream_micros h0 hT hD j _).ginv (ih.setNode j _ (fun _ => rfl) (fun _ => rfl))
    | stop t =>
      refine ih.keep ?_ ?_ rfl
      · dsimp only; unfold stopNode; split
        · split <;> rfl
        · rfl
      · dsimp only; unfold stopNode; split
        · split <;> rfl
        · rfl
    | closed j => exact ih.setNode j (fun nd => { nd with connected := false }) (fun _ => rfl) (fun _ => rfl)
    | breaks j => exact ⟨ih.tags, ih.ptags, ih.order, ih.base, ih.above⟩

/-- C24, for federates with upstream federates.  In every state of a federation that can be reached, in the order in
which the RTI has sent them: a final grant is later than every final grant before and not earlier than a provisional grant
before; a provisional grant is later than every grant of either kind before.

Missing: federates without upstream ones, for which it is false, see `C24_without_upstream_not_monotone`. -/
theorem C24_grants_monotone_partial (hT : T.Ok) (hD : T.DownOk) (h0 : 0 ≤ start) {σ : Sys} (h : Reach T start σ)
    {i : Nat} (hu : T.up i ≠ []) {before between after : List Down} {x y : Down}
    (ho : σ.rti.out i = before ++ x :: (between ++ y :: after)) :
    (∀ g g', x = .tag g → y = .tag g' → g < g') ∧ (∀ p g, x = .ptag p → y = .tag g → p ≤ g) ∧
    (∀ p p', x = .ptag p → y = .ptag p' → p < p') ∧ (∀ g p, x = .tag g → y = .ptag p → g < p) := by
  have := (h.ginv hT hD h0 hu).order
  rw [ho] at this
  have := pairwise_mem_append this
  refine ⟨?_, ?_, ?_, ?_⟩ <;> (intro a b e1 e2; subst e1; subst e2; exact this)

end

/-! ## Runs -/

/-- The steps of a federation as instructions. -/
inductive Act
  | sendMsg (i d : Nat) (s : Tag) (w : Int) (m : Tag)
  | receive (i : Nat) (p : Tag)
  | sendNet (i : Nat) (n p : Tag)
  | sendLtc (i : Nat) (c : Tag)
  | sendResign (i : Nat)
  | handle (i : Nat)

/-- Executes an instruction if it is possible. -/
def exec (T : Topology) (start : Int) (σ : Sys) : Act → Option Sys
  | .sendMsg i d s w m =>
    if i < T.n ∧ d < T.n ∧ (i, w) ∈ T.up d ∧ Sane T s ∧ s ≠ FOREVER_TAG ∧ Sane T m ∧ (⟨start, 0⟩ : Tag) ≤ s ∧
      σ.done i < s ∧ σ.net i ≤ s ∧ lf_delay_tag s w ≤ m then some (σ.send i (.msg d s w m)) else none
  | .receive i p =>
    if Down.msg p ∈ σ.rti.out i ∧ σ.done i < p ∧ p < σ.net i then some { σ with net := put σ.net i p } else none
  | .sendNet i n p =>
    if i < T.n ∧ Sane T n ∧ Sane T p ∧ (⟨start, 0⟩ : Tag) ≤ n ∧ n ≤ p ∧ σ.net i ≤ p then
      some { σ.send i (.net n p) with net := put σ.net i p } else none
  | .sendLtc i c =>
    if i < T.n ∧ Sane T c ∧ σ.done i ≤ c then some { σ.send i (.ltc c) with done := put σ.done i c } else none
  | .sendResign i => if i < T.n then some (σ.send i .resign) else none
  | .handle i =>
    if (σ.rti.node i).connected = true then
      match σ.up i with
      | [] => none
      | .msg d _ _ m :: q => (handleTimedMessage T start d m σ.rti).map fun r => { σ with rti := r, up := put σ.up i q }
      | .net n _ :: q => some { σ with rti := handleNextEventTag T start i n σ.rti, up := put σ.up i q }
      | .ltc c :: q => some { σ with rti := logicalTagComplete T start i c σ.rti, up := put σ.up i (.clean c :: q) }
      | .clean c :: q => some { σ with rti := removeInTransit i c σ.rti, up := put σ.up i q }
      | .resign :: q => some { σ with rti := handleResign T start i σ.rti, up := put σ.up i q }
    else none

theorem exec_step {T : Topology} {start : Int} {σ σ' : Sys} {a : Act} (h : exec T start σ a = some σ') :
    Step T start σ σ' := by
  cases a with
  | sendMsg i d s w m =>
    unfold exec at h
    dsimp only at h
    split at h
    · rename_i k
      obtain ⟨k1, k2, k3, k4, k5, k6, k7, k8, k9, k10⟩ := k
      cases h
      exact .sendMsg _ _ _ _ _ _ k1 k2 k3 k4 k5 k6 k7 k8 k9 k10
    · cases h
  | receive i p =>
    unfold exec at h
    dsimp only at h
    split at h
    · rename_i k
      cases h
      exact .receive _ _ _ k.1 k.2.1 k.2.2
    · cases h
  | sendNet i n p =>
    unfold exec at h
    dsimp only at h
    split at h
    · rename_i k
      obtain ⟨k1, k2, k3, k4, k5, k6⟩ := k
      cases h
      exact .sendNet _ _ _ _ k1 k2 k3 k4 k5 k6
    · cases h
  | sendLtc i c =>
    unfold exec at h
    dsimp only at h
    split at h
    · rename_i k
      cases h
      exact .sendLtc _ _ _ k.1 k.2.1 k.2.2
    · cases h
  | sendResign i =>
    unfold exec at h
    dsimp only at h
    split at h
    · rename_i k
      cases h
      exact .sendResign _ _ k
    · cases h
  | handle i =>
    unfold exec at h
    dsimp only at h
    split at h
    · rename_i hc
      split at h
      · cases h
      · rename_i d s w m q hq
        rw [Option.map_eq_some_iff] at h
        obtain ⟨r, h1, h2⟩ := h
        cases h2
        exact .msg _ _ _ _ _ _ _ _ hc hq h1
      · rename_i n p q hq
        cases h
        exact .net _ _ _ _ _ hc hq
      · rename_i c q hq
        cases h
        exact .ltc _ _ _ _ hc hq
      · rename_i c q hq
        cases h
        exact .clean _ _ _ _ hq
      · rename_i q hq
        cases h
        exact .resign _ _ _ hc hq
    · cases h

/-- Executes a list of instructions. -/
def execAll (T : Topology) (start : Int) : Sys → List Act → Option Sys
  | σ, [] => some σ
  | σ, a :: l => (exec T start σ a).bind fun σ' => execAll T start σ' l

theorem execAll_reach {T : Topology} {start : Int} {l : List Act} : ∀ {σ σ' : Sys}, Reach T start σ →
    execAll T start σ l = some σ' → Reach T start σ' := by
  induction l with
  | nil => intro σ σ' h e; cases e; exact h
  | cons a l ih =>
    intro σ σ' h e
    unfold execAll at e
    rw [Option.bind_eq_some_iff] at e
    obtain ⟨σ1, e1, e2⟩ := e
    exact ih (h.step (exec_step e1)) e2

/-- What the RTI has sent to `i` in a run. -/
def sentTo (T : Topology) (start : Int) (l : List Act) (i : Nat) : Option (List Down) :=
  (execAll T start (initSys start) l).map fun σ => σ.rti.out i

theorem sentTo_reach {T : Topology} {start : Int} {l : List Act} {i : Nat} {o : List Down}
    (h : sentTo T start l i = some o) : ∃ σ, Reach T start σ ∧ σ.rti.out i = o := by
  unfold sentTo at h
  rw [Option.map_eq_some_iff] at h
  obtain ⟨σ, h1, h2⟩ := h
  exact ⟨σ, execAll_reach .init h1, h2⟩

/-- 0 and 1 form a cycle, from 0 to 1 without delay and back with delay 10; 2 sends to 1 without delay. -/
def grantDemo : Topology :=
  { n := 3
    up := fun i => if i = 0 then [(1, 10)] else if i = 1 then [(0, NEVER), (2, NEVER)] else []
    down := fun i => if i = 0 then [1] else if i = 1 then [0] else if i = 2 then [1] else [] }

theorem grantDemo_ok : grantDemo.Ok ∧ grantDemo.DownOk := by
  refine ⟨⟨by decide, fun i u w h => ?_, fun i u w h => ?_⟩, fun i j h => ?_⟩
  · unfold grantDemo at h ⊢; dsimp only at h ⊢
    repeat' split at h
    all_goals simp at h
    all_goals omega
  · unfold grantDemo at h; dsimp only at h
    have : ∀ x ∈ ([10, NEVER] : List Int), IsI64 x := by decide
    refine this w ?_
    repeat' split at h
    all_goals simp at h
    all_goals simp
    all_goals omega
  · unfold grantDemo at h ⊢; dsimp only at h ⊢
    repeat' split at h
    all_goals simp at h
    all_goals omega

/-- Federate 2 acts at 7, federate 0 at 5; 1 gets a message from 0, then a grant, then the message from 2. -/
def grantRun : List Act :=
  [.sendNet 0 ⟨5, 0⟩ ⟨5, 0⟩, .sendNet 1 ⟨6, 0⟩ ⟨6, 0⟩, .sendNet 2 ⟨7, 0⟩ ⟨7, 0⟩, .handle 0, .handle 1, .handle 2,
   .sendMsg 0 1 ⟨5, 0⟩ NEVER ⟨5, 0⟩, .sendLtc 0 ⟨5, 0⟩, .sendNet 0 ⟨9, 0⟩ ⟨9, 0⟩, .handle 0, .handle 0, .handle 0, .handle 0,
   .receive 1 ⟨5, 0⟩, .sendLtc 1 ⟨5, 0⟩, .sendNet 1 ⟨6, 0⟩ ⟨6, 0⟩, .handle 1, .handle 1, .handle 1,
   .sendMsg 2 1 ⟨7, 0⟩ NEVER ⟨7, 0⟩, .handle 2]

example : ∃ σ, Reach grantDemo 0 σ ∧
    σ.rti.out 1 = [.msg ⟨5, 0⟩, .tag ⟨5, 0⟩, .tag ⟨6, 0⟩, .msg ⟨7, 0⟩] :=
  sentTo_reach (l := grantRun) (by decide +kernel)

/-- The exception in `C25_message_after_grant_is_later` occurs: with a delay of 10 on the only connection, completing a
tag less than 10 before the end of time makes the RTI grant the end of time. -/
example : ∃ σ, Reach ⟨2, fun i => if i = 1 then [(0, 10)] else [], fun i => if i = 0 then [1] else []⟩ 0 σ ∧
    σ.rti.out 1 = [.tag FOREVER_TAG, .msg FOREVER_TAG] :=
  sentTo_reach (l := [.sendLtc 0 ⟨FOREVER - 9, 0⟩, .handle 0, .sendMsg 0 1 ⟨FOREVER - 8, 0⟩ 10 FOREVER_TAG, .handle 0,
    .handle 0]) (by decide +kernel)

/-! ## Federates without upstream ones -/

/-- 0 sends to 1 with delay 6 and to 3 with delay 2; 1 and 2, and also 3 and 4, are connected to each other without
delay. -/
def backDemo : Topology :=
  { n := 5
    up := fun i => if i = 1 then [(0, 6), (2, NEVER)] else if i = 2 then [(1, NEVER)]
      else if i = 3 then [(0, 2), (4, NEVER)] else if i = 4 then [(3, NEVER)] else []
    down := fun i => if i = 0 then [1, 3] else if i = 1 then [2] else if i = 2 then [1] else if i = 3 then [4]
      else if i = 4 then [3] else [] }

theorem backDemo_ok : backDemo.Ok ∧ backDemo.DownOk := by
  refine ⟨⟨by decide, fun i u w h => ?_, fun i u w h => ?_⟩, fun i j h => ?_⟩
  · unfold backDemo at h ⊢; dsimp only at h ⊢
    repeat' split at h
    all_goals simp at h
    all_goals omega
  · unfold backDemo at h; dsimp only at h
    have : ∀ x ∈ ([6, 2, NEVER] : List Int), IsI64 x := by decide
    refine this w ?_
    repeat' split at h
    all_goals simp at h
    all_goals simp
    all_goals omega
  · unfold backDemo at h ⊢; dsimp only at h ⊢
    repeat' split at h
    all_goals simp at h
    all_goals omega

def backRun : List Act :=
  [.sendNet 0 ⟨5, 0⟩ ⟨5, 0⟩, .handle 0, .sendNet 1 ⟨10, 0⟩ ⟨10, 0⟩, .handle 1, .sendNet 2 ⟨10, 0⟩ ⟨10, 0⟩, .handle 2,
   .sendLtc 0 ⟨5, 0⟩, .handle 0, .handle 0, .sendNet 0 ⟨7, 0⟩ ⟨7, 0⟩, .handle 0,
   .sendNet 3 ⟨8, 0⟩ ⟨8, 0⟩, .handle 3, .sendNet 4 ⟨8, 0⟩ ⟨8, 0⟩, .handle 4]

/-- C24 is false for a federate that has no upstream federates: the RTI tells it `TAG(10)`, because it found nothing that
could reach it when it propagated a provisional grant; the next event tag 7 that the federate then reports replaces the
record of that grant; the next provisional grant downstream makes the RTI send `TAG(8)`. -/
theorem C24_without_upstream_not_monotone : ∃ σ, Reach backDemo 0 σ ∧ backDemo.up 0 = [] ∧
    σ.rti.out 0 = [.tag ⟨10, 0⟩, .tag ⟨8, 0⟩] := by
  obtain ⟨σ, h1, h2⟩ := sentTo_reach (T := backDemo) (start := 0) (l := backRun) (i := 0)
    (o := [.tag ⟨10, 0⟩, .tag ⟨8, 0⟩]) (by decide +kernel)
  exact ⟨σ, h1, rfl, h2⟩

/-- The provisional grants of the same run. -/
example : ∃ σ, Reach backDemo 0 σ ∧ backDemo.up 1 ≠ [] ∧ σ.rti.out 1 = [.ptag ⟨0, 0⟩, .ptag ⟨10, 0⟩] :=
  let ⟨σ, h1, h2⟩ := sentTo_reach (T := backDemo) (start := 0) (l := backRun) (i := 1)
    (o := [.ptag ⟨0, 0⟩, .ptag ⟨10, 0⟩]) (by decide +kernel)
  ⟨σ, h1, by decide, h2⟩

/-- A state as in `C25_provisional_grant_excludes_outside_messages`: 1 has got `PTAG(10)`; a message from 0, which is not on
a cycle, waits to be forwarded to it. -/
example : ∃ σ, Reach backDemo 0 σ ∧ Down.ptag ⟨10, 0⟩ ∈ σ.rti.out 1 ∧ σ.up 0 = [.msg 1 ⟨7, 0⟩ 6 ⟨13, 0⟩] ∧
    (σ.rti.node 0).connected = true ∧ ¬ ∃ ws, Path backDemo (fun _ => true) 0 0 ws ∧ ∀ w ∈ ws, w < 0 := by
  cases h : execAll backDemo 0 (initSys 0) (backRun ++ [.sendMsg 0 1 ⟨7, 0⟩ 6 ⟨13, 0⟩]) with
  | none =>
    have : (execAll backDemo 0 (initSys 0) (backRun ++ [.sendMsg 0 1 ⟨7, 0⟩ 6 ⟨13, 0⟩])).isSome = true := by decide +kernel
    rw [h] at this; cases this
  | some σ =>
    have a : ((execAll backDemo 0 (initSys 0) (backRun ++ [.sendMsg 0 1 ⟨7, 0⟩ 6 ⟨13, 0⟩])).any fun σ =>
        decide (Down.ptag ⟨10, 0⟩ ∈ σ.rti.out 1) && decide (σ.up 0 = [.msg 1 ⟨7, 0⟩ 6 ⟨13, 0⟩]) &&
          (σ.rti.node 0).connected) = true := by decide +kernel
    rw [h] at a
    simp only [Option.any_some, Bool.and_eq_true, decide_eq_true_eq] at a
    refine ⟨σ, execAll_reach .init h, a.1.1, a.1.2, a.2, ?_⟩
    rintro ⟨ws, hp, _⟩
    have key : ∀ {u ws}, Path backDemo (fun _ => true) 0 u ws → False := by
      intro u ws hp
      induction hp with
      | last u w _ hm => exact absurd hm (by simp [backDemo])
      | step _ _ _ _ _ _ _ ih => exact ih
    exact key hp

end ReactorC.Rti
