import Verif.Rti.Progress
import Mathlib.Order.WellFounded
import Mathlib.Data.Fintype.Basic
import Mathlib.Data.Fintype.Card
import Mathlib.Order.OrderIsoNat
import Mathlib.Order.Preorder.Finite

/-!
# C27: the RTI lets somebody make progress

In a federation without cycles of connections without delay, as long as no socket fails and no stop is requested: as soon
as the RTI has heard from all federates, one with the least next event tag either needs no grant (nothing is upstream of
it) or has been sent a grant that covers this tag.
-/

set_option linter.unusedSimpArgs false
set_option linter.unusedVariables false

namespace ReactorC.Rti
open ReactorC

/-- The federates whose next event tag the RTI has handled, after an instruction. -/
def hears (σ : Sys) (a : Act) (R : Nat → Bool) : Nat → Bool :=
  match a with
  | .handle i =>
    match σ.up i with
    | .net _ _ :: _ => put R i true
    | _ => R
  | _ => R

/-- `Run T start σ R`: the federation reaches the state `σ` without failures of sockets and without a request to stop;
`R` are the federates whose next event tag the RTI has handled at least once. -/
inductive Run (T : Topology) (start : Int) : Sys → (Nat → Bool) → Prop
  | init : Run T start (initSys start) (fun _ => false)
  | step {σ σ' : Sys} {R : Nat → Bool} (a : Act) : Run T start σ R → exec T start σ a = some σ' →
      Run T start σ' (hears σ a R)

section
variable {T : Topology} {start : Int}

theorem Run.reach {σ : Sys} {R : Nat → Bool} (h : Run T start σ R) : Reach T start σ := by
  induction h with
  | init => exact .init
  | step a _ e ih => exact .step ih (exec_step e)

theorem exec_handle {σ σ' : Sys} {i : Nat} (h : exec T start σ (.handle i) = some σ') :
    (σ.rti.node i).connected = true ∧ σ.up i ≠ [] ∧
    ((∃ d s w m q r, σ.up i = .msg d s w m :: q ∧ handleTimedMessage T start d m σ.rti = some r ∧ σ'.rti = r) ∨
     (∃ n p q, σ.up i = .net n p :: q ∧ σ'.rti = handleNextEventTag T start i n σ.rti) ∨
     (∃ c q, σ.up i = .ltc c :: q ∧ σ'.rti = logicalTagComplete T start i c σ.rti) ∨
     (∃ c q, σ.up i = .clean c :: q ∧ σ'.rti = removeInTransit i c σ.rti) ∨
     (∃ q, σ.up i = .resign :: q ∧ σ'.rti = handleResign T start i σ.rti)) := by
  unfold exec at h
  dsimp only at h
  split at h
  · rename_i hc
    refine ⟨hc, ?_⟩
    split at h
    · cases h
    · rename_i d s w m q hq
      rw [Option.map_eq_some_iff] at h
      obtain ⟨r, h1, h2⟩ := h
      cases h2
      exact ⟨by rw [hq]; simp, .inl ⟨d, s, w, m, q, r, hq, h1, rfl⟩⟩
    · rename_i n p q hq
      cases h
      exact ⟨by rw [hq]; simp, .inr (.inl ⟨n, p, q, hq, rfl⟩)⟩
    · rename_i c q hq
      cases h
      exact ⟨by rw [hq]; simp, .inr (.inr (.inl ⟨c, q, hq, rfl⟩))⟩
    · rename_i c q hq
      cases h
      exact ⟨by rw [hq]; simp, .inr (.inr (.inr (.inl ⟨c, q, hq, rfl⟩)))⟩
    · rename_i q hq
      cases h
      exact ⟨by rw [hq]; simp, .inr (.inr (.inr (.inr ⟨q, hq, rfl⟩)))⟩
  · cases h

theorem exec_other {σ σ' : Sys} {a : Act} (h : exec T start σ a = some σ') (ha : ∀ i, a ≠ .handle i) :
    σ'.rti = σ.rti := by
  cases a with
  | handle i => exact absurd rfl (ha i)
  | _ =>
    unfold exec at h
    dsimp only at h
    split at h
    · cases h; rfl
    · cases h

theorem Sane.time {t : Tag} (h : Sane T t) : 0 ≤ t.time := by
  rcases h with rfl | h
  · decide
  · exact h.1

theorem updateFederate_pi (h0 : 0 ≤ start) (hT : T.Ok) (hD : T.DownOk) (hz : T.NoZeroDelayCycle) (hK : T.Consistent)
    {R : Nat → Bool} (hR : ∀ j, R j = true → j < T.n) {k : Nat} (hk : k < T.n) {s : Rti} (hp : PI T s)
    (hcn : (s.node k).connected = true) {t : Tag} (ht : 0 ≤ t.time) (htr : ∀ x ∈ s.transit k, Sane T x)
    (hc : Current T start R s) :
    PI T (updateFederateNextEvent T start k t s) ∧ Current T start (put R k true) (updateFederateNextEvent T start k t s) := by
  unfold updateFederateNextEvent
  split
  · refine updateNextEvent_pi h0 hT hD hz hK hR hk hp hcn ?_ hc
    rcases (peekTag_spec (s.transit k)).2.2 with e | e
    · rw [e]; decide
    · exact (htr _ e).time
  · exact updateNextEvent_pi h0 hT hD hz hK hR hk hp hcn ht hc

theorem logicalTagComplete_pi (h0 : 0 ≤ start) (hT : T.Ok) (hD : T.DownOk) (hz : T.NoZeroDelayCycle) {i : Nat} {c : Tag}
    {s : Rti} (hp : PI T s) :
    PI T (logicalTagComplete T start i c s) ∧ Stays start s (logicalTagComplete T start i c s) := by
  unfold logicalTagComplete
  have : ∀ (l : List Nat) (a : Rti), (∀ j ∈ l, j < T.n) → PI T a →
      PI T (l.foldl (fun (s : Rti) (j : Nat) => notifyAllDownstream T start j (notifyIfSafe T start j s)) a) ∧
      Stays start a (l.foldl (fun (s : Rti) (j : Nat) => notifyAllDownstream T start j (notifyIfSafe T start j s)) a) := by
    intro l
    induction l with
    | nil => intro a _ h; exact ⟨h, .refl _⟩
    | cons j l ih =>
      intro a hl ha
      rw [List.foldl_cons]
      have hj := hl j List.mem_cons_self
      obtain ⟨a1, a2, _⟩ := notifyIfSafe_pi h0 hT hz hj ha
      obtain ⟨b1, b2, _⟩ := notifyAllDownstream_pi h0 hT hD hz hj a1
      obtain ⟨c1, c2⟩ := ih _ (fun x hx => hl x (List.mem_cons_of_mem _ hx)) b1
      exact ⟨c1, a2.trans (b2.trans c2)⟩
  obtain ⟨k1, k2⟩ := this (T.down i) (s.setNode i fun nd => { nd with completed := c }) (fun j hj => hD i j hj)
    (hp.setNode i _ (fun c hc => .inl hc) rfl (.inl rfl) (hp.gone i) (hp.time i))
  exact ⟨k1, (stays_setNode _ _ _ rfl (Tag.le_refl _) (fun h => h)).trans k2⟩

/-- What the RTI is after it has handled what comes next from `i`. -/
def Handled (T : Topology) (start : Int) (σ : Sys) (i : Nat) (r : Rti) : Prop :=
  (∃ d s w m q, σ.up i = .msg d s w m :: q ∧ handleTimedMessage T start d m σ.rti = some r) ∨
  (∃ n p q, σ.up i = .net n p :: q ∧ r = handleNextEventTag T start i n σ.rti) ∨
  (∃ c q, σ.up i = .ltc c :: q ∧ r = logicalTagComplete T start i c σ.rti) ∨
  (∃ c q, σ.up i = .clean c :: q ∧ r = removeInTransit i c σ.rti) ∨
  (∃ q, σ.up i = .resign :: q ∧ r = handleResign T start i σ.rti)

/-- The grants are up to date after the RTI has handled something. -/
theorem handled_current (hT : T.Ok) (hD : T.DownOk) (hz : T.NoZeroDelayCycle) (hK : T.Consistent) (h0 : 0 ≤ start)
    (h1 : start < FOREVER) {σ : Sys} {R : Nat → Bool} (hr : Reach T start σ) (p : PI T σ.rti) (hR : ∀ j, R j = true → j < T.n)
    (c : Current T start R σ.rti) {i : Nat} (hcn : (σ.rti.node i).connected = true) {r : Rti} (hcase : Handled T start σ i r) :
    PI T r ∧ (∀ j, hears σ (.handle i) R j = true → j < T.n) ∧ Current T start (hears σ (.handle i) R) r := by
  obtain ⟨β, sv⟩ := hr.inv hT hD h0 h1
  have num := hr.numbered
  have hi : i < T.n := num.1 i (by
    rcases hcase with ⟨d, s, w, m, q, hq, _⟩ | ⟨n, pp, q, hq, _⟩ | ⟨k, q, hq, _⟩ | ⟨k, q, hq, _⟩ | ⟨q, hq, _⟩ <;> (rw [hq]; simp))
  have hpre := sv.pre i hcn
  rcases hcase with ⟨d, s, w, m, q, hq, hm⟩ | ⟨n, pp, q, hq, e'⟩ | ⟨k, q, hq, e'⟩ | ⟨k, q, hq, e'⟩ | ⟨q, hq, e'⟩
  · have hh : hears σ (.handle i) R = R := by unfold hears; dsimp only; rw [hq]
    rw [hh]
    rw [hq] at hpre
    obtain ⟨hcause, _⟩ := hpre
    unfold handleTimedMessage at hm
    by_cases hd : (σ.rti.node d).connected = false
    · rw [if_pos hd] at hm; cases hm; exact ⟨p, hR, c⟩
    rw [if_neg hd, if_neg (by rw [p.ok d]; simp)] at hm
    have hd : (σ.rti.node d).connected = true := by simpa using hd
    dsimp only at hm
    generalize hw : σ.rti.write d (.msg m) = b at hm
    have pb : PI T b := by
      rw [← hw]
      exact ⟨p.cache, p.prov, p.ok, fun j hu => (p.sent j hu).imp id fun h => mem_write.2 (.inl h), p.gone, p.time⟩
    have cb : Current T start R b := by rw [← hw]; exact c
    have db : (b.node d).connected = true := by rw [← hw]; exact hd
    have tb : ∀ x ∈ b.transit d, Sane T x := by
      intro x hx
      rw [← hw] at hx
      exact (sv.transit d x hx).1
    generalize hb' : (if lf_tag_compare (b.node d).completed m < 0 then
        if m ∈ b.transit d then b else { b with transit := put b.transit d (m :: b.transit d) } else b) = b' at hm
    have key : PI T b' ∧ Current T start R b' ∧ (b'.node d).connected = true ∧ (∀ x ∈ b'.transit d, Sane T x) := by
      rw [← hb']
      split
      · split
        · exact ⟨pb, cb, db, tb⟩
        · refine ⟨⟨pb.cache, pb.prov, pb.ok, pb.sent, pb.gone, pb.time⟩, cb, db, fun x hx => ?_⟩
          dsimp only at hx
          rw [put_same] at hx
          rcases List.mem_cons.1 hx with k | k
          · rw [k]; exact hcause.msg
          · exact tb x k
      · exact ⟨pb, cb, db, tb⟩
    obtain ⟨k1, k2, k3, k4⟩ := key
    split at hm
    · cases hm
      obtain ⟨m1, m2⟩ := updateFederate_pi h0 hT hD hz hK hR hcause.dest k1 k3 hcause.msg.time k4 k2
      refine ⟨m1, hR, fun j hj => m2 j ?_⟩
      by_cases e : j = d
      · subst e; exact put_same _ _ _
      · rw [put_other _ _ _ e]; exact hj
    · cases hm; exact ⟨k1, hR, k2⟩
  · have hh : hears σ (.handle i) R = put R i true := by unfold hears; dsimp only; rw [hq]
    rw [hh, e']
    rw [hq] at hpre
    obtain ⟨m1, m2⟩ := updateFederate_pi h0 hT hD hz hK hR hi p hcn hpre.1.time (fun x hx => (sv.transit i x hx).1) c
    refine ⟨m1, fun j hj => ?_, m2⟩
    by_cases e : j = i
    · rw [e]; exact hi
    · rw [put_other _ _ _ e] at hj; exact hR j hj
  · have hh : hears σ (.handle i) R = R := by unfold hears; dsimp only; rw [hq]
    rw [hh, e']
    obtain ⟨m1, m2⟩ := logicalTagComplete_pi (i := i) (c := k) h0 hT hD hz p
    exact ⟨m1, hR, m2.current c⟩
  · have hh : hears σ (.handle i) R = R := by unfold hears; dsimp only; rw [hq]
    rw [hh, e']
    exact ⟨⟨p.cache, p.prov, p.ok, p.sent, p.gone, p.time⟩, hR, c⟩
  · have hh : hears σ (.handle i) R = R := by unfold hears; dsimp only; rw [hq]
    rw [hh, e']
    unfold handleResign
    have p1 : PI T (σ.rti.setNode i fun nd => { nd with connected := false, nextEvent := FOREVER_TAG }) :=
      p.setNode i _ (fun c hc => .inl hc) rfl (.inl rfl) (fun _ => rfl) (.inr (by show 0 ≤ FOREVER_TAG.time; decide))
    obtain ⟨m1, m2, m3⟩ := notifyAllDownstream_pi h0 hT hD hz hi p1
    refine ⟨m1, hR, fun j hj => ?_⟩
    have hne1 : ((σ.rti.setNode i fun nd => { nd with connected := false, nextEvent := FOREVER_TAG }).node j).nextEvent
        ≠ NEVER_TAG := by
      by_cases e : j = i
      · subst e; rw [setNode_same]; show FOREVER_TAG ≠ NEVER_TAG; decide
      · rw [setNode_other _ _ e]; exact (c j hj).1
    refine ⟨m2.never hne1, ?_⟩
    by_cases e : j = i
    · subst e
      refine m2.settled hne1 (.inl ?_)
      rw [setNode_same]
    · by_cases hb : Below T i j
      · exact m3 j hb e hne1
      · exact m2.settled hne1 (settled_setNext hT hK (hR j hj) e hb _ (c j hj).2)

/-- The grants are up to date after every instruction. -/
theorem Run.current (hT : T.Ok) (hD : T.DownOk) (hz : T.NoZeroDelayCycle) (hK : T.Consistent) (h0 : 0 ≤ start)
    (h1 : start < FOREVER) {σ : Sys} {R : Nat → Bool} (h : Run T start σ R) :
    PI T σ.rti ∧ (∀ j, R j = true → j < T.n) ∧ Current T start R σ.rti := by
  induction h with
  | init =>
    refine ⟨⟨fun u c hc => (by cases hc), fun j => rfl, fun j => rfl, fun j _ => .inl rfl, fun j hj => (by cases hj),
      fun j => .inl rfl⟩, fun j hj => (by cases hj), fun j hj => (by cases hj)⟩
  | @step σ σ' R a hr e ih =>
    obtain ⟨p, hR, c⟩ := ih
    by_cases ha : ∃ i, a = .handle i
    · obtain ⟨i, rfl⟩ := ha
      obtain ⟨hcn, hne, hcase⟩ := exec_handle e
      refine handled_current hT hD hz hK h0 h1 hr.reach p hR c hcn ?_
      rcases hcase with ⟨d, s, w, m, q, r, hq, hm, e'⟩ | h | h | h | h
      · exact .inl ⟨d, s, w, m, q, hq, by rw [e']; exact hm⟩
      · exact .inr (.inl h)
      · exact .inr (.inr (.inl h))
      · exact .inr (.inr (.inr (.inl h)))
      · exact .inr (.inr (.inr (.inr h)))
    · have hh : hears σ a R = R := by
        unfold hears
        split
        · rename_i i; exact absurd ⟨i, rfl⟩ ha
        · rfl
      rw [hh, exec_other e (fun i hi => ha ⟨i, hi⟩)]
      exact ⟨p, hR, c⟩

/-! ## The theorem -/

/-- Sums that are not later than a tag no part of which is later. -/
theorem add_le_self {a d m : Tag} (ha : Sane T a) (hd : Delay d) (hr : Path.Room T d) (hm : m ≤ a) (hF : m < FOREVER_TAG)
    (h : lf_tag_add a d ≤ m) : a = m ∧ d = ZERO_TAG := by
  have hU : UINT_MAX = 4294967295 := rfl
  have hFv : FOREVER = 9223372036854775807 := rfl
  have hFt : FOREVER_TAG.time = FOREVER := rfl
  have hFm : FOREVER_TAG.microstep = UINT_MAX := rfl
  have hle := Tag.le_trans (add_ge_left ha.delay hd) h
  have e : a = m := Tag.le_antisymm hle hm
  subst e
  refine ⟨rfl, ?_⟩
  obtain ⟨d1, d2, d3⟩ := id hd
  have hz1 : ZERO_TAG.time = 0 := rfl
  have hz2 : ZERO_TAG.microstep = 0 := rfl
  rcases add_cases ha.delay hd with k | k | k | k
  · rw [k.2] at h; exact absurd (Tag.lt_of_lt_of_le hF h) (Tag.lt_irrefl _)
  · rw [k.2.2] at h; tag_omega
  · rw [k.2.2.2] at h
    tag_omega
  · rw [k.2.2.2] at h; exact absurd (Tag.lt_of_lt_of_le hF h) (Tag.lt_irrefl _)

theorem pathDelay_zero (ws : List Int) : pathDelay ws = ZERO_TAG ↔ ∀ w ∈ ws, w < 0 := by
  induction ws with
  | nil => simp [pathDelay]
  | cons w ws ih =>
    show through w (pathDelay ws) = ZERO_TAG ↔ _
    rw [through_eq_zero (delay_pathDelay ws), ih]; simp

/-- A finite nonempty set of numbers has an element whose value is minimal and, among these, minimal with respect to a
relation that is transitive and irreflexive. -/
theorem exists_least {n : Nat} (f : Nat → Tag) (r : Nat → Nat → Prop) (htr : ∀ a b c, r a b → r b c → r a c)
    (hir : ∀ a, ¬ r a a) (P : Nat → Prop) (hP : ∃ i, i < n ∧ P i) :
    ∃ e, e < n ∧ P e ∧ (∀ i, i < n → P i → f e ≤ f i) ∧ ∀ i, i < n → P i → f i = f e → ¬ r i e := by
  classical
  let lt : Fin n → Fin n → Prop := fun a b => f a < f b ∨ (f a = f b ∧ r a b)
  have t : IsTrans (Fin n) lt := ⟨by
    rintro a b c (h | ⟨h, h'⟩) (k | ⟨k, k'⟩)
    · exact .inl (Tag.lt_of_lt_of_le h (Tag.le_of_lt k))
    · exact .inl (by rw [← k]; exact h)
    · exact .inl (by rw [h]; exact k)
    · exact .inr ⟨h.trans k, htr _ _ _ h' k'⟩⟩
  have ir : Std.Irrefl lt := ⟨by
    rintro a (h | ⟨_, h⟩)
    · exact Tag.lt_irrefl _ h
    · exact hir _ h⟩
  have wf : WellFounded lt := Finite.wellFounded_of_trans_of_irrefl lt
  obtain ⟨i, hi, hPi⟩ := hP
  obtain ⟨e, he, hmin⟩ := wf.has_min {x : Fin n | P x} ⟨⟨i, hi⟩, hPi⟩
  refine ⟨e, e.2, he, fun j hj hPj => ?_, fun j hj hPj hf hr => ?_⟩
  · exact Tag.not_lt.1 fun h => hmin ⟨j, hj⟩ hPj (.inl h)
  · exact hmin ⟨j, hj⟩ hPj (.inr ⟨hf, hr⟩)

/-- If nothing more can be granted to anybody, somebody with the least next event has been granted that event. -/
theorem least_granted (hT : T.Ok) (hz : T.NoZeroDelayCycle) {s : Rti}
    (hsane : ∀ x, (s.node x).nextEvent ≠ NEVER_TAG → Sane T (s.node x).nextEvent)
    (hgone : ∀ x, (s.node x).connected = false → (s.node x).nextEvent = FOREVER_TAG)
    (hcur : ∀ i, i < T.n → (s.node i).connected = true → (s.node i).nextEvent ≠ NEVER_TAG ∧ Settled T start i s)
    (hsome : ∃ i, i < T.n ∧ (s.node i).connected = true ∧ (s.node i).nextEvent < FOREVER_TAG) :
    ∃ e, e < T.n ∧ (s.node e).connected = true ∧
      (∀ i, i < T.n → (s.node i).connected = true → (s.node e).nextEvent ≤ (s.node i).nextEvent) ∧
      (s.node e).nextEvent ≤ (s.node e).lastGranted := by
  obtain ⟨i, hi, hic, hiF⟩ := hsome
  obtain ⟨e, he, hec, hmin, hleast⟩ := exists_least (n := T.n) (fun i => (s.node i).nextEvent)
    (fun x e => ∃ ws, Path T (fun _ => true) e x ws ∧ ∀ w ∈ ws, w < 0)
    (by
      rintro a b c ⟨ws, h1, h2⟩ ⟨vs, k1, k2⟩
      refine ⟨ws ++ vs, h1.append k1, fun w hw => ?_⟩
      rcases List.mem_append.1 hw with m | m
      · exact h2 w m
      · exact k2 w m)
    (by
      rintro a ⟨ws, h1, h2⟩
      obtain ⟨w, h3, h4⟩ := hz a ws h1
      have := h2 w h3
      omega)
    (fun i => (s.node i).connected = true) ⟨i, hi, hic⟩
  refine ⟨e, he, hec, hmin, ?_⟩
  have hF : (s.node e).nextEvent < FOREVER_TAG := Tag.lt_of_le_of_lt (hmin i hi hic) hiF
  obtain ⟨hne, hs⟩ := hcur e he hec
  rcases hs with k | k | k | ⟨conn, x, k1, k2⟩
  · rw [hec] at k; cases k
  · exact absurd (Tag.lt_of_lt_of_le hF k) (Tag.lt_irrefl _)
  · exact k
  · exfalso
    obtain ⟨hdel, hroom⟩ := @room_delays T hT conn e he x
    obtain ⟨g, _⟩ := searchFrom_spec (conn := conn) hT he
    have hent := g.entry x
    rcases hent with m | ⟨hx, _, _, ws, hp, hpd, _⟩
    · rw [m] at k1; exact Tag.lt_irrefl _ k1
    by_cases hxc : (s.node x).connected = true
    · obtain ⟨hxne, _⟩ := hcur x hx hxc
      have heff : eff start s x = (s.node x).nextEvent := by unfold eff; rw [if_neg hxne]
      rw [heff] at k2
      obtain ⟨m1, m2⟩ := add_le_self (hsane x hxne) hdel hroom (hmin x hx hxc) hF k2
      rw [← hpd, pathDelay_zero] at m2
      exact hleast x hx hxc m1 ⟨ws, hp.all, m2⟩
    · have hgone := hgone x (by simpa using hxc)
      have heff : eff start s x = FOREVER_TAG := by
        unfold eff; rw [hgone]; rfl
      rw [heff, add_forever_left hdel] at k2
      exact Tag.lt_irrefl _ (Tag.lt_of_lt_of_le hF k2)

/-- C27.  In a federation without zero-delay cycles, in every state reached without a failure of a socket and before a stop
is requested: if the RTI has handled a next event tag of each connected federate, and not all of them have the end of time
as their next event, then among the federates with the least next event tag (as known to the RTI: the tag reported last,
or that of an earlier message on its way) there is one that can go on: either it has no upstream federates, so that it
waits for no grant, or the RTI has sent it `TAG(g)` with `g` not earlier than its next event tag. -/
theorem C27_somebody_can_go_on (hT : T.Ok) (hD : T.DownOk) (hK : T.Consistent) (hz : T.NoZeroDelayCycle) (h0 : 0 ≤ start)
    (h1 : start < FOREVER) {σ : Sys} {R : Nat → Bool} (h : Run T start σ R)
    (hheard : ∀ i, i < T.n → (σ.rti.node i).connected = true → R i = true)
    (hsome : ∃ i, i < T.n ∧ (σ.rti.node i).connected = true ∧ (σ.rti.node i).nextEvent < FOREVER_TAG) :
    ∃ e, e < T.n ∧ (σ.rti.node e).connected = true ∧
      (∀ i, i < T.n → (σ.rti.node i).connected = true → (σ.rti.node e).nextEvent ≤ (σ.rti.node i).nextEvent) ∧
      (T.up e = [] ∨ ∃ g, Down.tag g ∈ σ.rti.out e ∧ (σ.rti.node e).nextEvent ≤ g) := by
  obtain ⟨p, hR, c⟩ := h.current hT hD hz hK h0 h1
  obtain ⟨β, sv⟩ := h.reach.inv hT hD h0 h1
  have hsane : ∀ x, (σ.rti.node x).nextEvent ≠ NEVER_TAG → Sane T (σ.rti.node x).nextEvent := fun x hx =>
    (sv.rti.next x).1.resolve_left hx
  obtain ⟨e, he, hec, hmin, hg⟩ := least_granted hT hz hsane p.gone (fun i hi hic => c i (hheard i hi hic)) hsome
  refine ⟨e, he, hec, hmin, ?_⟩
  by_cases hu : T.up e = []
  · exact .inl hu
  right
  rcases p.sent e hu with m | m
  · rw [m] at hg
    have := (hsane e (c e (hheard e he hec)).1).time
    have : NEVER_TAG.time < 0 := by decide
    exfalso; tag_omega
  · exact ⟨_, m, hg⟩

end

/-! ## A run that meets the hypotheses -/

def runAll (T : Topology) (start : Int) : Sys × (Nat → Bool) → List Act → Option (Sys × (Nat → Bool))
  | x, [] => some x
  | x, a :: l => match exec T start x.1 a with
    | some σ' => runAll T start (σ', hears x.1 a x.2) l
    | none => none

theorem runAll_run {T : Topology} {start : Int} {l : List Act} : ∀ {x y : Sys × (Nat → Bool)}, Run T start x.1 x.2 →
    runAll T start x l = some y → Run T start y.1 y.2 := by
  induction l with
  | nil => intro x y hx h; unfold runAll at h; cases h; exact hx
  | cons a l ih =>
    intro x y hx h
    unfold runAll at h
    split at h
    · rename_i σ' e; exact ih (x := (σ', hears x.1 a x.2)) (.step a hx e) h
    · cases h

theorem grantDemo_consistent : grantDemo.Consistent := by
  intro i u w h
  unfold grantDemo at h ⊢; dsimp only at h ⊢
  repeat' split at h
  all_goals simp at h
  all_goals (rcases h with h | h)
  all_goals simp_all

theorem grantDemo_cycles : grantDemo.NoZeroDelayCycle := by
  intro e ws hp
  by_contra hn
  have key : ∀ {u : Nat} {ws : List Int}, Path grantDemo (fun _ => true) e u ws → (∀ w ∈ ws, w < 0) → e = 1 ∧ u ≠ 1 := by
    have up : ∀ i u w, (u, w) ∈ grantDemo.up i → w < 0 → i = 1 ∧ u ≠ 1 := by
      intro i u w h hw
      unfold grantDemo at h; dsimp only at h
      repeat' split at h
      all_goals simp at h
      all_goals omega
    intro u ws h
    induction h with
    | last u w _ hm => intro hw; exact up _ _ _ hm (hw w (by simp))
    | step u i w ws _ hm _ ih =>
      intro hw
      have := up _ _ _ hm (hw w (by simp))
      have := ih (fun v hv => hw v (by simp [hv]))
      omega
  have := key hp (fun w hw => by
    by_contra hc; exact hn ⟨w, hw, by omega⟩)
  exact this.2 this.1

/-- The hypotheses of `C27_somebody_can_go_on` are met, in a federation with a cycle, in a state in which the federate with
the least next event tag is one that depends on others: 1 waits for 6 while 0 and 2 wait for 9 and 7. -/
example : ∃ σ R, Run grantDemo 0 σ R ∧
    ((List.range 3).all fun i => R i && (σ.rti.node i).connected) = true ∧
    ((List.range 3).map fun i => (σ.rti.node i).nextEvent) = [⟨9, 0⟩, ⟨6, 0⟩, ⟨7, 0⟩] ∧
    Down.tag ⟨6, 0⟩ ∈ σ.rti.out 1 := by
  have h : (runAll grantDemo 0 (initSys 0, fun _ => false) grantRun).map (fun x =>
      ((List.range 3).all fun i => x.2 i && (x.1.rti.node i).connected,
       (List.range 3).map fun i => (x.1.rti.node i).nextEvent,
       decide (Down.tag ⟨6, 0⟩ ∈ x.1.rti.out 1))) =
      some (true, [⟨9, 0⟩, ⟨6, 0⟩, ⟨7, 0⟩], true) := by decide +kernel
  rw [Option.map_eq_some_iff] at h
  obtain ⟨⟨σ, R⟩, h1, h2⟩ := h
  simp only [Prod.mk.injEq, decide_eq_true_eq] at h2
  exact ⟨σ, R, runAll_run .init h1, h2.1, h2.2.1, h2.2.2⟩

end ReactorC.Rti
