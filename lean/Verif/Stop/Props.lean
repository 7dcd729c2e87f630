import Verif.Stop.Run
import Verif.Stop.Left

/-!
# C28: the federation agrees on one stop tag

The specification below is in terms of the messages on the sockets and of the tags the federates reach.
-/

namespace ReactorC.Stop
open ReactorC

/-! ## Specification -/

/-- Federate `i` has told the RTI that it can stop at tag `t` (in a stop request of its own or in a reply). -/
def Proposed (y : Sys) (i : Nat) (t : Tag) : Prop := .request t ∈ y.sent i ∨ .reply t ∈ y.sent i

/-- The RTI has sent federate `i` the stop tag `t`. -/
def Granted (y : Sys) (i : Nat) (t : Tag) : Prop := .granted t ∈ y.rti.out i

/-- Federate `i` has received the stop tag `t`. -/
def Accepted (y : Sys) (i : Nat) (t : Tag) : Prop := .granted t ∈ (y.rti.out i).take (y.taken i)

/-- Federate `i` has left the federation. -/
def Resigned (y : Sys) (i : Nat) : Prop := .resign ∈ y.sent i

/-- No message is under way and no thread is in the middle of the stop protocol. -/
structure Quiet (n : Nat) (y : Sys) : Prop where
  caller : ∀ i < n, (y.fed i).rq = .idle ∨ (y.fed i).rq = .done
  listener : ∀ i < n, (y.fed i).rx = .idle
  toRti : ∀ i < n, y.heard i = (y.sent i).length
  fromRti : ∀ i < n, y.taken i = (y.rti.out i).length

/-! ## A second invariant: what the RTI has heard from federates that have left, and that somebody has begun -/

structure EInv (n : Nat) (y : Sys) : Prop where
  begun : y.rti.granted = true ∨ y.rti.inProgress = true → ∃ i < n, y.counted i ≠ []
  last : ∀ i < n, ∀ k, (y.sent i)[k]? = some .resign → k + 1 = (y.sent i).length
  gone : ∀ i < n, y.rti.connected i = false → y.heard i = (y.sent i).length
  left : ∀ i < n, y.rti.connected i = false → .resign ∈ y.sent i

theorem counted_mono {y z : Sys} {j : Nat} (h1 : z.heard j = y.heard j) (h2 : ∃ l, z.sent j = y.sent j ++ l)
    (h3 : y.heard j ≤ (y.sent j).length) : z.counted j = y.counted j := by
  obtain ⟨l, hl⟩ := h2
  unfold Sys.counted
  rw [h1, hl, List.take_append_of_le_length h3]

theorem EInv.set {n : Nat} {stop : Nat → Tag} {y z : Sys} (s : SInv n stop y) (e : EInv n y) {i : Nat} (hi : i < n) (f : Fed)
    (ms : List Msg) (hup : (y.fed i).alive = true) (hms : ms.length ≤ 1) (h1 : z.rti = y.rti) (h2 : z.heard = y.heard)
    (h4 : z.sent = (y.set i f ms).sent) : EInv n z := by
  have hf := s.feds i hi
  have hc : ∀ j, j < n → z.counted j = y.counted j := by
    intro j hj
    refine counted_mono (by rw [h2]) ?_ (s.feds j hj).heard
    rw [h4]
    by_cases hji : j = i
    · subst hji; exact ⟨ms, by simp [Sys.set]⟩
    · exact ⟨[], by simp [Sys.set, hji]⟩
  refine ⟨?_, ?_, ?_, ?_⟩
  · rw [h1]
    intro h
    obtain ⟨j, hj, hne⟩ := e.begun h
    exact ⟨j, hj, by rw [hc j hj]; exact hne⟩
  · intro j hj k hk
    rw [h4] at hk ⊢
    by_cases hji : j = i
    · subst hji
      simp only [Sys.set, upd_same] at hk ⊢
      rw [List.getElem?_append] at hk
      split at hk
      · exact absurd (List.mem_of_getElem? hk) (hf.notGone hup)
      · rename_i hlt
        have := lt_of_get hk
        rw [List.length_append]
        omega
    · simp only [Sys.set] at hk ⊢
      rw [upd_ne _ _ hji] at hk ⊢
      exact e.last j hj k hk
  · intro j hj hcj
    rw [h1] at hcj
    by_cases hji : j = i
    · subst hji
      rcases hf.here with h | h
      · rw [hcj] at h; cases h
      · rw [hup] at h; cases h
    · rw [h2, h4]
      simp only [Sys.set]
      rw [upd_ne _ _ hji]
      exact e.gone j hj hcj
  · intro j hj hcj
    rw [h1] at hcj
    by_cases hji : j = i
    · subst hji
      rcases hf.here with h | h
      · rw [hcj] at h; cases h
      · rw [hup] at h; cases h
    · rw [h4]
      simp only [Sys.set]
      rw [upd_ne _ _ hji]
      exact e.left j hj hcj

theorem EInv.step {n : Nat} {stop : Nat → Tag} {y z : Sys} (s : SInv n stop y) (e : EInv n y) (h : Step n y z) :
    EInv n z := by
  cases h with
  | act i b hi hup _ _ => exact e.set s hi _ [] hup.1 (by simp) rfl rfl rfl
  | callStop i hi hup => exact e.set s hi _ [] hup.1 (by simp) rfl rfl rfl
  | raiseOwn i hi hup _ => exact e.set s hi _ [] hup.1 (by simp) rfl rfl rfl
  | sendOwn i c hi hup _ =>
    refine e.set s hi _ _ hup.1 ?_ rfl rfl rfl
    unfold sendOwn; split <;> simp
  | takeRequest i t hi hup _ _ => exact e.set s hi { y.fed i with rx := .got t } [] hup.1 (by simp) rfl rfl rfl
  | takeGrant i t hi hup _ _ => exact e.set s hi (takeGrant (y.fed i) t) [] hup.1 (by simp) rfl rfl rfl
  | check i t hi hup _ => exact e.set s hi _ [] hup.1 (by simp) rfl rfl rfl
  | countOnce i t a hi hup _ => exact e.set s hi _ [] hup.1 (by simp) rfl rfl rfl
  | raiseAsked i t hi hup _ => exact e.set s hi _ [] hup.1 (by simp) rfl rfl rfl
  | sendReply i t hi hup _ => exact e.set s hi _ _ hup.1 (by simp) rfl rfl rfl
  | resign i hi hup => exact e.set s hi _ _ hup.1 (by simp) rfl rfl rfl
  | hear i m hi hc hm =>
    have hlt := lt_of_get hm
    have hcount : ∀ j, ((({ y with rti := handle n y.rti i m, heard := upd y.heard i (y.heard i + 1) } : Sys)).counted j) =
        y.counted j ++ (if j = i then [m].filterMap propTag else []) := by
      intro j
      unfold Sys.counted
      by_cases hji : j = i
      · subst hji
        simp only [upd_same, if_true]
        rw [take_succ hm, List.filterMap_append]
      · simp only []
        rw [upd_ne _ _ hji, if_neg hji, List.append_nil]
    refine ⟨?_, e.last, ?_, ?_⟩
    · intro h
      cases m with
      | request t => exact ⟨i, hi, by rw [hcount]; simp [propTag]⟩
      | reply t => exact ⟨i, hi, by rw [hcount]; simp [propTag]⟩
      | granted t =>
        obtain ⟨j, hj, hne⟩ := e.begun h
        exact ⟨j, hj, by rw [hcount]; simp [hne]⟩
      | resign =>
        obtain ⟨j, hj, hne⟩ := e.begun h
        exact ⟨j, hj, by rw [hcount]; simp [hne]⟩
    · intro j hj hcj
      by_cases hji : j = i
      · subst hji
        simp only [upd_same]
        by_cases hmr : m = .resign
        · subst hmr; exact e.last j hj _ hm
        · rw [handle_connected n y.rti j m hmr, hc] at hcj; cases hcj
      · simp only []
        rw [upd_ne _ _ hji]
        refine e.gone j hj ?_
        by_cases hmr : m = .resign
        · subst hmr
          simp only [handle] at hcj
          rwa [upd_ne _ _ hji] at hcj
        · rwa [handle_connected n y.rti i m hmr] at hcj
    · intro j hj hcj
      by_cases hji : j = i
      · subst hji
        by_cases hmr : m = .resign
        · subst hmr; exact List.mem_of_getElem? hm
        · rw [handle_connected n y.rti j m hmr, hc] at hcj; cases hcj
      · refine e.left j hj ?_
        by_cases hmr : m = .resign
        · subst hmr
          simp only [handle] at hcj
          rwa [upd_ne _ _ hji] at hcj
        · rwa [handle_connected n y.rti i m hmr] at hcj

theorem reach_EInv {n : Nat} {cur stop : Nat → Tag} {q : Nat → List Tag} (h : Start n cur stop) {y : Sys}
    (r : Reach n cur stop q y) : EInv n y := by
  induction r with
  | boot =>
    refine ⟨?_, ?_, ?_, ?_⟩
    · rintro (h | h) <;> cases h
    · intro i _ k hk; simp [boot] at hk
    · intro i _ hc; cases hc
    · intro i _ hc; cases hc
  | step r st ih => exact ih.step (reach_SInv h r) st

/-! ## From the invariants to the messages -/

theorem mem_props {y : Sys} {i : Nat} {t : Tag} : t ∈ y.props i ↔ Proposed y i t := by
  unfold Sys.props Proposed
  rw [List.mem_filterMap]
  constructor
  · rintro ⟨m, hm, h⟩
    cases m with
    | request t' => simp only [propTag, Option.some.injEq] at h; subst h; exact Or.inl hm
    | reply t' => simp only [propTag, Option.some.injEq] at h; subst h; exact Or.inr hm
    | granted t' => cases h
    | resign => cases h
  · rintro (h | h)
    · exact ⟨_, h, rfl⟩
    · exact ⟨_, h, rfl⟩

theorem props_length {y : Sys} {i : Nat} {stop : Tag} (f : FInv y stop i) : (y.props i).length ≤ 1 := by
  cases f.phase with
  | sent t1 p1 p2 p3 p4 p5 p6 p7 => rw [p5]; simp
  | fresh p1 p2 p3 p4 p5 => rw [p5]; simp
  | flagged p1 p2 p3 p4 p5 => rw [p5]; simp
  | raised c p1 p2 p3 p4 p5 => rw [p5]; simp
  | checked c p1 p2 p3 p4 p5 => rw [p5]; simp
  | counted c p1 p2 p3 p4 p5 => rw [p5]; simp
  | blocked c p1 p2 p3 p4 p5 => rw [p5]; simp

theorem props_low {y : Sys} {i : Nat} {stop : Tag} (f : FInv y stop i) {t : Tag} (h : t ∈ y.props i) : NEVER_TAG < t := by
  cases f.phase with
  | sent t1 p1 p2 p3 p4 p5 p6 p7 => rw [p5, List.mem_singleton] at h; subst h; exact p6
  | fresh p1 p2 p3 p4 p5 => rw [p5] at h; cases h
  | flagged p1 p2 p3 p4 p5 => rw [p5] at h; cases h
  | raised c p1 p2 p3 p4 p5 => rw [p5] at h; cases h
  | checked c p1 p2 p3 p4 p5 => rw [p5] at h; cases h
  | counted c p1 p2 p3 p4 p5 => rw [p5] at h; cases h
  | blocked c p1 p2 p3 p4 p5 => rw [p5] at h; cases h

theorem one_eq {α : Type} {l : List α} (h : l.length ≤ 1) {a b : α} (ha : a ∈ l) (hb : b ∈ l) : a = b := by
  match l, h with
  | [], _ => cases ha
  | [c], _ => rw [List.mem_singleton] at ha hb; rw [ha, hb]

/-- Once the RTI has granted, it has handled everything the federates have proposed. -/
theorem all_counted {n : Nat} {stop : Nat → Tag} {y : Sys} (s : SInv n stop y) (e : EInv n y) (hg : y.rti.granted = true)
    {j : Nat} (hj : j < n) {t : Tag} (ht : t ∈ y.props j) : t ∈ y.counted j := by
  cases hc : y.rti.connected j with
  | true =>
    rcases s.rti.core.why j hj (s.rti.core.grants.1 hg j hj) with h | h
    · rw [hc] at h; cases h
    · obtain ⟨t', ht'⟩ := List.exists_mem_of_ne_nil _ h
      rw [one_eq (props_length (s.feds j hj)) ht (counted_sub y j ht')]
      exact ht'
  | false =>
    have := e.gone j hj hc
    unfold Sys.counted
    rw [this, List.take_length]
    exact ht

theorem stopOf_all {t : Tag} {l : List Msg} (h : ∀ g, .granted g ∈ l → g = t) (stop : Tag) (hs : .granted t ∈ l ∨ stop ≤ t) :
    stopOf stop l = if t < stop then t else stop := by
  induction l generalizing stop with
  | nil =>
    rcases hs with hs | hs
    · cases hs
    · rw [if_neg (Tag.not_lt.2 hs)]; rfl
  | cons m l ih =>
    have ih' := ih (fun g hg => h g (List.mem_cons_of_mem _ hg))
    cases m with
    | granted g =>
      obtain rfl := h g List.mem_cons_self
      simp only [stopOf]
      have hle : (if g < stop then g else stop) ≤ g := by
        split
        · exact Tag.le_refl _
        · rename_i hh; exact Tag.not_lt.1 hh
      rw [ih' _ (Or.inr hle), if_neg (Tag.not_lt.2 hle)]
    | request g =>
      simp only [stopOf]
      refine ih' stop ?_
      rcases hs with hs | hs
      · rw [List.mem_cons] at hs; rcases hs with hs | hs
        · cases hs
        · exact Or.inl hs
      · exact Or.inr hs
    | reply g =>
      simp only [stopOf]
      refine ih' stop ?_
      rcases hs with hs | hs
      · rw [List.mem_cons] at hs; rcases hs with hs | hs
        · cases hs
        · exact Or.inl hs
      · exact Or.inr hs
    | resign =>
      simp only [stopOf]
      refine ih' stop ?_
      rcases hs with hs | hs
      · rw [List.mem_cons] at hs; rcases hs with hs | hs
        · cases hs
        · exact Or.inl hs
      · exact Or.inr hs

/-! ## The theorems

In each of them `n` federates (any number, at least one) begin at any tags `cur i` that are not later than their stop tags
`stop i`, with any events `q i`; `y` is any state that any interleaving of their threads and those of the RTI leads to. -/

variable {n : Nat} {cur stop : Nat → Tag} {q : Nat → List Tag} {y : Sys}

/-- **C28** The RTI grants one stop tag only: whoever is sent one is sent the same. -/
theorem C28_one_stop_tag (h0 : Start n cur stop) (r : Reach n cur stop q y) {i j : Nat} {t t' : Tag} (hi : Granted y i t)
    (hj : Granted y j t') : t = t' := by
  have s := reach_SInv h0 r
  rw [(s.rti.core.grant i t hi).2, (s.rti.core.grant j t' hj).2]

/-- **C28** The tag granted has been proposed by some federate, and no federate has proposed a later one. -/
theorem C28_granted_tag_is_the_latest_proposed (h0 : Start n cur stop) (r : Reach n cur stop q y) {i : Nat} {t : Tag}
    (h : Granted y i t) :
    (∃ j < n, Proposed y j t) ∧ ∀ j < n, ∀ t', Proposed y j t' → t' ≤ t := by
  have s := reach_SInv h0 r
  have e := reach_EInv h0 r
  obtain ⟨hg, rfl⟩ := s.rti.core.grant i t h
  refine ⟨?_, ?_⟩
  · rcases s.rti.core.max with hm | ⟨j, hm⟩
    · exfalso
      obtain ⟨j, hj, hne⟩ := e.begun (Or.inl hg)
      obtain ⟨t', ht'⟩ := List.exists_mem_of_ne_nil _ hne
      have h1 := props_low (s.feds j hj) (counted_sub y j ht')
      have h2 := (s.rti.core.known j t' ht').2.2
      rw [hm] at h2
      exact Tag.not_lt.2 h2 h1
    · exact ⟨j, (s.rti.core.known j _ hm).1, mem_props.1 (counted_sub y j hm)⟩
  · intro j hj t' ht'
    exact (s.rti.core.known j t' (all_counted s e hg hj (mem_props.2 ht'))).2.2

/-- **C28** A stop tag is granted only when every federate has proposed one or has left. -/
theorem C28_granted_only_when_all_have_answered (h0 : Start n cur stop) (r : Reach n cur stop q y) {i : Nat} {t : Tag}
    (h : Granted y i t) : ∀ j < n, (∃ t', Proposed y j t') ∨ Resigned y j := by
  have s := reach_SInv h0 r
  have e := reach_EInv h0 r
  obtain ⟨hg, rfl⟩ := s.rti.core.grant i t h
  intro j hj
  rcases s.rti.core.why j hj (s.rti.core.grants.1 hg j hj) with h | h
  · exact Or.inr (e.left j hj h)
  · obtain ⟨t', ht'⟩ := List.exists_mem_of_ne_nil _ h
    exact Or.inl ⟨t', mem_props.1 (counted_sub y j ht')⟩

/-- **C28** Nobody is sent two stop tags or asked to stop twice, and nobody proposes twice. -/
theorem C28_at_most_once (h0 : Start n cur stop) (r : Reach n cur stop q y) {i : Nat} (hi : i < n) :
    ((y.rti.out i).filter (fun m => m matches .granted _)).length ≤ 1 ∧
    ((y.rti.out i).filter (fun m => m matches .request _)).length ≤ 1 ∧
    ((y.sent i).filter (fun m => m matches .request _ | .reply _)).length ≤ 1 := by
  have s := reach_SInv h0 r
  refine ⟨?_, ?_, ?_⟩
  · have := s.rti.core.once i
    rw [List.countP_eq_length_filter] at this
    refine Nat.le_trans (Nat.le_of_eq (congrArg List.length (List.filter_congr ?_))) this
    intro m _; cases m <;> rfl
  · have := s.rti.core.askOnce i
    rw [List.countP_eq_length_filter] at this
    refine Nat.le_trans (Nat.le_of_eq (congrArg List.length (List.filter_congr ?_))) this
    intro m _; cases m <;> rfl
  · have := props_length (s.feds i hi)
    refine Nat.le_trans (Nat.le_of_eq ?_) this
    unfold Sys.props
    generalize y.sent i = l
    induction l with
    | nil => rfl
    | cons m l ih => cases m <;> simp [propTag, List.filterMap_cons, ih]

/-- **C28** No federate that is still there is ever past the tag granted, whether it has received it yet or not; and one that
has not received it has not reached it, so that it can still stop there. -/
theorem C28_nobody_is_past_the_stop_tag (h0 : Start n cur stop) (r : Reach n cur stop q y) {i : Nat} {t : Tag}
    (h : Granted y i t) : ∀ j < n, (y.fed j).alive = true →
      (y.fed j).b.cur ≤ t ∧ (¬ Accepted y j t → (y.fed j).b.cur < t) := by
  have s := reach_SInv h0 r
  have e := reach_EInv h0 r
  obtain ⟨hg, rfl⟩ := s.rti.core.grant i t h
  intro j hj ha
  have fj := s.feds j hj
  have hgot : ∀ g, .granted g ∈ y.got j → g = y.rti.maxStop := fun g hh => (s.rti.core.grant j g (got_sub y j hh)).2
  by_cases hacc : Accepted y j y.rti.maxStop
  · refine ⟨?_, fun h => absurd hacc h⟩
    have := fj.env.le
    rw [fj.env.same, stopOf_all hgot (stop j) (Or.inl hacc)] at this
    refine Tag.le_trans this ?_
    split
    · exact Tag.le_refl _
    · rename_i hh; exact Tag.not_lt.1 hh
  · have hlt : (y.fed j).b.cur < y.rti.maxStop := by
      have hcon : y.rti.connected j = true := by
        rcases fj.here with h' | h'
        · exact h'
        · rw [ha] at h'; cases h'
      rcases s.rti.core.why j hj (s.rti.core.grants.1 hg j hj) with h | h
      · rw [hcon] at h; cases h
      · obtain ⟨t', ht'⟩ := List.exists_mem_of_ne_nil _ h
        have hp := counted_sub y j ht'
        have hle := (s.rti.core.known j t' ht').2.2
        cases fj.phase with
        | sent t1 p1 p2 p3 p4 p5 p6 p7 =>
          rw [p5, List.mem_singleton] at hp
          subst hp
          rcases p7 with p7 | ⟨g, p7⟩
          · exact Tag.lt_of_lt_of_le (p7.lt fj.env.reach) hle
          · exact absurd (hgot g p7 ▸ p7) hacc
        | fresh p1 p2 p3 p4 p5 => rw [p5] at hp; cases hp
        | flagged p1 p2 p3 p4 p5 => rw [p5] at hp; cases hp
        | raised c p1 p2 p3 p4 p5 => rw [p5] at hp; cases hp
        | checked c p1 p2 p3 p4 p5 => rw [p5] at hp; cases hp
        | counted c p1 p2 p3 p4 p5 => rw [p5] at hp; cases hp
        | blocked c p1 p2 p3 p4 p5 => rw [p5] at hp; cases hp
    exact ⟨Tag.le_of_lt hlt, fun _ => hlt⟩

/-- **C28** The stop tag of a federate that has received the tag granted is that tag, or its own timeout if that is earlier;
before, it is its own timeout.  So federates without timeouts all stop at the same tag. -/
theorem C28_all_stop_at_the_granted_tag (h0 : Start n cur stop) (r : Reach n cur stop q y) {i : Nat} (hi : i < n) :
    (∀ t, Accepted y i t → (y.fed i).b.stop = if t < stop i then t else stop i) ∧
    ((∀ t, ¬ Accepted y i t) → (y.fed i).b.stop = stop i) ∧ (y.fed i).b.cur ≤ (y.fed i).b.stop := by
  have s := reach_SInv h0 r
  have f := s.feds i hi
  refine ⟨?_, ?_, f.env.le⟩
  · intro t ht
    rw [f.env.same]
    refine stopOf_all ?_ _ (Or.inl ht)
    intro g hg
    rw [(s.rti.core.grant i g (got_sub y i hg)).2, (s.rti.core.grant i t (got_sub y i ht)).2]
  · intro hno
    rw [f.env.same]
    generalize hl : y.got i = l
    have hno' : ∀ t, .granted t ∉ l := by intro t ht; exact hno t (by rw [← hl] at ht; exact ht)
    clear hl
    generalize stop i = st
    induction l with
    | nil => rfl
    | cons m l ih =>
      cases m with
      | granted g => exact absurd List.mem_cons_self (hno' g)
      | _ => simp only [stopOf]; exact ih (fun t ht => hno' t (List.mem_cons_of_mem _ ht))

/-- **C28** When a federate takes the tag granted, it is later than its current tag: the exception for a stop tag that has
been passed (federate.c:1389-1394), by which one federate would stop later than the others, is never made. -/
theorem C28_grant_arrives_in_time (h0 : Start n cur stop) (r : Reach n cur stop q y) {i : Nat} (hi : i < n) {t : Tag}
    (ha : (y.fed i).alive = true) (hm : (y.rti.out i)[y.taken i]? = some (.granted t)) : (y.fed i).b.cur < t := by
  have s := reach_SInv h0 r
  obtain ⟨t0, g1, g2, g3, _⟩ := s.grantAhead hi ha hm
  exact Tag.lt_of_lt_of_le (g3.lt (s.feds i hi).env.reach) g2

/-- **C28** The RTI, too, considers no event of a federate to lie beyond the tag granted. -/
theorem C28_rti_expects_nothing_later (h0 : Start n cur stop) (r : Reach n cur stop q y) {i j : Nat} {t : Tag}
    (h : Granted y i t) (hj : j < n) (hc : y.rti.connected j = true) : y.rti.nextEvent j ≤ t := by
  have s := reach_SInv h0 r
  obtain ⟨hg, rfl⟩ := s.rti.core.grant i t h
  exact s.rti.core.below hg j hj hc

/-- **C28** The protocol does not get stuck: if nobody leaves, then, when all threads have done what they can and all messages
have been received, a call of `lf_request_stop` by any federate has led every federate to a stop tag. -/
theorem C28_everybody_gets_a_stop_tag (h0 : Start n cur stop) (r : Reach n cur stop q y) (hq : Quiet n y)
    (ha : ∀ i < n, (y.fed i).alive = true) {i : Nat} (hi : i < n) (hs : (y.fed i).stopRequested = true) :
    ∃ t, ∀ j < n, Accepted y j t := by
  have s := reach_SInv h0 r
  have hcon : ∀ j < n, y.rti.connected j = true := by
    intro j hj
    rcases (s.feds j hj).here with h' | h'
    · exact h'
    · rw [ha j hj] at h'; cases h'
  have hgot : ∀ j < n, y.got j = y.rti.out j := by
    intro j hj; unfold Sys.got; rw [hq.fromRti j hj, List.take_length]
  -- whoever has requested to stop has been counted
  have key : ∀ j < n, (y.fed j).stopRequested = true → y.rti.requested j = true := by
    intro j hj hsj
    have hx := hq.listener j hj
    have hr := hq.caller j hj
    have hne : y.props j ≠ [] := by
      cases (s.feds j hj).phase with
      | sent t1 p1 p2 p3 p4 p5 p6 p7 => rw [p5]; simp
      | fresh p1 p2 p3 p4 p5 => rw [hsj] at p1; cases p1
      | flagged p1 p2 p3 p4 p5 => rw [p3] at hr; rcases hr with hr | hr <;> cases hr
      | raised c p1 p2 p3 p4 p5 => rw [p3] at hr; rcases hr with hr | hr <;> cases hr
      | checked c p1 p2 p3 p4 p5 => rw [hx] at p4; cases p4
      | counted c p1 p2 p3 p4 p5 => rw [hx] at p4; cases p4
      | blocked c p1 p2 p3 p4 p5 => rw [hx] at p4; cases p4
    obtain ⟨t, ht⟩ := List.exists_mem_of_ne_nil _ hne
    have : t ∈ y.counted j := by
      unfold Sys.counted; rw [hq.toRti j hj, List.take_length]; exact ht
    exact (s.rti.core.known j t this).2.1
  have hg : y.rti.granted = true := by
    rcases s.rti.begun i hi (key i hi hs) with h | h
    · refine s.rti.core.grants.2 ?_
      intro j hj
      rcases s.rti.asked h j hj (hcon j hj) with h' | ⟨t, h'⟩
      · exact h'
      · refine key j hj ?_
        rcases (s.feds j hj).tookRequest t (by rw [hgot j hj]; exact h') with h'' | ⟨t', h''⟩
        · exact h''
        · rw [hq.listener j hj] at h''; cases h''
    · exact h
  refine ⟨y.rti.maxStop, ?_⟩
  intro j hj
  have := s.rti.core.each hg j hj (hcon j hj)
  rw [← hgot j hj] at this
  exact this

/-- **C28** A federate that has received its stop tag, waits for no message and has no event before the stop tag executes the
stop tag next. -/
theorem C28_the_stop_tag_is_executed (h0 : Start n cur stop) (r : Reach n cur stop q y) {i : Nat} (hi : i < n)
    (ho : (y.fed i).b.out = []) (hlt : (y.fed i).b.cur < (y.fed i).b.stop) (hq : ∀ t ∈ (y.fed i).b.q, (y.fed i).b.stop ≤ t)
    (hF : (y.fed i).b.stop ≤ FOREVER_TAG) :
    (Barrier.next (y.fed i).b).cur = (y.fed i).b.stop ∧ (Barrier.next (y.fed i).b).failed = (y.fed i).b.failed := by
  have s := reach_SInv h0 r
  have f := s.feds i hi
  have inv := Barrier.reach_inv f.env.reach
  generalize (y.fed i).b = b at *
  have hear : ∀ l : List Tag, (∀ t ∈ l, b.stop ≤ t) → b.stop ≤ Barrier.earliest l := by
    intro l hl
    induction l with
    | nil => exact hF
    | cons a l ih =>
      unfold Barrier.earliest
      split
      · exact hl a List.mem_cons_self
      · exact ih (fun t ht => hl t (List.mem_cons_of_mem _ ht))
  have he := hear b.q hq
  have hn : Barrier.nextEvent b = b.stop := by
    unfold Barrier.nextEvent
    rcases Barrier.clamp_cases b.stop (Barrier.earliest b.q) with ⟨_, h⟩ | ⟨h1, h⟩
    · exact h
    · rw [h]; exact Tag.le_antisymm h1 he
  have hte : Barrier.tooEarly b = false := by
    unfold Barrier.tooEarly
    rw [decide_eq_false_iff_not]
    rintro ⟨_, h⟩
    rw [cmp_lt_zero] at h
    exact Tag.not_lt.2 (Tag.le_trans (Tag.le_of_lt hlt) he) h
  have hreq : b.requestors = 0 := by rw [inv.count, ho]; rfl
  have h1 : ¬ (0 : Int) < lf_tag_compare b.stop b.stop := by
    rw [cmp_gt_zero]; exact Tag.not_lt.2 (Tag.le_refl _)
  have h2 : ¬ (0 : Int) ≤ lf_tag_compare b.cur b.stop := by
    rw [cmp_ge_zero]; exact Tag.not_le.2 hlt
  have h3 : lf_tag_compare b.cur b.stop < 0 := by rw [cmp_lt_zero]; exact hlt
  unfold Barrier.next
  rw [hte, hn]
  simp only [Bool.false_eq_true, if_false, h1, hreq, if_true]
  unfold Barrier.finish
  simp [h2, h3]

/-- **C28** Once a federate has received its stop tag, the stop protocol does not keep it from advancing any more: every barrier
it has asked for has been given back. -/
theorem C28_barrier_is_given_back (h0 : Start n cur stop) (r : Reach n cur stop q y) {i : Nat} (hi : i < n) {t : Tag}
    (h : Accepted y i t) : ∀ b ∈ (y.fed i).b.out, b.id ≠ stopId := by
  have := (reach_LInv h0 r i hi).after ⟨t, h⟩
  unfold own at this
  rw [List.countP_eq_zero] at this
  intro b hb e
  exact this b hb (by simpa using e)

/-- **C28** From its proposal until it receives the stop tag, a federate is kept from advancing by exactly one barrier, which is
not later than the tag proposed. -/
theorem C28_barrier_is_held_until_granted (h0 : Start n cur stop) (r : Reach n cur stop q y) {i : Nat} (hi : i < n)
    {t : Tag} (hp : Proposed y i t) (hn : ∀ g, ¬ Accepted y i g) :
    ((y.fed i).b.out.filter (fun b => decide (b.id = stopId))).length = 1 ∧
      ∃ b ∈ (y.fed i).b.out, b.id = stopId ∧ b.bar ≤ t := by
  have hng : ¬ ∃ g, .granted g ∈ y.got i := fun ⟨g, k⟩ => hn g k
  have hm : t ∈ y.props i := by
    unfold Sys.props
    rw [List.mem_filterMap]
    rcases hp with k | k
    · exact ⟨_, k, rfl⟩
    · exact ⟨_, k, rfl⟩
  refine ⟨?_, ?_⟩
  · rw [← List.countP_eq_length_filter]
    exact (reach_LInv h0 r i hi).during hng (.inr (.inr (List.ne_nil_of_mem hm)))
  · have hf := (reach_SInv h0 r).feds i hi
    have hb : HasBar (y.fed i).b t := by
      cases hf.phase with
      | sent t1 p1 p2 p3 p4 p5 p6 p7 =>
        rw [p5, List.mem_singleton] at hm
        subst hm
        exact p7.resolve_right hng
      | fresh p1 p2 p3 p4 p5 => rw [p5] at hm; cases hm
      | flagged p1 p2 p3 p4 p5 => rw [p5] at hm; cases hm
      | raised c p1 p2 p3 p4 p5 => rw [p5] at hm; cases hm
      | checked c p1 p2 p3 p4 p5 => rw [p5] at hm; cases hm
      | counted c p1 p2 p3 p4 p5 => rw [p5] at hm; cases hm
      | blocked c p1 p2 p3 p4 p5 => rw [p5] at hm; cases hm
    exact hb

/-! ## Examples -/

instance (y : Sys) (i : Nat) (t : Tag) : Decidable (Accepted y i t) := by unfold Accepted; infer_instance

/-- Three federates at different tags, two of which call `lf_request_stop` at the same time. -/
def exCur : Nat → Tag := fun i => ⟨100 * (i : Int), 0⟩
def exStop : Nat → Tag := fun _ => FOREVER_TAG
def exQ : Nat → List Tag := fun _ => []

theorem ex_start : Start 3 exCur exStop := by
  refine ⟨by decide, ?_, ?_, ?_⟩
  · intro i _; simp [exCur, NEVER_TAG, Tag.le_def, NEVER]; omega
  · intro i hi; simp [exCur, exStop, FOREVER_TAG, Tag.le_def, FOREVER]; omega
  · intro i _; simp [exCur, UINT_MAX]

def exOps : List Op :=
  [.callStop 0, .callStop 2, .raiseOwn 0, .raiseOwn 2, .sendOwn 0, .hear 0, .sendOwn 2, .take 1, .rx 1, .rx 1, .rx 1, .rx 1,
    .take 2, .rx 2, .rx 2, .hear 1, .hear 2, .take 0, .take 1, .take 2]

/-- All three stop at the next microstep of the latest of them. -/
example : ∃ y, Reach 3 exCur exStop exQ y ∧ ((List.range 3).all fun i =>
    decide (Accepted y i ⟨200, 1⟩) && decide ((y.fed i).b.stop = ⟨200, 1⟩) && (y.fed i).alive && decide ((y.fed i).b.out = []) &&
      decide ((y.fed i).b.cur < (y.fed i).b.stop) && decide ((y.fed i).rx = .idle) && decide (y.heard i = (y.sent i).length) &&
      decide (y.taken i = (y.rti.out i).length) && decide ((y.fed i).rq = .idle ∨ (y.fed i).rq = .done)) = true := by
  refine run_witness exOps _ ?_
  decide +kernel

/-- A federate has asked to stop and has not received the stop tag yet. -/
example : ∃ y, Reach 3 exCur exStop exQ y ∧ (decide (Msg.request ⟨0, 1⟩ ∈ y.sent 0) && decide (y.taken 0 = 0)) = true := by
  refine run_witness (exOps.take 8) _ ?_
  decide +kernel

/-- One of three federates leaves before it is asked: the other two stop. -/
example : ∃ y, Reach 3 exCur exStop exQ y ∧ ([0, 1].all fun i => decide (Accepted y i ⟨100, 1⟩)) = true := by
  refine run_witness [.resign 2, .hear 2, .callStop 0, .raiseOwn 0, .sendOwn 0, .hear 0, .take 1, .rx 1, .rx 1, .rx 1, .rx 1,
    .hear 1, .take 0, .take 1] _ ?_
  decide +kernel

/-! ## What the protocol does not do -/

theorem broadcast_same (n : Nat) (s : Rti) :
    (broadcast n s).requested = s.requested ∧ (broadcast n s).inProgress = s.inProgress := by
  cases h : s.granted with
  | true => unfold broadcast; rw [if_pos h]; exact ⟨rfl, rfl⟩
  | false => exact ⟨(broadcast_new n s h).2.2.1, (broadcast_new n s h).2.2.2.1⟩

theorem mark_same {n : Nat} (s : Rti) (f : Nat) :
    (∀ i, i ≠ f → (mark n s f).1.requested i = s.requested i) ∧ (mark n s f).1.inProgress = s.inProgress := by
  have h0 : ∀ s' : Rti, (∀ i, i ≠ f → s'.requested i = s.requested i) → s'.inProgress = s.inProgress →
      (∀ i, i ≠ f → (if s'.handling = n then (broadcast n s', true) else (s', false)).1.requested i = s.requested i) ∧
      (if s'.handling = n then (broadcast n s', true) else (s', false)).1.inProgress = s.inProgress := by
    intro s' h1 h2
    split
    · simp only []
      rw [(broadcast_same n s').1, (broadcast_same n s').2]
      exact ⟨h1, h2⟩
    · exact ⟨h1, h2⟩
  unfold mark
  simp only []
  split
  · exact h0 s (fun _ _ => rfl) rfl
  · exact h0 _ (fun i h => by simp [upd, h]) rfl

/-- While a stop is in progress, a message of federate `f` changes nothing about the other federates. -/
theorem handle_others {n : Nat} (s : Rti) (f : Nat) (m : Msg) (hp : s.inProgress = true) :
    (handle n s f m).inProgress = true ∧ ∀ i, i ≠ f →
      (handle n s f m).requested i = s.requested i ∧ (handle n s f m).connected i = s.connected i := by
  have hr : ∀ t, (mark n (raiseMax s t) f).1.inProgress = true ∧
      ∀ i, i ≠ f → (mark n (raiseMax s t) f).1.requested i = s.requested i := by
    intro t
    have h := mark_same (n := n) (raiseMax s t) f
    rw [raiseMax_eq s t] at h ⊢
    exact ⟨h.2.trans hp, h.1⟩
  have hm := mark_same (n := n) s f
  cases m with
  | request t =>
    have hcon := handle_connected n s f (.request t) (by simp)
    refine ⟨?_, fun i hi => ⟨?_, by rw [hcon]⟩⟩
    · simp only [handle, handleRequest]
      split
      · exact hm.2.trans hp
      · split
        · exact (hr t).1
        · rw [if_pos (hr t).1]; exact (hr t).1
    · simp only [handle, handleRequest]
      split
      · exact hm.1 i hi
      · split
        · exact (hr t).2 i hi
        · rw [if_pos (hr t).1]; exact (hr t).2 i hi
  | reply t =>
    have hcon := handle_connected n s f (.reply t) (by simp)
    exact ⟨(hr t).1, fun i hi => ⟨(hr t).2 i hi, by rw [hcon]⟩⟩
  | granted t => exact ⟨hp, fun i _ => ⟨rfl, rfl⟩⟩
  | resign => exact ⟨hp, fun i hi => ⟨rfl, by simp [handle, upd, hi]⟩⟩

/-- Steps of any number, from any state. -/
inductive From (n : Nat) (y : Sys) : Sys → Prop
  | refl : From n y y
  | step {z w : Sys} : From n y z → Step n z w → From n y w

/-- **C28** (limit) A federate that leaves after the RTI has asked it to stop, and before it has answered, is not counted any
more: then no stop tag is ever granted to anyone, and the federates that have proposed one wait at their current tags (until
the RTI gives up with an error). -/
theorem C28_leaving_without_an_answer_blocks_the_stop (h0 : Start n cur stop) (r : Reach n cur stop q y)
    (hp : y.rti.inProgress = true) {i : Nat} (hi : i < n) (hc : y.rti.connected i = false) (hr : y.rti.requested i = false)
    {z : Sys} (hz : From n y z) : ∀ j t, ¬ Granted z j t := by
  have key : Reach n cur stop q z ∧ z.rti.inProgress = true ∧ z.rti.connected i = false ∧ z.rti.requested i = false := by
    induction hz with
    | refl => exact ⟨r, hp, hc, hr⟩
    | step _ st ih =>
      obtain ⟨k1, k2, k3, k4⟩ := ih
      refine ⟨.step k1 st, ?_⟩
      cases st with
      | hear f m hf hcf hm =>
        have hne : i ≠ f := by rintro rfl; rw [k3] at hcf; cases hcf
        obtain ⟨g1, g2⟩ := handle_others (n := n) _ f m k2
        exact ⟨g1, (g2 i hne).2.trans k3, (g2 i hne).1.trans k4⟩
      | _ => exact ⟨k2, k3, k4⟩
  have s := reach_SInv h0 key.1
  intro j t hg
  have := s.rti.core.grants.1 (s.rti.core.grant j t hg).1 i hi
  rw [key.2.2.2] at this; cases this

/-- Federate 1 resigns while the stop request of federate 0 is under way: when nothing is left to be done, federate 0 has a
barrier and no stop tag. -/
example : ∃ y, Reach 3 exCur exStop exQ y ∧ (y.rti.inProgress && !(y.rti.connected 1) && !(y.rti.requested 1) &&
    (y.fed 0).alive && decide ((y.fed 0).b.out ≠ [])) = true := by
  refine run_witness [.callStop 0, .raiseOwn 0, .sendOwn 0, .resign 1, .hear 0, .hear 1] _ ?_
  decide +kernel

/-- **C28** (limit) A federate with several environments may propose a tag that one of its environments has passed already:
the counteroffer is computed from the first environment. -/
theorem C28_counteroffer_may_have_passed :
    ∃ first second t : Tag, counteroffer first [first, second] t < second :=
  ⟨⟨100, 0⟩, ⟨500, 0⟩, ⟨300, 0⟩, by decide⟩

/-- With one environment it has not. -/
theorem C28_counteroffer_is_ahead (c t : Tag) (h : c.microstep < UINT_MAX) : c < counteroffer c [c] t := by
  simp only [counteroffer]
  split
  · exact lt_nextStep h
  · rename_i h; rw [cmp_le_zero, Tag.not_le] at h; exact h

/-- (limit) At the last microstep the tag proposed by `lf_request_stop` has passed. -/
theorem C28_last_microstep_wraps : nextStep ⟨5, UINT_MAX⟩ < ⟨5, UINT_MAX⟩ := by decide

end ReactorC.Stop
