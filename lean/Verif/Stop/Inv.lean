import Verif.Stop.Feds

/-! # The invariant of the federation -/

namespace ReactorC.Stop
open ReactorC

/-- The tag proposed in a message to the RTI. -/
def propTag : Msg → Option Tag
  | .request t => some t
  | .reply t => some t
  | _ => none

/-- The tags federate `i` has proposed, and those of them the RTI has handled. -/
def Sys.props (y : Sys) (i : Nat) : List Tag := (y.sent i).filterMap propTag
def Sys.counted (y : Sys) (i : Nat) : List Tag := ((y.sent i).take (y.heard i)).filterMap propTag

/-- The messages federate `i` has taken. -/
def Sys.got (y : Sys) (i : Nat) : List Msg := (y.rti.out i).take (y.taken i)

/-- The listening thread is not about to count a stop request. -/
def Calm (rx : Rx) : Prop := rx = .idle ∨ (∃ t, rx = .got t) ∨ ∃ t, rx = .checked t true

/-- How far the stop protocol has got in a federate that has proposed `props`; `gr`: it has taken a grant. -/
inductive Phase (f : Fed) (props : List Tag) (gr : Prop) : Prop
  | fresh : f.stopRequested = false → f.received = false → f.rq = .idle → (f.rx = .idle ∨ ∃ t, f.rx = .got t) → props = [] →
      Phase f props gr
  | flagged : f.stopRequested = true → f.received = false → f.rq = .flagged → Calm f.rx → props = [] → Phase f props gr
  | raised (c : Tag) : f.stopRequested = true → f.received = false → f.rq = .raised c → Calm f.rx → props = [] →
      HasBar f.b (nextStep c) → NEVER_TAG < nextStep c → Phase f props gr
  | sent (t : Tag) : f.stopRequested = true → f.received = true → (f.rq = .done ∨ f.rq = .idle) → Calm f.rx → props = [t] →
      NEVER_TAG < t → (HasBar f.b t ∨ gr) → Phase f props gr
  | checked (t : Tag) : f.stopRequested = true → f.received = false → f.rq = .idle → f.rx = .checked t false → props = [] →
      Phase f props gr
  | counted (t : Tag) : f.stopRequested = true → f.received = true → f.rq = .idle → f.rx = .counted t → props = [] →
      Phase f props gr
  | blocked (t : Tag) : f.stopRequested = true → f.received = true → f.rq = .idle → f.rx = .blocked t → props = [] →
      HasBar f.b t → NEVER_TAG < t → Phase f props gr

/-- What the grants a federate has taken have made of its stop tag. -/
def stopOf (stop : Tag) : List Msg → Tag
  | [] => stop
  | .granted t :: l => stopOf (if t < stop then t else stop) l
  | _ :: l => stopOf stop l

theorem stopOf_append (stop : Tag) (l : List Msg) (m : Msg) :
    stopOf stop (l ++ [m]) = match m with
      | .granted t => if t < stopOf stop l then t else stopOf stop l
      | _ => stopOf stop l := by
  induction l generalizing stop with
  | nil => cases m <;> rfl
  | cons a l ih => cases a <;> simp only [List.cons_append, stopOf] <;> exact ih _

structure FInv (y : Sys) (stop : Tag) (i : Nat) : Prop where
  phase : Phase (y.fed i) (y.props i) (∃ t, .granted t ∈ y.got i)
  env : BOk (stopOf stop (y.got i)) (y.fed i).b
  here : y.rti.connected i = true ∨ (y.fed i).alive = false
  heard : y.heard i ≤ (y.sent i).length
  taken : y.taken i ≤ (y.rti.out i).length
  wasAsked : (y.fed i).rx ≠ .idle → ∃ t, .request t ∈ y.got i
  replied : ∀ t, .reply t ∈ y.sent i → ∃ t', .request t' ∈ y.got i
  tookRequest : ∀ t, .request t ∈ y.got i → (y.fed i).stopRequested = true ∨ ∃ t', (y.fed i).rx = .got t'
  notGone : (y.fed i).alive = true → .resign ∉ y.sent i
  owner : ∀ t, .granted t ∈ y.got i → (y.fed i).rq = .idle ∨ (y.fed i).rq = .done

structure SInv (n : Nat) (stop : Nat → Tag) (y : Sys) : Prop where
  rti : RInv n y.counted y.rti
  feds : ∀ i < n, FInv y (stop i) i

/-! ## Messages of the RTI are only added -/

theorem broadcast_ext (n : Nat) (s : Rti) (i : Nat) : ∃ l, (broadcast n s).out i = s.out i ++ l := by
  by_cases h : s.granted = true
  · unfold broadcast; rw [if_pos h]; exact ⟨[], by simp⟩
  · rw [(broadcast_new n s (by simpa using h)).2.2.2.2.2.2.1]
    split
    · exact ⟨_, rfl⟩
    · exact ⟨[], by simp⟩

theorem mark_ext (n : Nat) (s : Rti) (f i : Nat) : ∃ l, (mark n s f).1.out i = s.out i ++ l := by
  have h0 : ∀ s' : Rti, s'.out = s.out →
      ∃ l, (if s'.handling = n then (broadcast n s', true) else (s', false)).1.out i = s.out i ++ l := by
    intro s' hs
    split
    · rw [← hs]; exact broadcast_ext n s' i
    · exact ⟨[], by simp [hs]⟩
  unfold mark
  exact h0 _ (by split <;> rfl)

theorem forward_ext (n f : Nat) (tag : Tag) (k : Nat) (s : Rti) (i : Nat) :
    ∃ l, (forwardLoop n f tag k s).out i = s.out i ++ l := by
  induction k with
  | zero => exact ⟨[], by simp [forwardLoop]⟩
  | succ k ih =>
    obtain ⟨l, hl⟩ := ih
    unfold forwardLoop
    simp only []
    split
    · split
      · obtain ⟨l', hl'⟩ := mark_ext n (forwardLoop n f tag k s) k i
        exact ⟨l ++ l', by rw [hl', hl, List.append_assoc]⟩
      · by_cases hik : i = k
        · subst hik
          exact ⟨l ++ [.request tag], by simp [send, hl]⟩
        · exact ⟨l, by simp [send, hik, hl]⟩
    · exact ⟨l, hl⟩

theorem handle_ext (n : Nat) (s : Rti) (f : Nat) (m : Msg) (i : Nat) : ∃ l, (handle n s f m).out i = s.out i ++ l := by
  have hr : ∀ t, (raiseMax s t).out = s.out := fun t => (raiseMax_spec s t).2.2.2.2.2.1
  cases m with
  | request t =>
    unfold handle
    simp only []
    unfold handleRequest
    split
    · split
      · exact mark_ext n s f i
      · exact ⟨[], by simp⟩
    · simp only []
      obtain ⟨l, hl⟩ := mark_ext n (raiseMax s t) f i
      rw [hr] at hl
      split
      · exact ⟨l, hl⟩
      · split
        · exact ⟨l, hl⟩
        · obtain ⟨l', hl'⟩ := forward_ext n f (mark n (raiseMax s t) f).1.maxStop n
            { (mark n (raiseMax s t) f).1 with inProgress := true } i
          exact ⟨l ++ l', by rw [hl']; simp only []; rw [hl, List.append_assoc]⟩
  | reply t =>
    obtain ⟨l, hl⟩ := mark_ext n (raiseMax s t) f i
    rw [hr] at hl
    exact ⟨l, hl⟩
  | granted t => exact ⟨[], by simp [handle]⟩
  | resign => exact ⟨[], by simp [handle]⟩

theorem broadcast_connected (n : Nat) (s : Rti) : (broadcast n s).connected = s.connected := by
  by_cases h : s.granted = true
  · unfold broadcast; rw [if_pos h]
  · exact (broadcast_new n s (by simpa using h)).2.2.2.2.2.1

theorem mark_connected (n : Nat) (s : Rti) (f : Nat) : (mark n s f).1.connected = s.connected := by
  have h0 : ∀ s' : Rti, s'.connected = s.connected →
      (if s'.handling = n then (broadcast n s', true) else (s', false)).1.connected = s.connected := by
    intro s' hs
    split
    · rw [← hs]; exact broadcast_connected n s'
    · exact hs
  unfold mark
  exact h0 _ (by split <;> rfl)

theorem forward_connected (n f : Nat) (tag : Tag) (k : Nat) (s : Rti) :
    (forwardLoop n f tag k s).connected = s.connected := by
  induction k with
  | zero => rfl
  | succ k ih =>
    unfold forwardLoop
    simp only []
    split
    · split
      · rw [mark_connected, ih]
      · simp only [send]; exact ih
    · exact ih

theorem handle_connected (n : Nat) (s : Rti) (f : Nat) (m : Msg) (hm : m ≠ .resign) :
    (handle n s f m).connected = s.connected := by
  have hr : ∀ t, (raiseMax s t).connected = s.connected := fun t => (raiseMax_spec s t).2.2.2.2.1
  cases m with
  | request t =>
    unfold handle
    simp only []
    unfold handleRequest
    split
    · split
      · exact mark_connected n s f
      · rfl
    · simp only []
      have h1 := (mark_connected n (raiseMax s t) f).trans (hr t)
      split
      · exact h1
      · split
        · exact h1
        · rw [forward_connected]; exact h1
  | reply t => exact (mark_connected n (raiseMax s t) f).trans (hr t)
  | granted t => rfl
  | resign => exact absurd rfl hm

/-! ## The steps of a federate -/

theorem FInv.congr {y z : Sys} {stop : Tag} {i : Nat} (h : FInv y stop i) (h1 : z.fed i = y.fed i)
    (h2 : z.sent i = y.sent i) (h3 : z.rti.connected i = y.rti.connected i) (h4 : z.got i = y.got i)
    (h5 : z.heard i ≤ (z.sent i).length) (h6 : z.taken i ≤ (z.rti.out i).length) : FInv z stop i := by
  refine ⟨?_, ?_, ?_, h5, h6, ?_, ?_, ?_, ?_, ?_⟩
  · unfold Sys.props; rw [h1, h2, h4]; exact h.phase
  · rw [h1, h4]; exact h.env
  · rw [h1, h3]; exact h.here
  · rw [h1, h4]; exact h.wasAsked
  · rw [h2, h4]; exact h.replied
  · rw [h1, h4]; exact h.tookRequest
  · rw [h1, h2]; exact h.notGone
  · rw [h1, h4]; exact h.owner

/-- A step of federate `i` needs to be looked at only for that federate. -/
theorem SInv.fedStep {n : Nat} {stop : Nat → Tag} {y z : Sys} (s : SInv n stop y) {i : Nat} (hi : i < n)
    (h1 : z.rti = y.rti) (h2 : z.heard = y.heard) (h3 : ∀ j, j ≠ i → z.fed j = y.fed j)
    (h4 : ∀ j, j ≠ i → z.taken j = y.taken j) (h5 : ∀ j, j ≠ i → z.sent j = y.sent j)
    (h6 : ∃ ms, z.sent i = y.sent i ++ ms) (f : FInv z (stop i) i) : SInv n stop z := by
  obtain ⟨ms, h6⟩ := h6
  have hcnt : z.counted = y.counted := by
    funext j
    unfold Sys.counted
    rw [h2]
    by_cases hj : j = i
    · subst hj
      rw [h6, List.take_append_of_le_length (s.feds j hi).heard]
    · rw [h5 j hj]
  refine ⟨by rw [hcnt, h1]; exact s.rti, ?_⟩
  intro j hj
  by_cases hji : j = i
  · subst hji; exact f
  · have fj := s.feds j hj
    refine fj.congr (h3 j hji) (h5 j hji) (by rw [h1]) ?_ ?_ ?_
    · unfold Sys.got; rw [h1, h4 j hji]
    · rw [h2, h5 j hji]; exact fj.heard
    · rw [h1, h4 j hji]; exact fj.taken

/-- A step of federate `i` that takes no message. -/
theorem SInv.set {n : Nat} {stop : Nat → Tag} {y : Sys} (s : SInv n stop y) {i : Nat} (hi : i < n) (f : Fed) (ms : List Msg)
    (hp : Phase f (y.props i ++ ms.filterMap propTag) (∃ t, .granted t ∈ y.got i)) (he : BOk (stopOf (stop i) (y.got i)) f.b)
    (ha : f.alive = (y.fed i).alive ∨ f.alive = false) (hw : f.rx ≠ .idle → (y.fed i).rx ≠ .idle)
    (hr : ∀ t, .reply t ∈ ms → (y.fed i).rx ≠ .idle)
    (ht : f.stopRequested = true ∨ f.stopRequested = (y.fed i).stopRequested ∧ f.rx = (y.fed i).rx)
    (hg : .resign ∈ ms → f.alive = false)
    (ho : ∀ t, .granted t ∈ y.got i → f.rq = .idle ∨ f.rq = .done) : SInv n stop (y.set i f ms) := by
  have hf := s.feds i hi
  have e1 : (y.set i f ms).fed i = f := by simp [Sys.set]
  have e2 : (y.set i f ms).sent i = y.sent i ++ ms := by simp [Sys.set]
  have e3 : (y.set i f ms).got i = y.got i := rfl
  have e4 : (y.set i f ms).props i = y.props i ++ ms.filterMap propTag := by
    unfold Sys.props; rw [e2, List.filterMap_append]
  refine s.fedStep hi rfl rfl (fun j hj => by simp [Sys.set, hj]) (fun _ _ => rfl) (fun j hj => by simp [Sys.set, hj])
    ⟨ms, e2⟩ ⟨?_, ?_, ?_, ?_, hf.taken, ?_, ?_, ?_, ?_, ?_⟩
  · rw [e1, e4]; exact hp
  · rw [e1]; exact he
  · rw [e1]
    rcases ha with ha | ha
    · rw [ha]; exact hf.here
    · exact Or.inr ha
  · rw [e2, List.length_append]
    have := hf.heard
    exact Nat.le_trans this (Nat.le_add_right _ _)
  · rw [e1]; intro h; exact hf.wasAsked (hw h)
  · rw [e2]
    intro t h
    rcases List.mem_append.1 h with h | h
    · exact hf.replied t h
    · exact hf.wasAsked (hr t h)
  · rw [e1]
    intro t h
    rcases ht with ht | ⟨h1, h2⟩
    · exact Or.inl ht
    · rw [h1, h2]; exact hf.tookRequest t h
  · rw [e1, e2]
    intro h hm
    rcases List.mem_append.1 hm with h' | h'
    · rcases ha with ha | ha
      · exact hf.notGone (by rw [← ha]; exact h) h'
      · rw [ha] at h; cases h
    · rw [hg h'] at h; cases h
  · rw [e1]; exact ho

theorem take_succ {l : List Msg} {k : Nat} {m : Msg} (h : l[k]? = some m) : l.take (k + 1) = l.take k ++ [m] := by
  rw [List.take_add_one, h]; rfl

theorem lt_of_get {l : List Msg} {k : Nat} {m : Msg} (h : l[k]? = some m) : k < l.length := by
  rw [List.getElem?_eq_some_iff] at h; exact h.1

/-- A step of federate `i` that takes the message `m`. -/
theorem SInv.take {n : Nat} {stop : Nat → Tag} {y : Sys} (s : SInv n stop y) {i : Nat} (hi : i < n) (f : Fed) {m : Msg}
    (hm : (y.rti.out i)[y.taken i]? = some m)
    (hp : Phase f (y.props i) (∃ t, .granted t ∈ y.got i ++ [m])) (he : BOk (stopOf (stop i) (y.got i ++ [m])) f.b)
    (ha : f.alive = (y.fed i).alive) (hw : f.rx = .idle ∨ ∃ t, m = .request t)
    (ht : ∀ t, .request t ∈ y.got i ++ [m] → f.stopRequested = true ∨ ∃ t', f.rx = .got t')
    (ho : ∀ t, .granted t ∈ y.got i ++ [m] → f.rq = .idle ∨ f.rq = .done) :
    SInv n stop { y.set i f [] with taken := upd y.taken i (y.taken i + 1) } := by
  have hf := s.feds i hi
  generalize hz : ({ y.set i f [] with taken := upd y.taken i (y.taken i + 1) } : Sys) = z
  have e1 : z.fed i = f := by rw [← hz]; simp [Sys.set]
  have e2 : z.sent i = y.sent i := by rw [← hz]; simp [Sys.set]
  have e3 : z.got i = y.got i ++ [m] := by
    rw [← hz]
    unfold Sys.got
    simp only [upd_same]
    exact take_succ hm
  have e4 : z.rti = y.rti := by rw [← hz]; rfl
  have e5 : z.heard = y.heard := by rw [← hz]; rfl
  have e6 : z.taken i = y.taken i + 1 := by rw [← hz]; simp
  refine s.fedStep hi e4 e5 (fun j hj => by rw [← hz]; simp [Sys.set, hj]) (fun j hj => by rw [← hz]; simp [hj])
    (fun j hj => by rw [← hz]; simp [Sys.set, hj]) ⟨[], by rw [e2]; simp⟩ ⟨?_, ?_, ?_, ?_, ?_, ?_, ?_, ?_, ?_, ?_⟩
  · unfold Sys.props; rw [e1, e2, e3]; exact hp
  · rw [e1, e3]; exact he
  · rw [e1, e4, ha]; exact hf.here
  · rw [e2, e5]; exact hf.heard
  · rw [e4, e6]; exact lt_of_get hm
  · rw [e1, e3]
    intro h
    rcases hw with h' | ⟨t, rfl⟩
    · exact absurd h' h
    · exact ⟨t, by simp⟩
  · rw [e2, e3]
    intro t h
    obtain ⟨t', h'⟩ := hf.replied t h
    exact ⟨t', List.mem_append_left _ h'⟩
  · rw [e1, e3]; exact ht
  · rw [e1, e2, ha]; exact hf.notGone
  · rw [e1, e3]; exact ho

theorem HasBar.mono {b : Barrier.State} {s t : Tag} (h : HasBar b s) (hst : s ≤ t) : HasBar b t := by
  obtain ⟨r, h1, h2, h3⟩ := h
  exact ⟨r, h1, h2, Tag.le_trans h3 hst⟩

theorem counted_sub (y : Sys) (i : Nat) {t : Tag} (h : t ∈ y.counted i) : t ∈ y.props i := by
  unfold Sys.counted at h
  unfold Sys.props
  rw [List.mem_filterMap] at h ⊢
  obtain ⟨m, h1, h2⟩ := h
  exact ⟨m, List.mem_of_mem_take h1, h2⟩

theorem got_sub (y : Sys) (i : Nat) {m : Msg} (h : m ∈ y.got i) : m ∈ y.rti.out i := List.mem_of_mem_take h

/-- When a grant is the next message for a federate that is still there, the federate has proposed a tag that is not later,
and is kept before it. -/
theorem SInv.grantAhead {n : Nat} {stop : Nat → Tag} {y : Sys} (s : SInv n stop y) {i : Nat} (hi : i < n)
    (hup : (y.fed i).alive = true) {t : Tag} (hm : (y.rti.out i)[y.taken i]? = some (.granted t)) :
    ∃ t0, y.props i = [t0] ∧ t0 ≤ t ∧ HasBar (y.fed i).b t0 ∧ (y.fed i).stopRequested = true ∧
      (y.fed i).received = true ∧ ((y.fed i).rq = .done ∨ (y.fed i).rq = .idle) ∧ Calm (y.fed i).rx ∧ NEVER_TAG < t0 ∧
      ∀ g, .granted g ∉ y.got i := by
  have hf := s.feds i hi
  obtain ⟨hg, rfl⟩ := s.rti.core.grant i t (List.mem_of_getElem? hm)
  have hreq := s.rti.core.grants.1 hg i hi
  have hne : y.counted i ≠ [] := by
    rcases s.rti.core.why i hi hreq with h | h
    · rcases hf.here with h' | h'
      · rw [h] at h'; cases h'
      · rw [hup] at h'; cases h'
    · exact h
  obtain ⟨t0, ht0⟩ := List.exists_mem_of_ne_nil _ hne
  have hle := (s.rti.core.known i t0 ht0).2.2
  have hpr := counted_sub y i ht0
  have hno : ∀ g, .granted g ∉ y.got i := by
    intro g hgot
    have h1 := s.rti.core.once i
    rw [← List.take_append_drop (y.taken i + 1) (y.rti.out i), take_succ hm, List.countP_append, List.countP_append] at h1
    have h2 : 0 < (y.got i).countP isGranted := List.countP_pos_iff.2 ⟨_, hgot, rfl⟩
    unfold Sys.got at h2
    simp [isGranted] at h1
    omega
  cases hf.phase with
  | sent t1 p1 p2 p3 p4 p5 p6 p7 =>
    rw [p5, List.mem_singleton] at hpr
    subst hpr
    refine ⟨t0, p5, hle, ?_, p1, p2, p3, p4, p6, hno⟩
    rcases p7 with p7 | ⟨g, p7⟩
    · exact p7
    · exact absurd p7 (hno g)
  | fresh p1 p2 p3 p4 p5 => rw [p5] at hpr; cases hpr
  | flagged p1 p2 p3 p4 p5 => rw [p5] at hpr; cases hpr
  | raised c p1 p2 p3 p4 p5 => rw [p5] at hpr; cases hpr
  | checked c p1 p2 p3 p4 p5 => rw [p5] at hpr; cases hpr
  | counted c p1 p2 p3 p4 p5 => rw [p5] at hpr; cases hpr
  | blocked c p1 p2 p3 p4 p5 => rw [p5] at hpr; cases hpr

theorem Phase.env {f f' : Fed} {props : List Tag} {gr : Prop} (p : Phase f props gr) (h1 : f'.stopRequested = f.stopRequested)
    (h2 : f'.received = f.received) (h3 : f'.rq = f.rq) (h4 : f'.rx = f.rx)
    (h5 : ∀ t, HasBar f.b t → HasBar f'.b t) : Phase f' props gr := by
  cases p with
  | fresh p1 p2 p3 p4 p5 => exact .fresh (by rw [h1, p1]) (by rw [h2, p2]) (by rw [h3, p3]) (by rw [h4]; exact p4) p5
  | flagged p1 p2 p3 p4 p5 => exact .flagged (by rw [h1, p1]) (by rw [h2, p2]) (by rw [h3, p3]) (by rw [h4]; exact p4) p5
  | raised c p1 p2 p3 p4 p5 p6 p7 =>
    exact .raised c (by rw [h1, p1]) (by rw [h2, p2]) (by rw [h3, p3]) (by rw [h4]; exact p4) p5 (h5 _ p6) p7
  | sent t p1 p2 p3 p4 p5 p6 p7 =>
    exact .sent t (by rw [h1, p1]) (by rw [h2, p2]) (by rw [h3]; exact p3) (by rw [h4]; exact p4) p5 p6 (p7.imp (h5 _) id)
  | checked c p1 p2 p3 p4 p5 => exact .checked c (by rw [h1, p1]) (by rw [h2, p2]) (by rw [h3, p3]) (by rw [h4, p4]) p5
  | counted c p1 p2 p3 p4 p5 => exact .counted c (by rw [h1, p1]) (by rw [h2, p2]) (by rw [h3, p3]) (by rw [h4, p4]) p5
  | blocked c p1 p2 p3 p4 p5 p6 p7 =>
    exact .blocked c (by rw [h1, p1]) (by rw [h2, p2]) (by rw [h3, p3]) (by rw [h4, p4]) p5 (h5 _ p6) p7

theorem Phase.gr {f : Fed} {props : List Tag} {gr gr' : Prop} (p : Phase f props gr) (h : gr → gr') : Phase f props gr' := by
  cases p with
  | fresh p1 p2 p3 p4 p5 => exact .fresh p1 p2 p3 p4 p5
  | flagged p1 p2 p3 p4 p5 => exact .flagged p1 p2 p3 p4 p5
  | raised c p1 p2 p3 p4 p5 p6 p7 => exact .raised c p1 p2 p3 p4 p5 p6 p7
  | sent t p1 p2 p3 p4 p5 p6 p7 => exact .sent t p1 p2 p3 p4 p5 p6 (p7.imp id h)
  | checked c p1 p2 p3 p4 p5 => exact .checked c p1 p2 p3 p4 p5
  | counted c p1 p2 p3 p4 p5 => exact .counted c p1 p2 p3 p4 p5
  | blocked c p1 p2 p3 p4 p5 p6 p7 => exact .blocked c p1 p2 p3 p4 p5 p6 p7

/-- The listening thread changes without effect on the rest of the protocol. -/
theorem Phase.calm {f f' : Fed} {props : List Tag} {gr : Prop} (p : Phase f props gr)
    (h1 : f'.stopRequested = f.stopRequested) (h2 : f'.received = f.received) (h3 : f'.rq = f.rq) (h4 : Calm f.rx)
    (h4' : Calm f'.rx) (h4'' : f.stopRequested = false → f'.rx = .idle ∨ ∃ t, f'.rx = .got t) (h5 : f'.b = f.b) :
    Phase f' props gr := by
  cases p with
  | fresh p1 p2 p3 p4 p5 => exact .fresh (by rw [h1, p1]) (by rw [h2, p2]) (by rw [h3, p3]) (h4'' p1) p5
  | flagged p1 p2 p3 p4 p5 => exact .flagged (by rw [h1, p1]) (by rw [h2, p2]) (by rw [h3, p3]) h4' p5
  | raised c p1 p2 p3 p4 p5 p6 p7 =>
    exact .raised c (by rw [h1, p1]) (by rw [h2, p2]) (by rw [h3, p3]) h4' p5 (by rw [h5]; exact p6) p7
  | sent t p1 p2 p3 p4 p5 p6 p7 =>
    exact .sent t (by rw [h1, p1]) (by rw [h2, p2]) (by rw [h3]; exact p3) h4' p5 p6 (by rw [h5]; exact p7)
  | checked c p1 p2 p3 p4 p5 =>
    rw [p4] at h4; rcases h4 with h | ⟨_, h⟩ | ⟨_, h⟩ <;> cases h
  | counted c p1 p2 p3 p4 p5 =>
    rw [p4] at h4; rcases h4 with h | ⟨_, h⟩ | ⟨_, h⟩ <;> cases h
  | blocked c p1 p2 p3 p4 p5 p6 p7 =>
    rw [p4] at h4; rcases h4 with h | ⟨_, h⟩ | ⟨_, h⟩ <;> cases h

end ReactorC.Stop
