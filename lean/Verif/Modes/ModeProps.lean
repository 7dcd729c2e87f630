import Verif.Modes.Active

/-!
# C46: exactly the active modes act; C59: startup, reset and shutdown reactions in modes
-/

namespace ReactorC.Modes
open ReactorC ReactorC.Sched

theorem reach_flags {P : Prog} (ok : P.Ok) {y : Sys} (h : Reach P y) : Flags P y.st.m := by
  induction h with
  | boot start stop vars _ _ _ => exact startupReset_flags (initModes_flags ok)
  | step _ hs ih =>
    cases hs with
    | setMode md ch _ _ _ _ => exact setMode_flags ih md ch
    | schedule t tag tok _ _ _ => exact ih
    | process _ => exact process_flags ok ih
    | advance g _ _ _ _ _ => exact startupReset_flags ih

/-! ## C46 -/

/-- The cached flag that decides whether reactions and events of a mode are admitted says whether the mode is active. -/
theorem C46_flag_is_activity {P : Prog} (ok : P.Ok) {y : Sys} (h : Reach P y) {md : Nat} (hmd : P.owner md < P.n) :
    y.st.m.active md = true ↔ IsActive P y.st.m.current md :=
  (reach_flags ok h).act md hmd

/-- The computation without the flag gives the same result. -/
theorem C46_fallback_agrees {P : Prog} (ok : P.Ok) {y : Sys} (h : Reach P y) {md fuel : Nat} (hmd : P.owner md < P.n)
    (hf : P.owner md < fuel) : isActiveFallback P y.st.m fuel md = y.st.m.active md := by
  rw [Bool.eq_iff_iff, C46_flag_is_activity ok h hmd]
  generalize y.st.m = m
  clear h y
  induction fuel generalizing md with
  | zero => omega
  | succ fuel ih =>
    unfold isActiveFallback
    by_cases hc : m.current (P.owner md) = md
    · simp only [hc, ne_eq, not_true_eq_false, if_false]
      cases hp : P.parent (P.owner md) with
      | none => exact ⟨fun _ => .mk md hc (fun p h => by rw [hp] at h; cases h), fun _ => rfl⟩
      | some p =>
        have ho := ok.order _ p hmd hp
        show isActiveFallback P m fuel p = true ↔ _
        rw [ih (by omega) (by omega)]
        exact ⟨fun h => .mk md hc (fun q h' => by rw [hp] at h'; cases h'; exact h), fun h => h.par hp⟩
    · simp only [hc, ne_eq, not_false_eq_true, if_true]
      exact ⟨fun h => (by cases h), fun h => absurd h.cur hc⟩

/-- The current mode of a modal reactor is always one of its own modes.  A modal reactor that is not inside of an inactive
mode has exactly one active mode, any other has none. -/
theorem C46_one_active_mode {P : Prog} (ok : P.Ok) {y : Sys} (h : Reach P y) {i : Nat} (hi : i < P.n) :
    P.owner (y.st.m.current i) = i ∧
    (∀ md, P.owner md = i → y.st.m.active md = true → md = y.st.m.current i) ∧
    (y.st.m.active (y.st.m.current i) = true ↔ ∀ p, P.parent i = some p → IsActive P y.st.m.current p) := by
  have f := reach_flags ok h
  have ho := f.own i hi
  refine ⟨ho, ?_, ?_⟩
  · intro md hmd ha
    have := ((f.act md (by omega)).1 ha).cur
    rw [hmd] at this
    exact this.symm
  · rw [f.act _ (by omega)]
    constructor
    · intro hh p hp
      exact hh.par (by rw [ho]; exact hp)
    · intro hh
      exact .mk _ (by rw [ho]) (fun p hp => hh p (by rw [← ho]; exact hp))

/-- At the end of a tag every modal reactor goes exactly where it should: to its initial mode if the mode around it is
being entered with a reset, otherwise to the mode asked for last, otherwise nowhere; and no request is left over. -/
theorem C46_transitions {P : Prog} (ok : P.Ok) {y : Sys} (h : Reach P y) {i : Nat} (hi : i < P.n) :
    (process P y.st).m.current i =
      (match target P y.st.m.next y.st.m.change i with
      | none => y.st.m.current i
      | some x => x.1) ∧
    (process P y.st).m.next i = none := by
  have f := reach_flags ok h
  rcases process_modes ok y.st f with ⟨_, h2⟩ | ⟨hn, h2, h3⟩
  · refine ⟨?_, ?_⟩
    · rw [h2.cur, if_pos hi]; rfl
    · rw [h2.next, if_pos hi]
  · refine ⟨?_, h3 i hi⟩
    rw [hn i hi, h2]

/-! ## C59 -/

theorem clearLoop_spec {P : Prog} {m : Modes} (f : Flags P m) (k : Nat) (hk : k ≤ P.n) :
    (∀ md, P.owner md < k →
      (clearLoop m k).hadStartup md = (m.hadStartup md || (m.active md && m.needsStartup md)) ∧
      (clearLoop m k).needsStartup md = (m.needsStartup md && !m.active md) ∧
      (clearLoop m k).needsReset md = (m.needsReset md && !m.active md)) ∧
    (∀ md, k ≤ P.owner md → (clearLoop m k).hadStartup md = m.hadStartup md ∧
      (clearLoop m k).needsStartup md = m.needsStartup md ∧ (clearLoop m k).needsReset md = m.needsReset md) := by
  induction k with
  | zero => exact ⟨by omega, fun _ _ => ⟨rfl, rfl, rfl⟩⟩
  | succ k ih =>
    obtain ⟨i1, i2⟩ := ih (by omega)
    obtain ⟨c1, _, c3, _⟩ := clearLoop_same m k
    have he : clearLoop m (k + 1) = clear (clearLoop m k) k := rfl
    have ho := f.own k (by omega)
    rw [he]
    unfold clear
    simp only [c1, c3]
    by_cases ha : m.active (m.current k) = true
    · rw [if_pos ha]
      refine ⟨fun md hmd => ?_, fun md hmd => ?_⟩
      · by_cases hk' : P.owner md = k
        · obtain ⟨j1, j2, j3⟩ := i2 md (by omega)
          obtain ⟨jc1, jc2, jc3⟩ := i2 (m.current k) (by omega)
          by_cases hm : md = m.current k
          · subst hm
            simp only [upd_same, ha, Bool.not_true, Bool.and_false, Bool.true_and, jc2]
            refine ⟨?_, trivial, trivial⟩
            split
            · rename_i hx; simp [hx]
            · rename_i hx
              rw [jc1]; simp [hx]
          · have hna : m.active md = false := by
              rw [Bool.eq_false_iff]
              intro h'
              have := ((f.act md (by omega)).1 h').cur
              rw [hk'] at this
              exact hm this.symm
            simp only [upd_ne _ _ hm, hna, Bool.false_and, Bool.or_false, Bool.not_false, Bool.and_true, j2, j3]
            refine ⟨?_, trivial, trivial⟩
            split
            · rw [upd_ne _ _ hm]; exact j1
            · exact j1
        · have hne : md ≠ m.current k := by rintro rfl; exact hk' ho
          obtain ⟨j1, j2, j3⟩ := i1 md (by omega)
          simp only [upd_ne _ _ hne]
          refine ⟨?_, j2, j3⟩
          split
          · rw [upd_ne _ _ hne]; exact j1
          · exact j1
      · have hne : md ≠ m.current k := by rintro rfl; omega
        obtain ⟨j1, j2, j3⟩ := i2 md (by omega)
        simp only [upd_ne _ _ hne]
        refine ⟨?_, j2, j3⟩
        split
        · rw [upd_ne _ _ hne]; exact j1
        · exact j1
    · rw [if_neg ha]
      refine ⟨fun md hmd => ?_, fun md hmd => i2 md (by omega)⟩
      by_cases hk' : P.owner md = k
      · obtain ⟨j1, j2, j3⟩ := i2 md (by omega)
        have hna : m.active md = false := by
          rw [Bool.eq_false_iff]
          intro h'
          have := ((f.act md (by omega)).1 h').cur
          rw [hk'] at this
          exact ha (by rw [this]; exact h')
        simp [j1, j2, j3, hna]
      · exact i1 md (by omega)

theorem mem_pick {m : Modes} {req : Bool} {flag : Nat → Bool} {l : List (Nat × Option Nat)} {r : Nat} :
    r ∈ pick m req flag l ↔ req = true ∧ ∃ md, (r, some md) ∈ l ∧ m.active md = true ∧ flag md = true := by
  unfold pick
  by_cases h : req = true
  · rw [if_pos h, List.mem_filterMap]
    constructor
    · rintro ⟨⟨a, b⟩, hm, hx⟩
      cases b with
      | none => simp at hx
      | some md =>
        simp only [Option.ite_none_right_eq_some, Option.some.injEq] at hx
        obtain ⟨⟨h1, h2⟩, rfl⟩ := hx
        exact ⟨h, md, hm, h1, h2⟩
    · rintro ⟨_, md, hm, h1, h2⟩
      exact ⟨(r, some md), hm, by simp [h1, h2]⟩
  · rw [if_neg h]
    simp [h]

theorem nodup_pick {m : Modes} {req : Bool} {flag : Nat → Bool} {l : List (Nat × Option Nat)}
    (h : (l.map Prod.fst).Nodup) : (pick m req flag l).Nodup := by
  unfold pick
  split
  · rw [List.Nodup, List.pairwise_filterMap]
    rw [List.Nodup, List.pairwise_map] at h
    refine h.imp ?_
    rintro ⟨a, oa⟩ ⟨b, ob⟩ hab x hx y hy
    have hxa : a = x := by
      cases oa with
      | none => simp at hx
      | some md => simp at hx; exact hx.2
    have hyb : b = y := by
      cases ob with
      | none => simp at hy
      | some md => simp at hy; exact hy.2
    rw [← hxa, ← hyb]; exact hab
  · exact List.nodup_nil

/-- The contract of the code generator for reactions: no reaction is listed twice, and the modes are those of the modal
reactors listed. -/
structure Prog.StartOk (P : Prog) : Prop where
  nodup : (P.startup.map Prod.fst).Nodup
  own : ∀ r md, (r, some md) ∈ P.startup → P.owner md < P.n

structure SInv (P : Prog) (y : Sys) : Prop where
  flags : Flags P y.st.m
  excl : ∀ md, P.owner md < P.n → y.st.m.hadStartup md = true → y.st.m.needsStartup md = false
  flat : ∀ md, P.owner md < P.n → P.parent (P.owner md) = none → y.st.m.active md = true →
    y.st.m.hadStartup md = true ∨ y.st.m.needsStartup md = true
  req : ∀ md, P.owner md < P.n → y.st.m.active md = true → y.st.m.needsStartup md = true → y.st.m.reqStartup = true
  settled : ∀ md, P.owner md < P.n → y.done = false → y.st.m.active md = true →
    y.st.m.hadStartup md = true ∨ y.st.m.needsStartup md = false
  quiet : ∀ md, P.owner md < P.n → y.done = false → y.st.m.active md = true →
    y.st.m.needsReset md = false ∧ y.st.m.needsStartup md = false
  seen : ∀ md, P.owner md < P.n → y.st.m.hadStartup md = true → y.seen md = true
  seenFlat : ∀ md, P.owner md < P.n → P.parent (P.owner md) = none → y.seen md = true → y.st.m.hadStartup md = true
  starts : ∀ r md, (r, some md) ∈ P.startup → (r ∈ y.starts ↔ y.st.m.hadStartup md = true)
  from_ : ∀ r ∈ y.starts, ∃ md, (r, some md) ∈ P.startup
  once : y.starts.Nodup

/-- What `handleModes` needs of the state before it. -/
structure Before (P : Prog) (y : Sys) : Prop where
  flags : Flags P y.st.m
  excl : ∀ md, P.owner md < P.n → y.st.m.hadStartup md = true → y.st.m.needsStartup md = false
  flat : ∀ md, P.owner md < P.n → P.parent (P.owner md) = none → y.st.m.active md = true →
    y.st.m.hadStartup md = true ∨ y.st.m.needsStartup md = true
  req : ∀ md, P.owner md < P.n → y.st.m.active md = true → y.st.m.needsStartup md = true → y.st.m.reqStartup = true
  seen : ∀ md, P.owner md < P.n → y.st.m.hadStartup md = true → y.seen md = true
  seenFlat : ∀ md, P.owner md < P.n → P.parent (P.owner md) = none → y.seen md = true → y.st.m.hadStartup md = true
  starts : ∀ r md, (r, some md) ∈ P.startup → (r ∈ y.starts ↔ y.st.m.hadStartup md = true)
  from_ : ∀ r ∈ y.starts, ∃ md, (r, some md) ∈ P.startup
  once : y.starts.Nodup

theorem entry_unique {l : List (Nat × Option Nat)} (h : (l.map Prod.fst).Nodup) {r : Nat} {a b : Option Nat}
    (ha : (r, a) ∈ l) (hb : (r, b) ∈ l) : a = b := by
  induction l with
  | nil => cases ha
  | cons x l ih =>
    rw [List.map_cons, List.nodup_cons] at h
    rcases List.mem_cons.1 ha with ha | ha <;> rcases List.mem_cons.1 hb with hb | hb
    · rw [← ha] at hb; exact (Prod.mk.inj hb).2.symm
    · exact absurd (List.mem_map.2 ⟨_, hb, by rw [← ha]⟩) h.1
    · exact absurd (List.mem_map.2 ⟨_, ha, by rw [← hb]⟩) h.1
    · exact ih h.2 ha hb

theorem handle_SInv {P : Prog} (so : P.StartOk) {y : Sys} (b : Before P y) : SInv P (handleModes P y) := by
  obtain ⟨c1, c2⟩ := clearLoop_spec b.flags P.n (Nat.le_refl _)
  obtain ⟨k1, k2, k3, k4, k5⟩ := clearLoop_same y.st.m P.n
  have hact : ∀ md, (handleModes P y).st.m.active md = y.st.m.active md := fun md => congrFun k3 md
  have hhad : ∀ md, P.owner md < P.n → (handleModes P y).st.m.hadStartup md =
      (y.st.m.hadStartup md || (y.st.m.active md && y.st.m.needsStartup md)) := fun md h => (c1 md h).1
  have hneed : ∀ md, P.owner md < P.n → (handleModes P y).st.m.needsStartup md =
      (y.st.m.needsStartup md && !y.st.m.active md) := fun md h => (c1 md h).2.1
  have hreset : ∀ md, P.owner md < P.n → (handleModes P y).st.m.needsReset md =
      (y.st.m.needsReset md && !y.st.m.active md) := fun md h => (c1 md h).2.2
  have hseen : ∀ md, (handleModes P y).seen md = (y.seen md || y.st.m.active md) := fun _ => rfl
  have hst : (handleModes P y).starts = pick y.st.m y.st.m.reqStartup y.st.m.needsStartup P.startup ++ y.starts := rfl
  refine ⟨startupReset_flags b.flags, ?_, ?_, ?_, ?_, ?_, ?_, ?_, ?_, ?_, ?_⟩
  · intro md hmd h
    rw [hhad md hmd] at h
    rw [hneed md hmd]
    cases hx : y.st.m.needsStartup md with
    | false => rfl
    | true =>
      have := b.excl md hmd
      cases hy : y.st.m.hadStartup md with
      | true => rw [this hy] at hx; cases hx
      | false => rw [hy, hx] at h; simpa using h
  · intro md hmd hp h
    rw [hact] at h
    rw [hhad md hmd]
    rcases b.flat md hmd hp h with h' | h'
    · left; simp [h']
    · left; simp [h', h]
  · intro md hmd h1 h2
    rw [hact] at h1
    rw [hneed md hmd, h1] at h2
    simp at h2
  · intro md hmd _ h
    rw [hact] at h
    rw [hneed md hmd, h]; simp
  · intro md hmd _ h
    rw [hact] at h
    rw [hneed md hmd, hreset md hmd, h]; simp
  · intro md hmd h
    rw [hhad md hmd] at h
    rw [hseen, Bool.or_eq_true]
    simp only [Bool.or_eq_true, Bool.and_eq_true] at h
    rcases h with h | h
    · exact Or.inl (b.seen md hmd h)
    · exact Or.inr h.1
  · intro md hmd hp h
    rw [hseen, Bool.or_eq_true] at h
    rw [hhad md hmd]
    rcases h with h | h
    · simp [b.seenFlat md hmd hp h]
    · rcases b.flat md hmd hp h with h' | h'
      · simp [h']
      · simp [h', h]
  · intro r md hr
    have hmd := so.own r md hr
    rw [hst, List.mem_append, mem_pick, hhad md hmd, b.starts r md hr]
    simp only [Bool.or_eq_true, Bool.and_eq_true]
    constructor
    · rintro (⟨_, md', h1, h2, h3⟩ | h)
      · have := entry_unique so.nodup hr h1
        cases this
        exact Or.inr ⟨h2, h3⟩
      · exact Or.inl h
    · rintro (h | ⟨h1, h2⟩)
      · exact Or.inr h
      · exact Or.inl ⟨b.req md hmd h1 h2, md, hr, h1, h2⟩
  · intro r hr
    rw [hst, List.mem_append, mem_pick] at hr
    rcases hr with ⟨_, md, h1, _⟩ | h
    · exact ⟨md, h1⟩
    · exact b.from_ r h
  · rw [hst, List.nodup_append]
    refine ⟨nodup_pick so.nodup, b.once, ?_⟩
    intro r h1 r' h2 he
    subst he
    rw [mem_pick] at h1
    obtain ⟨_, md, h3, _, h5⟩ := h1
    have h6 := (b.starts r md h3).1 h2
    rw [b.excl md (so.own r md h3) h6] at h5
    cases h5

theorem SInv.before {P : Prog} {y : Sys} (i : SInv P y) : Before P y :=
  ⟨i.flags, i.excl, i.flat, i.req, i.seen, i.seenFlat, i.starts, i.from_, i.once⟩

theorem reach_SInv {P : Prog} (ok : P.Ok) (so : P.StartOk) {y : Sys} (h : Reach P y) : SInv P y := by
  induction h with
  | boot start stop vars _ _ _ =>
    refine handle_SInv so ?_
    obtain ⟨h1, h2, h3, h4, h5, h6, h7, h8, h9⟩ := initLoop_spec ok P.n (Nat.le_refl _)
    have hhad : ∀ md, (initModes P).hadStartup md = false := fun md => congrFun h7 md
    refine ⟨initModes_flags ok, ?_, ?_, fun _ _ _ _ => rfl, ?_, ?_, ?_, ?_, List.nodup_nil⟩
    · intro md _ h
      have := hhad md
      rw [show (initModes P).hadStartup md = true from h] at this; cases this
    · intro md _ _ h
      right
      show (initLoop P P.n).needsStartup md = true
      rw [h6]; exact h
    · intro md _ h
      have := hhad md
      rw [show (initModes P).hadStartup md = true from h] at this; cases this
    · intro md _ _ h; cases h
    · intro r md _
      constructor
      · intro h; cases h
      · intro h
        have := hhad md
        rw [show (initModes P).hadStartup md = true from h] at this; cases this
    · intro r h; cases h
  | @step y z _ hs ih =>
    cases hs with
    | setMode md ch _ _ _ _ =>
      exact ⟨setMode_flags ih.flags md ch, ih.excl, ih.flat, ih.req, ih.settled, ih.quiet, ih.seen, ih.seenFlat,
        ih.starts, ih.from_, ih.once⟩
    | schedule t tag tok _ _ _ => exact ⟨ih.flags, ih.excl, ih.flat, ih.req, ih.settled, ih.quiet, ih.seen, ih.seenFlat,
        ih.starts, ih.from_, ih.once⟩
    | process hd =>
      have f := ih.flags
      rcases process_modes ok y.st f with ⟨_, h2⟩ | ⟨_, h2, _⟩
      · have hhad := h2.had
        refine ⟨process_flags ok f, ?_, ?_, ?_, fun _ _ h => (by cases h), fun _ _ h => (by cases h), ?_, ?_, ?_, ih.from_, ih.once⟩
        · intro md hmd h
          show (process P y.st).m.needsStartup md = false
          replace h : (process P y.st).m.hadStartup md = true := h
          rw [hhad] at h
          rw [h2.start md hmd, ih.excl md hmd h, h]
          simp
        · intro md hmd hp h
          show (process P y.st).m.hadStartup md = true ∨ (process P y.st).m.needsStartup md = true
          replace h : (process P y.st).m.active md = true := h
          rw [hhad, h2.start md hmd]
          have hcur := ((h2.new md hmd).1 h).cur
          rw [h2.cur, if_pos hmd] at hcur
          unfold goesTo at hcur
          cases ht : target P y.st.m.next y.st.m.change (P.owner md) with
          | none =>
            rw [ht] at hcur
            have ha : y.st.m.active md = true :=
              (f.act md hmd).2 (.mk md hcur (fun p h' => by rw [hp] at h'; cases h'))
            rcases ih.flat md hmd hp ha with h' | h'
            · exact Or.inl h'
            · right; simp [h']
          | some x =>
            rw [ht] at hcur
            cases hy : y.st.m.hadStartup md with
            | true => exact Or.inl rfl
            | false => right; simp [hcur]
        · intro md hmd h h'
          exact h2.reqS.2 (Or.inr ⟨md, hmd, h, h'⟩)
        · intro md hmd h
          replace h : (process P y.st).m.hadStartup md = true := h
          rw [hhad] at h
          exact ih.seen md hmd h
        · intro md hmd hp h
          show (process P y.st).m.hadStartup md = true
          rw [hhad]; exact ih.seenFlat md hmd hp h
        · intro r md hr
          show r ∈ y.starts ↔ (process P y.st).m.hadStartup md = true
          rw [hhad]; exact ih.starts r md hr
      · have e : ∀ {α : Type} (g : Modes → α), g (process P y.st).m =
            g { y.st.m with next := (process P y.st).m.next, change := (process P y.st).m.change } := by
          intro α g; rw [← h2]
        have e1 : (process P y.st).m.hadStartup = y.st.m.hadStartup := e (fun m => m.hadStartup)
        have e2 : (process P y.st).m.needsStartup = y.st.m.needsStartup := e (fun m => m.needsStartup)
        have e3 : (process P y.st).m.active = y.st.m.active := e (fun m => m.active)
        have e4 : (process P y.st).m.reqStartup = y.st.m.reqStartup := e (fun m => m.reqStartup)
        refine ⟨process_flags ok f, ?_, ?_, ?_, fun _ _ h => (by cases h), fun _ _ h => (by cases h), ?_, ?_, ?_, ih.from_, ih.once⟩
        · intro md hmd; show (process P y.st).m.hadStartup md = true → (process P y.st).m.needsStartup md = false
          rw [e1, e2]; exact ih.excl md hmd
        · intro md hmd hp
          show (process P y.st).m.active md = true → (process P y.st).m.hadStartup md = true ∨
            (process P y.st).m.needsStartup md = true
          rw [e1, e2, e3]; exact ih.flat md hmd hp
        · intro md hmd
          show (process P y.st).m.active md = true → (process P y.st).m.needsStartup md = true →
            (process P y.st).m.reqStartup = true
          rw [e2, e3, e4]; exact ih.req md hmd
        · intro md hmd; show (process P y.st).m.hadStartup md = true → _
          rw [e1]; exact ih.seen md hmd
        · intro md hmd hp; show _ → (process P y.st).m.hadStartup md = true
          rw [e1]; exact ih.seenFlat md hmd hp
        · intro r md hr; show r ∈ y.starts ↔ (process P y.st).m.hadStartup md = true
          rw [e1]; exact ih.starts r md hr
    | advance g _ _ _ _ _ => exact handle_SInv so ⟨ih.flags, ih.excl, ih.flat, ih.req, ih.seen, ih.seenFlat, ih.starts, ih.from_, ih.once⟩

/-- No startup reaction inside a mode is triggered twice. -/
theorem C59_startup_at_most_once {P : Prog} (ok : P.Ok) (so : P.StartOk) {y : Sys} (h : Reach P y) : y.starts.Nodup :=
  (reach_SInv ok so h).once

/-- A startup reaction is triggered only if its mode has been active. -/
theorem C59_startup_only_if_active {P : Prog} (ok : P.Ok) (so : P.StartOk) {y : Sys} (h : Reach P y) {r md : Nat}
    (hr : (r, some md) ∈ P.startup) (hs : r ∈ y.starts) : y.seen md = true :=
  let i := reach_SInv ok so h
  i.seen md (so.own r md hr) ((i.starts r md hr).1 hs)

/-- The startup reactions in the modes of a top-level modal reactor are triggered as soon as the mode is active for the
first time.

Missing for the full property, which is false (`C59_nested_history_skips_startup`): modes of modal reactors inside of
modes. -/
theorem C59_startup_when_active_partial {P : Prog} (ok : P.Ok) (so : P.StartOk) {y : Sys} (h : Reach P y) {r md : Nat}
    (hr : (r, some md) ∈ P.startup) (hp : P.parent (P.owner md) = none) : r ∈ y.starts ↔ y.seen md = true :=
  let i := reach_SInv ok so h
  ⟨C59_startup_only_if_active ok so h hr, fun hs => (i.starts r md hr).2 (i.seenFlat md (so.own r md hr) hp hs)⟩

/-- The shutdown reactions triggered at the end are those of the modes whose startup reactions have been triggered; for the
modes of a top-level modal reactor, those that have been active. -/
theorem C59_shutdown_iff_started {P : Prog} (ok : P.Ok) (so : P.StartOk) {y : Sys} (h : Reach P y)
    (hn : (P.shutdown.map Prod.fst).Nodup) {r md : Nat} (hr : (r, some md) ∈ P.shutdown) (hmd : P.owner md < P.n) :
    (∀ r', (r', some md) ∈ P.startup → (r ∈ shutdown P y.st.m ↔ r' ∈ y.starts)) ∧
    (r ∈ shutdown P y.st.m → y.seen md = true) ∧
    (P.parent (P.owner md) = none → (r ∈ shutdown P y.st.m ↔ y.seen md = true)) := by
  have i := reach_SInv ok so h
  have hmem : r ∈ shutdown P y.st.m ↔ y.st.m.hadStartup md = true := by
    unfold shutdown
    rw [List.mem_filterMap]
    constructor
    · rintro ⟨⟨a, b⟩, hm, hx⟩
      cases b with
      | none => simp at hx
      | some md' =>
        simp only [Option.ite_none_right_eq_some, Option.some.injEq] at hx
        obtain ⟨h1, rfl⟩ := hx
        have := entry_unique hn hr hm
        cases this
        exact h1
    · intro hh
      exact ⟨(r, some md), hr, by simp [hh]⟩
  refine ⟨fun r' hr' => ?_, fun hh => i.seen md hmd (hmem.1 hh), fun hp => ?_⟩
  · rw [hmem, i.starts r' md hr']
  · rw [hmem]
    exact ⟨i.seen md hmd, i.seenFlat md hmd hp⟩

/-- A reset reaction is triggered at the next tag if its mode is entered with a reset, and not if it is entered with
history or stays active. -/
theorem C59_reset_iff_entered_by_reset {P : Prog} (ok : P.Ok) (so : P.StartOk) {y : Sys} (h : Reach P y)
    (hd : y.done = false) (hn : (P.reset.map Prod.fst).Nodup) {r md : Nat} (hr : (r, some md) ∈ P.reset)
    (hmd : P.owner md < P.n) :
    let triggered := r ∈ (startupReset P (process P y.st).m).1.2
    let target := target P y.st.m.next y.st.m.change (P.owner md)
    (∀ ch, target = some (md, ch) → (triggered ↔ IsActive P (process P y.st).m.current md ∧ ch = .reset_transition)) ∧
    (target.map Prod.fst ≠ some md → y.st.m.active md = true → ¬ triggered) := by
  have i := reach_SInv ok so h
  have f := i.flags
  have hmem : r ∈ (startupReset P (process P y.st).m).1.2 ↔ (process P y.st).m.reqReset = true ∧
      (process P y.st).m.active md = true ∧ (process P y.st).m.needsReset md = true := by
    show r ∈ pick _ _ _ _ ↔ _
    rw [mem_pick]
    constructor
    · rintro ⟨h1, md', h2, h3, h4⟩
      have := entry_unique hn hr h2
      cases this
      exact ⟨h1, h3, h4⟩
    · rintro ⟨h1, h2, h3⟩
      exact ⟨h1, md, hr, h2, h3⟩
  simp only [hmem]
  rcases process_modes ok y.st f with ⟨_, h2⟩ | ⟨hno, h2, _⟩
  · refine ⟨fun ch ht => ?_, fun ht ha => ?_⟩
    · have hneed : (process P y.st).m.needsReset md = decide (ch = .reset_transition) := by
        rw [h2.reset md hmd, ht]; simp [resetFlag]
      rw [hneed, ← h2.new md hmd, decide_eq_true_iff]
      constructor
      · rintro ⟨_, h3, h4⟩; exact ⟨h3, h4⟩
      · rintro ⟨h3, h4⟩
        exact ⟨h2.reqR.2 (Or.inr ⟨md, hmd, h3, by rw [hneed]; simp [h4]⟩), h3, h4⟩
    · rintro ⟨_, _, h3⟩
      have hq := (i.quiet md hmd hd ha).1
      rw [h2.reset md hmd] at h3
      cases htg : target P y.st.m.next y.st.m.change (P.owner md) with
      | none => rw [htg] at h3; simp only [resetFlag] at h3; rw [hq] at h3; cases h3
      | some x =>
        rw [htg] at h3 ht
        simp only [Option.map_some, ne_eq, Option.some.injEq] at ht
        simp only [resetFlag, ht, if_false] at h3
        rw [hq] at h3; cases h3
  · refine ⟨fun ch ht => ?_, fun ht ha => ?_⟩
    · rw [hno _ hmd] at ht; cases ht
    · rintro ⟨_, _, h3⟩
      rw [h2] at h3
      have hq := (i.quiet md hmd hd ha).1
      rw [show y.st.m.needsReset md = true from h3] at hq
      cases hq

end ReactorC.Modes
