import Verif.Modes.Process

/-! # Invariants about pending and suspended events -/

namespace ReactorC.Modes
open ReactorC ReactorC.Sched

theorem timer_cases {P : Prog} (tok : P.TimersOk) {e : Events} (g : Good e) (hn : Now e) (hst : e.env.stop.time ≤ FOREVER)
    {t : Nat} {extra : Int} (ht : (P.trigs t).isTimer = true) (hx : 0 ≤ extra) :
    (∀ ev ∈ ofT (some t) (timerAt P e t extra).env.q, ev ∈ ofT (some t) e.env.q ∨ ev.tag.time ≤ e.env.cur.time + extra) ∧
    ((ofT (some t) (timerAt P e t extra).env.q).length = (ofT (some t) e.env.q).length + 1 ∨
      e.env.stop.time ≤ e.env.cur.time + extra) := by
  obtain ⟨_, _, h⟩ := timerAt_spec tok g hn ht hx
  rcases h with ⟨h1, h2⟩ | ⟨ev, h1, _, h3, _⟩
  · refine ⟨fun ev h => by rw [h1] at h; exact Or.inl h, ?_⟩
    right
    by_cases hf : e.env.cur.time + extra < FOREVER
    · exact h2 hf
    · omega
  · rw [h1]
    refine ⟨fun ev' h => ?_, Or.inl (by simp)⟩
    rcases List.mem_cons.1 h with rfl | h
    · exact Or.inr h3
    · exact Or.inl h

/-! ## The end of a tag -/

theorem repop_spec {P : Prog} (tok : P.TimersOk) (L : List Event) (e : Events) (g : Good e) (hn : Now e)
    (hst : e.env.stop.time ≤ FOREVER) :
    Eff (fun t => (P.trigs t).isTimer = true ∧ 0 < (P.trigs t).period ∧ ∃ ev ∈ L, ev.trigger = some t) e (repop P L e) ∧
    (repop P L e).vars = e.vars ∧
    ∀ t, (P.trigs t).isTimer = true → 0 < (P.trigs t).period →
      (∀ ev ∈ ofT (some t) (repop P L e).env.q, ev ∈ ofT (some t) e.env.q ∨
        ev.tag.time ≤ e.env.cur.time + (P.trigs t).period) ∧
      ((ofT (some t) (repop P L e).env.q).length = (ofT (some t) e.env.q).length + (ofT (some t) L).length ∨
        e.env.stop.time ≤ e.env.cur.time + (P.trigs t).period) := by
  induction L generalizing e with
  | nil => exact ⟨Eff.refl g, rfl, fun t _ _ => ⟨fun ev h => Or.inl h, Or.inl (by simp [repop, ofT])⟩⟩
  | cons x L ih =>
    unfold repop
    by_cases hc : ∃ t, x.trigger = some t ∧ (P.trigs t).isTimer = true ∧ (P.trigs t).period > 0
    · obtain ⟨t, h1, h2, h3⟩ := hc
      have he : again P x e = timerAt P e t (P.trigs t).period := by
        unfold again
        rw [h1]; simp only [h2, h3, and_self, if_true]; rfl
      rw [he]
      obtain ⟨s1, s2, _⟩ := timerAt_spec tok g hn h2 (Int.le_of_lt h3)
      obtain ⟨s3, s4⟩ := timer_cases tok g hn hst h2 (Int.le_of_lt h3)
      generalize timerAt P e t (P.trigs t).period = e1 at *
      obtain ⟨i1, i2, i3⟩ := ih e1 s1.good (s1.now hn) (by rw [s1.stop]; exact hst)
      refine ⟨?_, i2.trans s2, ?_⟩
      · refine (s1.mono ?_).trans (i1.mono ?_)
        · rintro _ rfl
          exact ⟨h2, h3, x, List.mem_cons_self, h1⟩
        · rintro t' ⟨a, b, ev, c, d⟩
          exact ⟨a, b, ev, List.mem_cons_of_mem _ c, d⟩
      · intro t' ht' hp'
        obtain ⟨j1, j2⟩ := i3 t' ht' hp'
        rw [s1.cur] at j1 j2
        rw [s1.stop] at j2
        by_cases htt : t' = t
        · subst htt
          refine ⟨fun ev hev => ?_, ?_⟩
          · rcases j1 ev hev with h | h
            · exact s3 ev h
            · exact Or.inr h
          · rcases j2 with j2 | j2
            · rcases s4 with s4 | s4
              · left
                rw [j2, s4]
                unfold ofT
                rw [List.filter_cons_of_pos (by simpa using h1), List.length_cons]
                omega
              · exact Or.inr s4
            · exact Or.inr j2
        · have ho : ofT (some t') e1.env.q = ofT (some t') e.env.q :=
            s1.other (some t') (fun t'' h => by cases h; exact htt)
          rw [ho] at j1 j2
          refine ⟨j1, ?_⟩
          rcases j2 with j2 | j2
          · left
            rw [j2]
            unfold ofT
            rw [List.filter_cons_of_neg (by rw [h1]; simp [Ne.symm htt])]
          · exact Or.inr j2
    · have he : again P x e = e := by
        unfold again
        cases hx : x.trigger with
        | none => rfl
        | some t =>
          simp only []
          rw [if_neg (fun h => hc ⟨t, hx, h⟩)]
      rw [he]
      obtain ⟨i1, i2, i3⟩ := ih e g hn hst
      refine ⟨i1.mono ?_, i2, ?_⟩
      · rintro t' ⟨a, b, ev, c, d⟩
        exact ⟨a, b, ev, List.mem_cons_of_mem _ c, d⟩
      · intro t ht hp
        obtain ⟨j1, j2⟩ := i3 t ht hp
        refine ⟨j1, ?_⟩
        rcases j2 with j2 | j2
        · left
          rw [j2]
          unfold ofT
          rw [List.filter_cons_of_neg (by simpa using fun h => hc ⟨t, h, ht, hp⟩)]
        · exact Or.inr j2

/-! ## The start -/

theorem initTimers_spec {P : Prog} (tok : P.TimersOk) (m : Modes) (l : List Nat)
    (hl : ∀ t ∈ l, (P.trigs t).isTimer = true) (e : Events) (g : Good e) (hn : Now e) :
    (initTimers P m l e).env.cur = e.env.cur ∧ (initTimers P m l e).env.stop = e.env.stop ∧
    Good (initTimers P m l e) ∧
    (∀ ev ∈ (initTimers P m l e).env.q, ev ∈ e.env.q ∨ ∃ t ∈ l, ev.trigger = some t ∧ isActive m (P.tmode t) = true ∧
      ev.tag.time ≤ e.env.cur.time + max (P.trigs t).offset (P.trigs t).period) ∧
    (∀ x ∈ (initTimers P m l e).suspended, x ∈ e.suspended ∨ ∃ t ∈ l, x.ev.trigger = some t ∧
      isActive m (P.tmode t) = false ∧ x.at_ = e.env.cur.time ∧ x.ev.tag.time = e.env.cur.time + (P.trigs t).offset) ∧
    (∀ t, 0 < (P.trigs t).period →
      (ofT (some t) (initTimers P m l e).env.q).length + (suspT t (initTimers P m l e).suspended).length =
        (ofT (some t) e.env.q).length + (suspT t e.suspended).length + l.count t ∨
      e.env.stop.time ≤ e.env.cur.time + max (P.trigs t).offset (P.trigs t).period) := by
  induction l generalizing e with
  | nil =>
    exact ⟨rfl, rfl, g, fun ev h => Or.inl h, fun x h => Or.inl h, fun t _ => Or.inl (by simp [initTimers])⟩
  | cons a l ih =>
    have ha := hl a List.mem_cons_self
    have hl' : ∀ t ∈ l, (P.trigs t).isTimer = true := fun t h => hl t (List.mem_cons_of_mem _ h)
    have hoff := tok.offset a ha
    have hper := tok.period a ha
    unfold initTimers
    -- one timer
    have one : ∃ e1, (if isActive m (P.tmode a) = false then suspendTimer P e a else startFirst P e a) = e1 ∧
        e1.env.cur = e.env.cur ∧ e1.env.stop = e.env.stop ∧ Good e1 ∧
        (∀ ev ∈ e1.env.q, ev ∈ e.env.q ∨ (ev.trigger = some a ∧ isActive m (P.tmode a) = true ∧
          ev.tag.time ≤ e.env.cur.time + max (P.trigs a).offset (P.trigs a).period)) ∧
        (∀ x ∈ e1.suspended, x ∈ e.suspended ∨ (x.ev.trigger = some a ∧ isActive m (P.tmode a) = false ∧
          x.at_ = e.env.cur.time ∧ x.ev.tag.time = e.env.cur.time + (P.trigs a).offset)) ∧
        (∀ t, t ≠ a → ofT (some t) e1.env.q = ofT (some t) e.env.q ∧ suspT t e1.suspended = suspT t e.suspended) ∧
        (0 < (P.trigs a).period → (ofT (some a) e1.env.q).length + (suspT a e1.suspended).length =
          (ofT (some a) e.env.q).length + (suspT a e.suspended).length + 1 ∨
          e.env.stop.time ≤ e.env.cur.time + max (P.trigs a).offset (P.trigs a).period) := by
      refine ⟨_, rfl, ?_⟩
      by_cases hact : isActive m (P.tmode a) = false
      · rw [if_pos hact]
        unfold suspendTimer
        refine ⟨rfl, rfl, ⟨fun b hb => ?_, g.inj, g.future⟩, fun ev h => Or.inl h, ?_, ?_, ?_⟩
        · have := g.ids b hb; show b.id < e.nextId + 1; omega
        · intro x hx
          rcases List.mem_cons.1 hx with rfl | hx
          · exact Or.inr ⟨rfl, hact, rfl, rfl⟩
          · exact Or.inl hx
        · intro t ht
          refine ⟨rfl, ?_⟩
          unfold suspT
          rw [List.filter_cons_of_neg (by simp [Ne.symm ht])]
        · intro _
          left
          unfold suspT
          rw [List.filter_cons_of_pos (by simp), List.length_cons]
          exact (Nat.add_assoc _ _ _).symm
      · rw [if_neg hact]
        have hact' : isActive m (P.tmode a) = true := by simpa using hact
        unfold startFirst
        simp only []
        split
        · rename_i h0
          exact ⟨rfl, rfl, g, fun ev h => Or.inl h, fun x h => Or.inl h, fun t _ => ⟨rfl, rfl⟩, fun h => by omega⟩
        · rename_i h0
          generalize hD : (if (P.trigs a).offset = 0 then (P.trigs a).period else (P.trigs a).offset) = D
          have hD1 : 0 ≤ D ∧ D ≤ max (P.trigs a).offset (P.trigs a).period := by rw [← hD]; split <;> omega
          split
          · rename_i hs
            rw [afterStop_eq_true, Tag.lt_def] at hs
            refine ⟨rfl, rfl, g, fun ev h => Or.inl h, fun x h => Or.inl h, fun t _ => ⟨rfl, rfl⟩, fun h => ?_⟩
            right
            simp only [] at hs
            omega
          · refine ⟨rfl, rfl, ⟨?_, ?_, ?_⟩, ?_, fun x h => Or.inl h, ?_, ?_⟩
            · intro b hb
              show b.id < e.nextId + 1
              rcases List.mem_cons.1 hb with rfl | hb
              · exact Nat.lt_succ_self _
              · have := g.ids b hb; omega
            · intro b hb c hc hbc
              rcases List.mem_cons.1 hb with rfl | hb <;> rcases List.mem_cons.1 hc with rfl | hc
              · rfl
              · have := g.ids c hc; simp only at hbc; omega
              · have := g.ids b hb; simp only at hbc; omega
              · exact g.inj b hb c hc hbc
            · intro b hb
              rcases List.mem_cons.1 hb with rfl | hb
              · simp only []; omega
              · exact g.future b hb
            · intro ev hev
              rcases List.mem_cons.1 hev with rfl | hev
              · refine Or.inr ⟨rfl, hact', ?_⟩
                simp only []; omega
              · exact Or.inl hev
            · intro t ht
              refine ⟨?_, rfl⟩
              unfold ofT
              rw [List.filter_cons_of_neg (by simp [Ne.symm ht])]
            · intro _
              left
              unfold ofT
              rw [List.filter_cons_of_pos (by simp), List.length_cons]
              exact Nat.add_right_comm _ _ _
    obtain ⟨e1, he1, c1, c2, c3, c4, c5, c6, c7⟩ := one
    rw [he1]
    have hn1 : Now e1 := by unfold Now; rw [c1]; exact hn
    obtain ⟨i1, i2, i3, i4, i5, i6⟩ := ih hl' e1 c3 hn1
    rw [c1] at i4 i5 i6
    rw [c2] at i6
    refine ⟨i1.trans c1, i2.trans c2, i3, ?_, ?_, ?_⟩
    · intro ev hev
      rcases i4 ev hev with h | ⟨t, h, h'⟩
      · rcases c4 ev h with h | h
        · exact Or.inl h
        · exact Or.inr ⟨a, List.mem_cons_self, h⟩
      · exact Or.inr ⟨t, List.mem_cons_of_mem _ h, h'⟩
    · intro x hx
      rcases i5 x hx with h | ⟨t, h, h'⟩
      · rcases c5 x h with h | h
        · exact Or.inl h
        · exact Or.inr ⟨a, List.mem_cons_self, h⟩
      · exact Or.inr ⟨t, List.mem_cons_of_mem _ h, h'⟩
    · intro t ht
      rcases i6 t ht with h | h
      · by_cases hta : t = a
        · subst hta
          rcases c7 ht with h' | h'
          · left; rw [h, h', List.count_cons_self]; omega
          · exact Or.inr h'
        · obtain ⟨d1, d2⟩ := c6 t hta
          left
          rw [h, d1, d2, List.count_cons_of_ne (Ne.symm hta)]
      · exact Or.inr h

/-! ## The invariant -/

structure EInv (P : Prog) (y : Sys) : Prop where
  flags : Flags P y.st.m
  start : 0 < y.st.start
  now : Now y.st.e
  stop : y.st.e.env.stop.time ≤ FOREVER
  good : Good y.st.e
  act : ∀ ev ∈ y.st.e.env.q, isActive y.st.m (evMode P ev) = true
  past : ∀ x ∈ y.st.e.suspended, x.at_ ≤ x.ev.tag.time
  flat : ∀ x ∈ y.st.e.suspended, ∀ md, evMode P x.ev = some md → P.parent (P.owner md) = none →
    y.st.m.active md = false ∧ x.at_ = if y.st.m.deact md ≠ 0 then y.st.m.deact md else y.st.start
  near : ∀ t md, (P.trigs t).isTimer = true → P.tmode t = some md → P.parent (P.owner md) = none →
    (∀ ev ∈ ofT (some t) y.st.e.env.q, ev.tag.time ≤ y.st.e.env.cur.time + max (P.trigs t).offset (P.trigs t).period) ∧
    (∀ x ∈ suspT t y.st.e.suspended, x.ev.tag.time - x.at_ ≤ max (P.trigs t).offset (P.trigs t).period)
  count : ∀ t md, t ∈ P.timers → 0 < (P.trigs t).period → P.tmode t = some md → P.parent (P.owner md) = none →
    (ofT (some t) y.st.e.env.q).length + (suspT t y.st.e.suspended).length = 1 ∨
    y.st.e.env.stop.time ≤ y.st.e.env.cur.time + max (P.trigs t).offset (P.trigs t).period

/-- A mode of a top-level reactor is active iff it is the current mode. -/
theorem flat_active {P : Prog} {m : Modes} (f : Flags P m) {md : Nat} (hmd : P.owner md < P.n)
    (hp : P.parent (P.owner md) = none) : m.active md = true ↔ m.current (P.owner md) = md := by
  rw [f.act md hmd]
  exact ⟨fun h => h.cur, fun h => .mk md h (fun p h' => by rw [hp] at h'; cases h')⟩

/-- What the transitions do to the current mode and the time of deactivation. -/
theorem process_cur {P : Prog} (ok : P.Ok) (s : St) (f : Flags P s.m) {md : Nat} (hmd : P.owner md < P.n) :
    (process P s).m.current (P.owner md) = goesTo P s.m (P.owner md) ∧
    (process P s).m.deact md = if s.m.current (P.owner md) = md ∧
      (target P s.m.next s.m.change (P.owner md)).isSome = true then s.e.env.cur.time else s.m.deact md := by
  rcases process_modes ok s f with ⟨_, h⟩ | ⟨hno, h, _⟩
  · exact ⟨by rw [h.cur, if_pos hmd], h.left md hmd⟩
  · refine ⟨?_, ?_⟩
    · rw [h]; unfold goesTo; rw [hno _ hmd]
    · rw [h, hno _ hmd]; simp

theorem process_EInv {P : Prog} (ok : P.Ok) (tok : P.TimersOk) {y : Sys} (i : EInv P y) :
    EInv P { y with st := process P y.st, done := true } := by
  obtain ⟨g1, g2, g3, g4, g5, g6⟩ := process_good ok tok y.st i.flags i.good i.now i.act
  have f' := process_flags ok i.flags
  have trig := fun (t md : Nat) (ht : P.tmode t = some md) =>
    process_trig ok tok y.st i.flags i.good i.now ht i.act
  -- where the reactor of a top-level mode goes
  have hin : ∀ md, P.owner md < P.n → P.parent (P.owner md) = none →
      (target P y.st.m.next y.st.m.change (P.owner md)).map Prod.fst = some md → (process P y.st).m.active md = true := by
    intro md hmd hp h
    rw [flat_active f' hmd hp, (process_cur ok y.st i.flags hmd).1]
    unfold goesTo
    cases hx : target P y.st.m.next y.st.m.change (P.owner md) with
    | none => rw [hx] at h; cases h
    | some x => rw [hx] at h; simpa using h
  have hin' : ∀ md, P.owner md < P.n → P.parent (P.owner md) = none →
      (target P y.st.m.next y.st.m.change (P.owner md)).map Prod.fst ≠ some md →
      ((process P y.st).m.active md = true ↔
        y.st.m.active md = true ∧ target P y.st.m.next y.st.m.change (P.owner md) = none) := by
    intro md hmd hp h
    rw [flat_active f' hmd hp, flat_active i.flags hmd hp, (process_cur ok y.st i.flags hmd).1]
    unfold goesTo
    cases hx : target P y.st.m.next y.st.m.change (P.owner md) with
    | none => simp
    | some x => rw [hx] at h; simpa using h
  refine ⟨f', by rw [g4]; exact i.start, by show Now (process P y.st).e; unfold Now; rw [g2]; exact i.now,
    by rw [g3]; exact i.stop, g1, g5, ?_, ?_, ?_, ?_⟩
  · intro x hx
    rcases g6 x hx with h | ⟨_, h, _⟩
    · exact i.past x h
    · exact h
  · intro x hx md hmode hp
    obtain ⟨t, ht1, ht2⟩ := evMode_some hmode
    have hmd := tok.own t md ht2
    obtain ⟨q, l, o, _, o3⟩ := trig t md ht2
    have hx' : x ∈ suspT t (process P y.st).e.suspended := mem_suspT.2 ⟨hx, ht1⟩
    rw [o3] at hx'
    by_cases htg : (target P y.st.m.next y.st.m.change (P.owner md)).map Prod.fst = some md
    · rw [if_pos (hin md hmd hp htg), o.gone htg] at hx'
      cases hx'
    · obtain ⟨s1, s2⟩ := o.stays htg
      obtain ⟨_, hd⟩ := process_cur ok y.st i.flags hmd
      have hold : x ∈ suspT t y.st.e.suspended → (process P y.st).m.active md = false ∧
          x.at_ = if (process P y.st).m.deact md ≠ 0 then (process P y.st).m.deact md else (process P y.st).start := by
        intro h
        obtain ⟨a1, a2⟩ := i.flat x (mem_suspT.1 h).1 md hmode hp
        have hcur : ¬ y.st.m.current (P.owner md) = md := by
          rw [← flat_active i.flags hmd hp, a1]; simp
        have hd' : (process P y.st).m.deact md = y.st.m.deact md := by rw [hd, if_neg (fun h => hcur h.1)]
        rw [hd', g4]
        refine ⟨?_, a2⟩
        rw [Bool.eq_false_iff]
        intro h
        rw [hin' md hmd hp htg, a1] at h
        cases h.1
      split at hx'
      · rw [s2] at hx'; exact hold hx'
      · rename_i hna
        rcases List.mem_append.1 hx' with h | h
        · rw [List.mem_reverse, List.mem_map] at h
          obtain ⟨ev, he, rfl⟩ := h
          rw [s1] at he
          have ha := i.act ev (mem_ofT.1 he).1
          rw [show evMode P ev = some md from hmode] at ha
          replace ha : y.st.m.active md = true := ha
          have hsome : (target P y.st.m.next y.st.m.change (P.owner md)).isSome = true := by
            cases hz : target P y.st.m.next y.st.m.change (P.owner md) with
            | none => exact absurd ((hin' md hmd hp htg).2 ⟨ha, hz⟩) hna
            | some z => rfl
          refine ⟨by simpa using hna, ?_⟩
          show y.st.e.env.cur.time = _
          have hd' : (process P y.st).m.deact md = y.st.e.env.cur.time := by
            rw [hd, if_pos ⟨(flat_active i.flags hmd hp).1 ha, hsome⟩]
          have h0 : (process P y.st).m.deact md ≠ 0 := by rw [hd']; have := i.now.1; omega
          rw [if_pos h0, hd']
        · rw [s2] at h; exact hold h
  · intro t md hti ht hp
    have hmd := tok.own t md ht
    obtain ⟨q, l, o, o2, o3⟩ := trig t md ht
    obtain ⟨n1, n2⟩ := i.near t md hti ht hp
    show (∀ ev ∈ ofT (some t) (process P y.st).e.env.q, _ ≤ (process P y.st).e.env.cur.time + _) ∧
      (∀ x ∈ suspT t (process P y.st).e.suspended, _)
    rw [o2, o3, g2]
    by_cases htg : (target P y.st.m.next y.st.m.change (P.owner md)).map Prod.fst = some md
    · rw [if_pos (hin md hmd hp htg), if_pos (hin md hmd hp htg), o.gone htg]
      refine ⟨fun ev hev => ?_, fun x hx => by cases hx⟩
      cases hz : target P y.st.m.next y.st.m.change (P.owner md) with
      | none => rw [hz] at htg; cases htg
      | some z =>
        rw [hz] at htg
        simp only [Option.map_some, Option.some.injEq] at htg
        have hz' : target P y.st.m.next y.st.m.change (P.owner md) = some (md, z.2) := by rw [hz, ← htg]
        by_cases hch : z.2 = .reset_transition
        · rw [hch] at hz'
          rcases (o.resetTimer hz' hti).1 ev hev with h | ⟨_, h⟩
          · exact n1 ev h
          · omega
        · by_cases hcur : y.st.m.current (P.owner md) = md
          · rw [o.self z.2 hz' hch hcur] at hev; exact n1 ev hev
          · rcases (o.history z.2 hz' hch hcur (tok.policy t hti)).1 ev hev with h | ⟨x, h, _, h'⟩
            · exact n1 ev h
            · have n3 := n2 x h
              obtain ⟨h1, h2⟩ := mem_suspT.1 h
              have n4 := (i.flat x h1 md (by unfold evMode; rw [h2]; exact ht) hp).2
              rw [h']
              unfold resumeTag
              simp only []
              rw [← n4]
              omega
    · obtain ⟨s1, s2⟩ := o.stays htg
      rw [s1, s2]
      split
      · exact ⟨n1, n2⟩
      · refine ⟨fun ev hev => (by cases hev), fun x hx => ?_⟩
        rcases List.mem_append.1 hx with h | h
        · rw [List.mem_reverse, List.mem_map] at h
          obtain ⟨ev, he, rfl⟩ := h
          have := n1 ev he
          show ev.tag.time - y.st.e.env.cur.time ≤ _
          omega
        · exact n2 x h
  · intro t md htm hper ht hp
    have hti := tok.are t htm
    have hmd := tok.own t md ht
    obtain ⟨q, l, o, o2, o3⟩ := trig t md ht
    obtain ⟨n1, n2⟩ := i.near t md hti ht hp
    show (ofT (some t) (process P y.st).e.env.q).length + (suspT t (process P y.st).e.suspended).length = 1 ∨
      (process P y.st).e.env.stop.time ≤ (process P y.st).e.env.cur.time + _
    rw [o2, o3, g2, g3]
    rcases i.count t md htm hper ht hp with hc | hc
    · by_cases htg : (target P y.st.m.next y.st.m.change (P.owner md)).map Prod.fst = some md
      · rw [if_pos (hin md hmd hp htg), if_pos (hin md hmd hp htg), o.gone htg]
        simp only [List.length_nil, Nat.add_zero]
        cases hz : target P y.st.m.next y.st.m.change (P.owner md) with
        | none => rw [hz] at htg; cases htg
        | some z =>
          rw [hz] at htg
          simp only [Option.map_some, Option.some.injEq] at htg
          have hz' : target P y.st.m.next y.st.m.change (P.owner md) = some (md, z.2) := by rw [hz, ← htg]
          have hsl : ∀ x ∈ suspT t y.st.e.suspended, x.at_ = (if y.st.m.deact md ≠ 0 then y.st.m.deact md else y.st.start) ∧
              y.st.m.active md = false := by
            intro x h
            obtain ⟨h1, h2⟩ := mem_suspT.1 h
            have := i.flat x h1 md (by unfold evMode; rw [h2]; exact ht) hp
            exact ⟨this.2, this.1⟩
          by_cases hch : z.2 = .reset_transition
          · rw [hch] at hz'
            have hfit := (o.resetTimer hz' hti).2
            by_cases hS : y.st.e.env.cur.time + (P.trigs t).offset < y.st.e.env.stop.time
            · left
              have hk := congrArg List.length (hfit (by have := i.stop; omega) hS)
              rw [if_neg (by omega)] at hk
              simp only [List.length_map, List.length_append, List.length_replicate, Nat.add_zero] at hk
              omega
            · right; omega
          · by_cases hcur : y.st.m.current (P.owner md) = md
            · rw [o.self z.2 hz' hch hcur]
              have hact := (flat_active i.flags hmd hp).2 hcur
              have hnil : suspT t y.st.e.suspended = [] := by
                rw [List.eq_nil_iff_forall_not_mem]
                intro x hx
                have := (hsl x hx).2
                rw [hact] at this; cases this
              rw [hnil] at hc
              left; simpa using hc
            · by_cases hfit : ∀ x ∈ suspT t y.st.e.suspended,
                  (resumeTag y.st.start y.st.m md y.st.e.env.cur x.ev).time < y.st.e.env.stop.time
              · have hhist := (o.history z.2 hz' hch hcur (tok.policy t hti)).2 (fun x hx => ⟨?_, hfit x hx⟩)
                · left
                  have hk := congrArg List.length hhist
                  simp only [List.length_map, List.length_append, List.length_reverse] at hk
                  omega
                · have h1 := (hsl x hx).1
                  have h2 := i.past x (mem_suspT.1 hx).1
                  unfold resumeTag
                  simp only []
                  rw [← h1, Tag.lt_def]
                  simp only []
                  have h3 := i.now.2.2
                  by_cases hr : x.ev.tag.time - x.at_ = 0
                  · right
                    rw [if_pos hr]
                    simp only [wrapU32, UINT_MAX] at *
                    omega
                  · left; omega
              · right
                have : ∃ x ∈ suspT t y.st.e.suspended,
                    ¬ (resumeTag y.st.start y.st.m md y.st.e.env.cur x.ev).time < y.st.e.env.stop.time := by
                  by_contra hne
                  apply hfit
                  intro x hx
                  by_contra hne'
                  exact hne ⟨x, hx, hne'⟩
                obtain ⟨x, hx, hx'⟩ := this
                have h1 := (hsl x hx).1
                have h2 := n2 x hx
                unfold resumeTag at hx'
                simp only [] at hx'
                rw [← h1] at hx'
                omega
      · obtain ⟨s1, s2⟩ := o.stays htg
        rw [s1, s2]
        left
        split
        · exact hc
        · simp only [List.length_nil, List.length_append, List.length_reverse, List.length_map]
          omega
    · exact Or.inr hc

theorem pop_EInv {P : Prog} (tok : P.TimersOk) {y : Sys} (i : EInv P y) {g : Tag} (h1 : y.st.e.env.cur < g)
    (h2 : ∀ ev ∈ y.st.e.env.q, g ≤ ev.tag) (h3 : g.time < FOREVER) (h4 : g.microstep + 1 < UINT_MAX) :
    EInv P { y with st := { y.st with e := pop P g y.st.e } } := by
  have hct : y.st.e.env.cur.time ≤ g.time := by rw [Tag.lt_def] at h1; omega
  let e1 : Events := { y.st.e with
    env := { y.st.e.env with cur := g, q := y.st.e.env.q.filter (fun ev => ev.tag ≠ g) } }
  have hn1 : Now e1 := ⟨by have := i.now.1; show 0 < g.time; omega, h3, h4⟩
  have hg1 : Good e1 := by
    refine ⟨?_, ?_, ?_⟩
    · intro a ha; exact i.good.ids a (List.mem_filter.1 ha).1
    · intro a ha b hb; exact i.good.inj a (List.mem_filter.1 ha).1 b (List.mem_filter.1 hb).1
    · intro a ha
      have := h2 a (List.mem_filter.1 ha).1
      rw [Tag.le_def] at this
      show g.time ≤ a.tag.time
      omega
  obtain ⟨r1, _, r3⟩ := repop_spec tok (y.st.e.env.q.filter (fun ev => ev.tag = g)) e1 hg1 hn1 i.stop
  have hpop : pop P g y.st.e = repop P (y.st.e.env.q.filter (fun ev => ev.tag = g)) e1 := rfl
  rw [← hpop] at r1 r3
  have hsusp : (pop P g y.st.e).suspended = y.st.e.suspended := r1.susp
  have hcur : (pop P g y.st.e).env.cur = g := r1.cur
  have hstop : (pop P g y.st.e).env.stop = y.st.e.env.stop := r1.stop
  have hsub : ∀ ev ∈ e1.env.q, ev ∈ y.st.e.env.q := fun ev h => (List.mem_filter.1 h).1
  refine ⟨i.flags, i.start, r1.now hn1, by rw [hstop]; exact i.stop, r1.good, ?_, by rw [hsusp]; exact i.past,
    by rw [hsusp]; exact i.flat, ?_, ?_⟩
  · intro ev hev
    rcases r1.mem hev with h | ⟨t, ht, _, _, ev', he, ht'⟩
    · exact i.act ev (hsub ev h)
    · have := i.act ev' (List.mem_filter.1 he).1
      unfold evMode at this ⊢
      rw [ht'] at this
      rw [ht]; exact this
  · intro t md hti ht hp
    obtain ⟨n1, n2⟩ := i.near t md hti ht hp
    show (∀ ev ∈ ofT (some t) (pop P g y.st.e).env.q, _ ≤ (pop P g y.st.e).env.cur.time + _) ∧
      (∀ x ∈ suspT t (pop P g y.st.e).suspended, _)
    rw [hsusp, hcur]
    refine ⟨fun ev hev => ?_, n2⟩
    have hold : ev ∈ ofT (some t) e1.env.q → ev.tag.time ≤ g.time + max (P.trigs t).offset (P.trigs t).period := by
      intro h
      obtain ⟨ha, hb⟩ := mem_ofT.1 h
      have := n1 ev (mem_ofT.2 ⟨hsub ev ha, hb⟩)
      omega
    by_cases hper : 0 < (P.trigs t).period
    · rcases (r3 t hti hper).1 ev hev with h | h
      · exact hold h
      · replace h : ev.tag.time ≤ g.time + (P.trigs t).period := h
        omega
    · have := r1.other (some t) (fun t' h h' => by cases h; exact hper h'.2.1)
      rw [this] at hev
      exact hold hev
  · intro t md htm hper ht hp
    have hti := tok.are t htm
    show (ofT (some t) (pop P g y.st.e).env.q).length + (suspT t (pop P g y.st.e).suspended).length = 1 ∨
      (pop P g y.st.e).env.stop.time ≤ (pop P g y.st.e).env.cur.time + _
    rw [hsusp, hcur, hstop]
    rcases i.count t md htm hper ht hp with hc | hc
    · rcases (r3 t hti hper).2 with h | h
      · left
        rw [h]
        have hlen : ∀ q : List Event, (ofT (some t) (q.filter (fun ev => ev.tag ≠ g))).length +
            (ofT (some t) (q.filter (fun ev => ev.tag = g))).length = (ofT (some t) q).length := by
          intro q
          induction q with
          | nil => rfl
          | cons a q ih =>
            unfold ofT at *
            by_cases ha : a.tag = g <;> by_cases hb : a.trigger = some t <;> simp [ha, hb] at * <;> omega
        have := hlen y.st.e.env.q
        show (ofT (some t) (y.st.e.env.q.filter (fun ev => ev.tag ≠ g))).length + _ + _ = 1
        omega
      · right
        replace h : y.st.e.env.stop.time ≤ g.time + (P.trigs t).period := h
        omega
    · right; omega

theorem handle_EInv {P : Prog} {y : Sys} (i : EInv P y) : EInv P (handleModes P y) := by
  obtain ⟨k1, k2, k3, k4, k5⟩ := clearLoop_same y.st.m P.n
  have ha : (handleModes P y).st.m.active = y.st.m.active := k3
  have hd : (handleModes P y).st.m.deact = y.st.m.deact := k5
  refine ⟨startupReset_flags i.flags, i.start, i.now, i.stop, i.good, ?_, i.past, ?_, i.near, i.count⟩
  · intro ev hev
    have := i.act ev hev
    unfold isActive at *
    rw [ha]; exact this
  · rw [ha, hd]; exact i.flat

theorem reach_EInv {P : Prog} (ok : P.Ok) (tok : P.TimersOk) {y : Sys} (h : Reach P y) : EInv P y := by
  induction h with
  | boot start stop vars h1 h2 h3 =>
    refine handle_EInv ?_
    obtain ⟨_, _, _, a4, _, _, _, _, a9⟩ := initLoop_spec ok P.n (Nat.le_refl _)
    have hde : (initModes P).deact = fun _ => 0 := a9
    let e0 : Events := { env := { cur := ⟨start, 0⟩, stop := stop, q := [], last := fun _ => NEVER_TAG, handle := 1, rc := fun _ => 0 }
                         suspended := [], vars := vars, nextId := 0 }
    have hn0 : Now e0 := ⟨h1, h2, by show 0 + 1 < UINT_MAX; decide⟩
    have hg0 : Good e0 := ⟨fun a h => (by cases h), fun a h => (by cases h), fun a h => (by cases h)⟩
    obtain ⟨b1, b2, b3, b4, b5, b6⟩ := initTimers_spec tok (initModes P) P.timers tok.are e0 hg0 hn0
    refine ⟨initModes_flags ok, h1, ?_, ?_, b3, ?_, ?_, ?_, ?_, ?_⟩
    · show Now (initTimers P (initModes P) P.timers e0)
      unfold Now; rw [b1]; exact hn0
    · show (initTimers P (initModes P) P.timers e0).env.stop.time ≤ FOREVER
      rw [b2]; exact h3
    · intro ev hev
      rcases b4 ev hev with h | ⟨t, _, h, h', _⟩
      · cases h
      · unfold evMode; rw [h]; exact h'
    · intro x hx
      rcases b5 x hx with h | ⟨t, ht, _, _, h, h'⟩
      · cases h
      · have := tok.offset t (tok.are t ht)
        rw [h', h]; omega
    · intro x hx md hm hp
      rcases b5 x hx with h | ⟨t, ht, h1', h2', h, h'⟩
      · cases h
      · unfold evMode at hm
        rw [h1'] at hm
        simp only [] at hm
        rw [hm] at h2'
        refine ⟨h2', ?_⟩
        show x.at_ = if (initModes P).deact md ≠ 0 then _ else start
        rw [hde, h]
        rfl
    · intro t md hti ht hp
      refine ⟨fun ev hev => ?_, fun x hx => ?_⟩
      · obtain ⟨h, h'⟩ := mem_ofT.1 hev
        rcases b4 ev h with hh | ⟨t', _, hh, _, hh'⟩
        · cases hh
        · rw [h'] at hh; cases hh
          show ev.tag.time ≤ (initTimers P (initModes P) P.timers e0).env.cur.time + _
          rw [b1]; exact hh'
      · obtain ⟨h, h'⟩ := mem_suspT.1 hx
        rcases b5 x h with hh | ⟨t', _, hh, _, hh', hh''⟩
        · cases hh
        · rw [h'] at hh; cases hh
          rw [hh', hh'']; omega
    · intro t md htm hper ht hp
      show (ofT (some t) (initTimers P (initModes P) P.timers e0).env.q).length +
        (suspT t (initTimers P (initModes P) P.timers e0).suspended).length = 1 ∨
        (initTimers P (initModes P) P.timers e0).env.stop.time ≤
          (initTimers P (initModes P) P.timers e0).env.cur.time + _
      rw [b1, b2]
      rcases b6 t hper with h | h
      · left
        rw [h, List.count_eq_one_of_mem tok.nodup htm]
        rfl
      · exact Or.inr h
  | @step y z _ hs ih =>
    cases hs with
    | setMode md ch _ _ _ _ =>
      exact ⟨setMode_flags ih.flags md ch, ih.start, ih.now, ih.stop, ih.good, ih.act, ih.past, ih.flat, ih.near, ih.count⟩
    | schedule t tag tk hti hact hcmp =>
      have hlt : y.st.e.env.cur < tag := (cmp_gt_zero _ _).1 hcmp
      have hg : Good { y.st.e with
          env := { y.st.e.env with q := ⟨y.st.e.nextId, tag, some t, tk⟩ :: y.st.e.env.q }
          nextId := y.st.e.nextId + 1 } :=
        (eff_cons (env := { y.st.e.env with q := ⟨y.st.e.nextId, tag, some t, tk⟩ :: y.st.e.env.q }) (t := t) (tok := tk)
          (tag := tag) ih.good rfl rfl rfl (by rw [Tag.lt_def] at hlt; omega)).good
      have hoth : ∀ t', (P.trigs t').isTimer = true →
          ofT (some t') (⟨y.st.e.nextId, tag, some t, tk⟩ :: y.st.e.env.q) = ofT (some t') y.st.e.env.q := by
        intro t' ht'
        unfold ofT
        rw [List.filter_cons_of_neg]
        intro h
        simp only [Option.some.injEq, decide_eq_true_iff] at h
        rw [h, ht'] at hti
        cases hti
      refine ⟨ih.flags, ih.start, ih.now, ih.stop, hg, ?_, ih.past, ih.flat, ?_, ?_⟩
      · intro ev hev
        rcases List.mem_cons.1 hev with rfl | hev
        · exact hact
        · exact ih.act ev hev
      · intro t' md ht' hm hp
        have := ih.near t' md ht' hm hp
        rw [← hoth t' ht'] at this
        exact this
      · intro t' md ht' hper hm hp
        have := ih.count t' md ht' hper hm hp
        rw [← hoth t' (tok.are t' ht')] at this
        exact this
    | process hd => exact process_EInv ok tok ih
    | advance g hd h1 h2 h3 h4 =>
      exact handle_EInv (pop_EInv tok ih ((cmp_gt_zero _ _).1 h1) (fun ev h => (cmp_le_zero _ _).1 (h2 ev h)) h3 h4)

end ReactorC.Modes
