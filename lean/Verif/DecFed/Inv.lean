import Verif.DecFed.Chan

/-! What holds of a federation with decentralized coordination. -/

set_option linter.unusedVariables false

namespace ReactorC.DecFed
open ReactorC
open ReactorC.Rti (Topology Sane put put_same put_other)
open ReactorC.FedDet (Program Entry Event Inputs Out Fit Single present upTo upTo_cons_old upTo_cons_new Rising)
open ReactorC.Level (Config MIN_SLEEP_DURATION Small exempt blocks waitOver newKnown upd)
open ReactorC.Decentral (Ev Delivery due nextTag open_ raise release handle inTime good_inTime reach_timely dueBy)

structure Inv (S : Setup) (g : State) : Prop where
  fed : ∀ i < S.P.T.n, Loc S i (g.fed i) (g.log i) (g.loc i) (g.fin i)
  chan : ∀ d < S.P.T.n, ∀ p < (S.c d).n, Chan S g d p
  clocks : ∀ i < S.P.T.n, ∀ j < S.P.T.n, (g.fed i).lv.now ≤ (g.fed j).lv.now + S.error
  locs : ∀ i e, e ∈ g.loc i ↔ (e ∈ S.P.init i ∨ ∃ x ∈ g.log i, e ∈ S.P.scheds i (upTo x.1 (g.log i)))
  rising : Rising S.P g.log
  outside : ∀ i, S.P.T.n ≤ i → g.log i = []

theorem put_id {α : Type} (f : Nat → α) (i : Nat) : put f i (f i) = f := by
  funext j
  by_cases c : j = i
  · subst c; rw [put_same]
  · rw [put_other _ _ _ c]

theorem put2 {α : Type} (f : Nat → Nat → α) (d p : Nat) (r : α) (d' p' : Nat) :
    put f d (put (f d) p r) d' p' = if d' = d ∧ p' = p then r else f d' p' := by
  by_cases c : d' = d
  · subst c
    rw [put_same]
    by_cases c2 : p' = p
    · subst c2; rw [put_same, if_pos ⟨rfl, rfl⟩]
    · rw [put_other _ _ _ c2, if_neg fun k => c2 k.2]
  · rw [put_other _ _ _ c, if_neg fun k => c k.1]

variable {S : Setup} {rank : Nat → Nat} {g : State}

/-- A federate changes in a way that does not concern what it has said, read and got. -/
theorem Inv.alone (h : Inv S g) {i : Nat} {s : Decentral.State} {f : Bool} (hl : Loc S i s (g.log i) (g.loc i) f)
    (h1 : s.said = (g.fed i).said) (h2 : s.reading = (g.fed i).reading) (h3 : s.got = (g.fed i).got) (h4 : s.gone = (g.fed i).gone)
    (h5 : (g.fed i).lv.now ≤ s.lv.now) (h6 : ∀ j < S.P.T.n, s.lv.now ≤ (g.fed j).lv.now + S.error)
    (h7 : ∀ p < (S.c i).n, ∀ it ∈ g.chan i p, s.lv.now ≤ it.sent + S.error + S.latency i p)
    (h8 : ∀ u, Passed (g.fed i) (g.fin i) u → Passed s f u)
    (h9 : (g.fed i).lv.phase = .running → g.fin i = true → (g.fed i).lv.cur = S.P.stop → s.lv.phase = .running ∧ f = true ∧ s.lv.cur = S.P.stop) :
    Inv S { g with fed := put g.fed i s, fin := put g.fin i f } where
  fed j hj := by
    dsimp only
    by_cases c : j = i
    · subst c; rw [put_same, put_same]; exact hl
    · rw [put_other _ _ _ c, put_other _ _ _ c]; exact h.fed j hj
  chan d hd p hp := by
    have k := h.chan d hd p hp
    have hsrc : ∀ j, ((∀ u, Passed (g.fed j) (g.fin j) u → Passed (put g.fed i s j) (put g.fin i f j) u) ∧
        ((g.fed j).lv.phase = .running → g.fin j = true → (g.fed j).lv.cur = S.P.stop →
          (put g.fed i s j).lv.phase = .running ∧ put g.fin i f j = true ∧ (put g.fed i s j).lv.cur = S.P.stop)) := by
      intro j
      by_cases c : j = i
      · subst c; rw [put_same, put_same]; exact ⟨h8, h9⟩
      · rw [put_other _ _ _ c, put_other _ _ _ c]; exact ⟨fun _ k => k, fun a b c => ⟨a, b, c⟩⟩
    refine k.keep rfl rfl ?_ ?_ ?_ ?_ ?_ rfl (hsrc _).1 (hsrc _).2
    all_goals
      by_cases c : d = i
      · subst c
        dsimp only
        rw [put_same]
        first | exact congrFun h1 p | (intros; rw [h2]; done) | (intros; rw [h3]; done) | exact congrFun h4 p | exact h7 p hp
      · dsimp only
        rw [put_other _ _ _ c]
        first | done | rfl | (intros; exact Iff.rfl) | exact k.lat
  clocks j hj k hk := by
    dsimp only
    have a := h.clocks j hj k hk
    by_cases c : j = i
    · subst c
      rw [put_same]
      by_cases c2 : k = j
      · subst c2; rw [put_same]; omega
      · rw [put_other _ _ _ c2]; exact h6 k hk
    · rw [put_other _ _ _ c]
      by_cases c2 : k = i
      · subst c2; rw [put_same]; omega
      · rw [put_other _ _ _ c2]; exact a
  locs := h.locs
  rising := h.rising
  outside := h.outside

theorem now_error (h : Inv S g) {i : Nat} (hi : i < S.P.T.n) : 0 ≤ S.error := by have := h.clocks i hi i hi; omega

theorem Inv.own (h : Inv S g) (hS : S.Ok rank) {i : Nat} {s : Decentral.State} (hi : i < S.P.T.n) (st : Own (S.c i) (g.fed i) s) :
    Inv S { g with fed := put g.fed i s } := by
  have e : ({ g with fed := put g.fed i s } : State) = { g with fed := put g.fed i s, fin := put g.fin i (g.fin i) } := by rw [put_id]
  have hl := (h.fed i hi).own hS hi st
  have hnow : s.lv.now = (g.fed i).lv.now := by
    cases st with
    | begin hp hw => rfl
    | wait hp hn hw => rfl
    | @stall level hp => dsimp only; unfold Level.stall; split <;> rfl
    | @arm v hp => rfl
    | @timeout j t u hj hw ho hc hst hs =>
      obtain ⟨m, sl, e⟩ := Decentral.updatePort_lv (S.c i) { (g.fed i).lv with status := upd (g.fed i).lv.status j .absent } j (g.fed i).lv.cur
      dsimp only; rw [e]
  have hrun : (g.fed i).lv.phase = .running → s.lv.phase = .running ∧ s.lv.cur = (g.fed i).lv.cur := by
    intro hr
    cases st with
    | begin hp hw => rw [hr] at hp; cases hp
    | wait hp hn hw => exact ⟨hr, rfl⟩
    | @stall level hp => dsimp only; unfold Level.stall; split <;> exact ⟨hr, rfl⟩
    | @arm v hp => exact ⟨hr, rfl⟩
    | @timeout j t u hj hw ho hc hst hs =>
      obtain ⟨m, sl, e⟩ := Decentral.updatePort_lv (S.c i) { (g.fed i).lv with status := upd (g.fed i).lv.status j .absent } j (g.fed i).lv.cur
      dsimp only; rw [e]; exact ⟨hr, rfl⟩
  rw [e]
  refine h.alone hl ?_ ?_ ?_ ?_ (by rw [hnow]) (fun j hj => by rw [hnow]; exact h.clocks i hi j hj)
    (fun p hp => by rw [hnow]; exact (h.chan i hi p hp).lat) (fun u k => ?_) fun a b c => ?_
  · cases st <;> rfl
  · cases st <;> rfl
  · cases st <;> rfl
  · cases st <;> rfl
  · obtain ⟨k1, k2⟩ := hrun k.1
    exact ⟨k1, by rw [k2]; exact k.2⟩
  · obtain ⟨k1, k2⟩ := hrun a
    exact ⟨k1, b, by rw [k2]; exact c⟩

theorem Inv.clock (h : Inv S g) {i : Nat} {t : Int} (hi : i < S.P.T.n) (h1 : (g.fed i).lv.now ≤ t) (h2 : t + MIN_SLEEP_DURATION ≤ FOREVER)
    (h3 : Prompt S g i t) : Inv S { g with fed := put g.fed i { g.fed i with lv := { (g.fed i).lv with now := t } } } := by
  have e : ({ g with fed := put g.fed i { g.fed i with lv := { (g.fed i).lv with now := t } } } : State) =
    { g with fed := put g.fed i { g.fed i with lv := { (g.fed i).lv with now := t } }, fin := put g.fin i (g.fin i) } := by rw [put_id]
  rw [e]
  exact h.alone ((h.fed i hi).clock h1 h2 h3.2.1) rfl rfl rfl rfl h1 h3.1 h3.2.2 (fun _ k => k) fun a b c => ⟨a, b, c⟩

theorem Inv.start (h : Inv S g) (hS : S.Ok rank) {i : Nat} {l : List Ev} (hi : i < S.P.T.n) (hp : (g.fed i).lv.phase = .atStart)
    (ho : open_ (g.fed i) (S.c i).start) (hl : l.Perm (due (g.fed i).q (S.c i).start)) :
    Inv S { g with fed := put g.fed i (Decentral.start_ (S.c i) (g.fed i) l) } := by
  have e : ({ g with fed := put g.fed i (Decentral.start_ (S.c i) (g.fed i) l) } : State) =
    { g with fed := put g.fed i (Decentral.start_ (S.c i) (g.fed i) l), fin := put g.fin i (g.fin i) } := by rw [put_id]
  rw [e]
  exact h.alone ((h.fed i hi).start hS hi hp ho hl) rfl rfl rfl rfl (Int.le_refl _) (h.clocks i hi) (fun p hp => (h.chan i hi p hp).lat)
    (fun u k => absurd k.1 (by rw [hp]; simp)) fun a => absurd a (by rw [hp]; simp)

theorem Inv.advance (h : Inv S g) (hS : S.Ok rank) {i : Nat} {p : Tag} {l : List Ev} (hi : i < S.P.T.n) (hf : g.fin i = true)
    (hw : (g.fed i).waited = some p) (hlt : (g.fed i).lv.cur < nextTag (g.fed i)) (h1 : (nextTag (g.fed i)).time < FOREVER)
    (h2 : (nextTag (g.fed i)).microstep < UINT_MAX) (ho : open_ (g.fed i) (nextTag (g.fed i))) (hp : (g.fed i).lv.phase = .running)
    (hl : l.Perm (due (g.fed i).q (nextTag (g.fed i)))) :
    Inv S { g with fed := put g.fed i (Decentral.advance (S.c i) (g.fed i) (nextTag (g.fed i)) l), fin := put g.fin i false } := by
  have k := h.fed i hi
  rw [hf] at k
  refine h.alone (k.advance hS hi hw hlt h1 h2 ho hp hl) rfl rfl rfl rfl (Int.le_refl _) (h.clocks i hi) (fun p hp => (h.chan i hi p hp).lat)
    (fun u k => ⟨hp, .inl ?_⟩) fun a b c => ?_
  · rcases k.2 with k | k
    · exact Tag.lt_trans k hlt
    · rw [k.1]; exact hlt
  · have := Decentral.nextTag_le_stop (g.fed i)
    rw [k.stop, ← c] at this
    exact absurd hlt (Tag.not_lt.2 this)

/-! ## Receiving -/

/-- A federate changes because of what comes in on a port. -/
theorem Inv.receive (h : Inv S g) {i q : Nat} {s : Decentral.State} {l : List Item} (hi : i < S.P.T.n) (hl : Loc S i s (g.log i) (g.loc i) (g.fin i))
    (h1 : ∀ p, p ≠ q → s.said p = (g.fed i).said p) (h2 : ∀ p, p ≠ q → ∀ t v, (p, t, v) ∈ s.reading ↔ (p, t, v) ∈ (g.fed i).reading)
    (h3 : ∀ p, p ≠ q → ∀ t v, (p, t, v) ∈ s.got ↔ (p, t, v) ∈ (g.fed i).got) (h4 : ∀ p, p ≠ q → s.gone p = (g.fed i).gone p)
    (h5 : s.lv.now = (g.fed i).lv.now) (h6 : s.lv.phase = (g.fed i).lv.phase) (h7 : s.lv.cur = (g.fed i).lv.cur)
    (hc : q < (S.c i).n → Chan S { g with fed := put g.fed i s, chan := put g.chan i (put (g.chan i) q l) } i q) :
    Inv S { g with fed := put g.fed i s, chan := put g.chan i (put (g.chan i) q l) } where
  fed j hj := by
    dsimp only
    by_cases c : j = i
    · subst c; rw [put_same]; exact hl
    · rw [put_other _ _ _ c]; exact h.fed j hj
  chan d hd p hp := by
    by_cases cc : d = i ∧ p = q
    · obtain ⟨rfl, rfl⟩ := cc; exact hc hp
    have k := h.chan d hd p hp
    have hsrc : ∀ j, ((∀ u, Passed (g.fed j) (g.fin j) u → Passed (put g.fed i s j) (g.fin j) u) ∧
        ((g.fed j).lv.phase = .running → g.fin j = true → (g.fed j).lv.cur = S.P.stop →
          (put g.fed i s j).lv.phase = .running ∧ g.fin j = true ∧ (put g.fed i s j).lv.cur = S.P.stop)) := by
      intro j
      by_cases c : j = i
      · subst c; rw [put_same, h6, h7]; exact ⟨fun u k => (passed_congr h6 h7 _ u).2 k, fun a b c => ⟨a, b, c⟩⟩
      · rw [put_other _ _ _ c]; exact ⟨fun _ k => k, fun a b c => ⟨a, b, c⟩⟩
    refine k.keep (by dsimp only; rw [put2, if_neg cc]) rfl ?_ ?_ ?_ ?_ ?_ rfl (hsrc _).1 (hsrc _).2
    all_goals
      by_cases c : d = i
      · subst c
        have c2 : p ≠ q := fun k => cc ⟨rfl, k⟩
        dsimp only
        rw [put_same]
        first | exact h1 p c2 | exact h2 p c2 | exact h3 p c2 | exact h4 p c2 | rw [h5]; exact k.lat
      · dsimp only
        rw [put_other _ _ _ c]
        first | done | rfl | (intros; exact Iff.rfl) | exact k.lat
  clocks j hj k hk := by
    dsimp only
    have a := h.clocks j hj k hk
    by_cases c : j = i
    · subst c
      rw [put_same]
      by_cases c2 : k = j
      · subst c2; rw [put_same]; omega
      · rw [put_other _ _ _ c2]; omega
    · rw [put_other _ _ _ c]
      by_cases c2 : k = i
      · subst c2; rw [put_same]; omega
      · rw [put_other _ _ _ c2]; exact a
  locs := h.locs
  rising := h.rising
  outside := h.outside

theorem Inv.upSrc {i : Nat} {s : Decentral.State} {ch : Nat → Nat → List Item} (h6 : s.lv.phase = (g.fed i).lv.phase)
    (h7 : s.lv.cur = (g.fed i).lv.cur) {d p : Nat} {t : Tag} {vo : Option Nat} {u : Tag} (k : Src S g d p t vo u) :
    Src S { g with fed := put g.fed i s, chan := ch } d p t vo u := by
  refine k.mono (fun u k => ?_) fun x hx => ⟨hx, rfl⟩
  dsimp only
  by_cases c : S.from_ d p = i
  · rw [c] at k ⊢; rw [put_same]; exact (passed_congr h6 h7 _ u).2 k
  · rw [put_other _ _ _ c]; exact k

theorem Inv.header (h : Inv S g) (hS : S.Ok rank) {d p : Nat} {t : Tag} {v : Nat} {a : Int} {rest : List Item} (hd : d < S.P.T.n)
    (hp : p < (S.c d).n) (hc : g.chan d p = ⟨t, some v, a⟩ :: rest) (hr : ∀ r ∈ (g.fed d).reading, r.1 ≠ p) :
    Inv S { g with fed := put g.fed d { raise (g.fed d) t with
      reading := (p, t, v) :: (g.fed d).reading, said := upd (g.fed d).said p t } } := by
  have K := h.chan d hd p hp
  have hm : (⟨t, some v, a⟩ : Item) ∈ g.chan d p := by rw [hc]; exact List.mem_cons_self
  obtain ⟨u, k1, k2⟩ := K.src _ hm
  have k5 := k1.tag
  have k6 := k1.fit
  dsimp only at k1 k2 k5 k6
  have hst : (S.c d).start ≤ u := by rw [start_first hS hd]; exact k1.first
  have hx : exempt (S.c d) t p = false := by
    rw [k5] at k6 ⊢; exact exempt_false (hS.wf d hd).lv hst k1.fitU k6
  have hl := (h.fed d hd).header hS hd (v := v) hp (by rw [start_first hS hd]; exact k1.first_le) k6 hx hr (K.ordered hm hr) (K.due hS hd hp hm)
  have e : ({ g with fed := put g.fed d { raise (g.fed d) t with
      reading := (p, t, v) :: (g.fed d).reading, said := upd (g.fed d).said p t } } : State) =
    { g with fed := put g.fed d { raise (g.fed d) t with
      reading := (p, t, v) :: (g.fed d).reading, said := upd (g.fed d).said p t }, chan := put g.chan d (put (g.chan d) p (g.chan d p)) } := by
    rw [put_id, put_id]
  rw [e]
  refine h.receive hd hl (fun q hq => ?_) (fun q hq t v => ?_) (fun q hq t v => Iff.rfl) (fun q hq => rfl) rfl rfl rfl fun _ => ?_
  · dsimp only; unfold upd; rw [if_neg hq]
  · dsimp only
    rw [List.mem_cons]
    constructor
    · rintro (k | k)
      · cases k; exact absurd rfl hq
      · exact k
    · exact .inr
  · rw [put_id, put_id]
    have up : ∀ {t' vo u'}, Src S g d p t' vo u' → Src S { g with fed := put g.fed d { raise (g.fed d) t with
      reading := (p, t, v) :: (g.fed d).reading, said := upd (g.fed d).said p t } } d p t' vo u' :=
      fun k => by refine Inv.upSrc ?_ ?_ k <;> rfl
    refine ⟨?_, ?_, ?_, ?_, ?_, ?_, ?_, ?_, ?_, ?_, ?_⟩
    · exact K.sorted
    · exact K.within
    · dsimp only; rw [put_same]; dsimp only; unfold upd; rw [if_pos rfl]; exact K.within _ hm
    · dsimp only; rw [put_same]; dsimp only
      intro t' v' k
      rcases List.mem_cons.1 k with k | k
      · cases k; exact ⟨a, rest, hc⟩
      · exact absurd rfl (hr _ k)
    · dsimp only; rw [put_same]; dsimp only
      intro k; exact absurd List.mem_cons_self (k t v)
    · intro it hi
      obtain ⟨u, k1, k2⟩ := K.src it hi
      exact ⟨u, up k1, k2⟩
    · dsimp only; rw [put_same]; exact K.lat
    · right
      dsimp only; rw [put_same]; dsimp only; unfold upd; rw [if_pos rfl]
      exact ⟨_, u, up k1⟩
    · dsimp only; rw [put_same]; dsimp only
      intro t' v' k
      obtain ⟨u, k1⟩ := K.got t' v' k
      exact ⟨u, up k1⟩
    · dsimp only; rw [put_same]; dsimp only
      intro k
      have := (K.gone k).1
      rw [this] at hc; cases hc
    · dsimp only; rw [put_same]; exact K.posted

end ReactorC.DecFed
