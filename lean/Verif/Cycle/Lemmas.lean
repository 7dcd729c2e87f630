import Verif.Cycle.Spec
import Verif.Level.Inv
import Mathlib.Tactic.ByContra

/-!
# C85: the invariant
-/

namespace ReactorC.Cycle
open ReactorC
variable {S V : Type} {P : Prog S V} {g : Tag} {x : Nat → S}

theorem upd_same {α : Type} (f : Nat → α) (i : Nat) (a : α) : upd f i a i = a := if_pos rfl

theorem upd_other {α : Type} (f : Nat → α) {i j : Nat} (a : α) (h : j ≠ i) : upd f i a j = f j := if_neg h

/-- What holds of one federate. -/
structure FedInv (P : Prog S V) (g : Tag) (x : Nat → S) (j : Nat) (f : Fed S V) : Prop where
  running : f.lv.phase = .running
  curB : f.pc = .before → f.lv.cur < g
  curA : f.pc ≠ .before → f.lv.cur = g ∧ g ≤ f.lv.lastTAG
  prov : g ≤ f.lv.lastTAG → (f.lv.lastTAG = g ∧ f.lv.prov = true) ∨ ∀ p < (P.cfg j).n, g ≤ f.lv.known p
  level : f.pc ≠ .before → ∀ L < Level.INT_MAX, (L < f.lv.mlaa ↔
    ∀ p < (P.cfg j).n, ((P.cfg j).port p).cycle = true → ((P.cfg j).port p).level ≤ L → g ≤ f.lv.known p)
  asleep : ∀ M, f.lv.asleep M = true → f.pc = .level M ∧ f.lv.mlaa ≤ M ∧ M < P.levels j
  rangeL : ∀ L, f.pc = .level L → L ≤ P.levels j
  rangeP : ∀ L, f.pc = .passed L → L < P.levels j
  admitted : ∀ p < (P.cfg j).n, ((P.cfg j).port p).cycle = true → ((P.cfg j).port p).level < adm P j f.pc → g ≤ f.lv.known p
  tr0 : f.tr 0 = x j
  trS : ∀ L < pos P j f.pc, f.tr (L + 1) = P.exec j L (f.tr L) f.inp
  st : f.st = f.tr (pos P j f.pc)

theorem curLe {j : Nat} {f : Fed S V} (h : FedInv P g x j f) : f.lv.cur ≤ g := by
  by_cases hp : f.pc = .before
  · exact Tag.le_of_lt (h.curB hp)
  · rw [(h.curA hp).1]
    exact Tag.le_refl _

/-- `lf_update_max_level` at the tag. -/
theorem maxLevel_iff {c : Level.Config} (hd : c.dec = false) (hp : ∀ p < c.n, (c.port p).cycle = true → (c.port p).physical = false)
    {known : Nat → Tag} {last : Tag} {prov : Bool} (hg : Level.granted c g last prov = true → ∀ p < c.n, g ≤ known p)
    {L : Nat} (hL : L < Level.INT_MAX) : L < Level.maxLevel c g known last prov ↔
      ∀ p < c.n, (c.port p).cycle = true → (c.port p).level ≤ L → g ≤ known p := by
  have hb : ∀ p, Level.blocks c g known p = true ↔ (c.port p).cycle = true ∧ known p < g ∧ (c.port p).physical = false := by
    intro p
    rw [Level.blocks_iff]
    unfold Level.inTable Level.exempt
    rw [hd]
    simp
  constructor
  · intro h p hpn hc hl
    rw [← Tag.not_lt]
    intro hlt
    by_cases hgr : Level.granted c g last prov = true
    · exact absurd (hg hgr p hpn) (Tag.not_le.2 hlt)
    · have := Level.maxLevel_le (by simpa using hgr) hpn ((hb p).2 ⟨hc, hlt, hp p hpn hc⟩)
      omega
  · intro h
    rcases Level.maxLevel_cases c g known last prov with e | ⟨_, p, hpn, hbl, e⟩
    · rw [e]
      exact hL
    · rw [e]
      obtain ⟨h1, h2, _⟩ := (hb p).1 hbl
      by_contra hlt
      exact absurd (h p hpn h1 (by omega)) (Tag.not_le.2 h2)

theorem newKnown_later {cur known t : Tag} (hc : cur ≤ g) (ht : g ≤ t) (hg : g.microstep < UINT_MAX) (hm : t.microstep < UINT_MAX) :
    g ≤ Level.newKnown cur known t := by
  rcases Level.newKnown_cases cur known t with ⟨h1, h2, _⟩ | ⟨h1, h2, h3, h4⟩ | ⟨_, h2, _⟩
  · rw [h1]
    exact Tag.le_trans ht (Tag.le_of_lt h2)
  · rw [h1]
    have hk : known.microstep < UINT_MAX ∧ g ≤ known := by
      rcases h4 with e | e
      · subst e
        exact ⟨hm, ht⟩
      · subst e
        have h5 := Tag.le_trans ht h2
        have := Tag.le_antisymm hc h5
        subst this
        exact ⟨hg, h5⟩
    rw [Level.bump_small hk.1]
    have := hk.2
    rw [Tag.le_def] at this ⊢
    dsimp only
    omega
  · exact Tag.le_trans ht h2

/-- A message or notice changes what is known about its port only, and makes the status at the tag known. -/
theorem updatePort_known {j : Nat} {f : Fed S V} (h : FedInv P g x j f) (hg : g.microstep < UINT_MAX) {p : Nat} {t : Tag} (ht : g ≤ t)
    (hm : t.microstep < UINT_MAX) :
    g ≤ (Level.updatePort (P.cfg j) f.lv p t).known p ∧
      ∀ q, q ≠ p → (Level.updatePort (P.cfg j) f.lv p t).known q = f.lv.known q := by
  have hk : g ≤ Level.newKnown f.lv.cur (f.lv.known p) t := newKnown_later (curLe h) ht hg hm
  rcases Level.updatePort_cases (P.cfg j) f.lv p t with ⟨e, e'⟩ | e
  · rw [e]
    exact ⟨e' ▸ hk, fun q _ => rfl⟩
  · rw [e]
    refine ⟨?_, fun q hq => if_neg hq⟩
    show g ≤ Level.upd _ _ _ _
    rw [show Level.upd f.lv.known p (Level.newKnown f.lv.cur (f.lv.known p) t) p = _ from if_pos rfl]
    exact hk

/-- What matters for one federate. -/
structure Local (P : Prog S V) : Prop where
  central : ∀ j, (P.cfg j).dec = false
  physical : ∀ j < P.n, ∀ p < (P.cfg j).n, ((P.cfg j).port p).cycle = true → ((P.cfg j).port p).physical = false
  few : ∀ j, P.levels j ≤ 65536
  reads : ∀ j L x i i', (∀ p, ((P.cfg j).port p).level ≤ L → i p = i' p) → P.exec j L x i = P.exec j L x i'

theorem WF.toLocal (hw : WF P) : Local P := by
  refine ⟨hw.central, ?_, hw.few, hw.reads⟩
  intro j hj p hp hc
  obtain ⟨k, hk, e1, e2, _⟩ := hw.connected j hj p hp hc
  subst e1 e2
  exact hw.logical k hk

theorem fed_updatePort (hw : Local P) {j : Nat} (hj : j < P.n) {f : Fed S V} (h : FedInv P g x j f) (hg : g.microstep < UINT_MAX) {p : Nat}
    {t : Tag} (ht : g ≤ t) (hm : t.microstep < UINT_MAX) :
    FedInv P g x j { f with lv := Level.updatePort (P.cfg j) f.lv p t } := by
  obtain ⟨k1, k2⟩ := updatePort_known h hg (p := p) ht hm
  have hmono : ∀ q, g ≤ f.lv.known q → g ≤ (Level.updatePort (P.cfg j) f.lv p t).known q := by
    intro q hq
    by_cases e : q = p
    · rw [e]
      exact k1
    · rw [k2 q e]
      exact hq
  rcases Level.updatePort_cases (P.cfg j) f.lv p t with ⟨e, _⟩ | e
  · rw [e]
    exact h
  · have hmono' := hmono
    rw [e] at hmono'
    rw [e]
    refine ⟨h.running, h.curB, h.curA, ?_, ?_, fun _ hm => (by cases hm), h.rangeL, h.rangeP, ?_, h.tr0, h.trS, h.st⟩
    · intro hl
      rcases h.prov hl with h1 | h1
      · exact Or.inl h1
      · exact Or.inr fun q hq => hmono' q (h1 q hq)
    · intro hb L hL
      have hcur := (h.curA hb).1
      dsimp only at hcur ⊢
      rw [hcur] at hmono' ⊢
      refine maxLevel_iff (hw.central j) (hw.physical j hj) ?_ hL
      intro hgr q hq
      rcases h.prov (h.curA hb).2 with ⟨h1, h2⟩ | h1
      · rw [Level.granted_iff, h1, h2] at hgr
        rcases hgr.2 with h3 | h3
        · exact absurd h3 (Tag.lt_irrefl _)
        · cases h3.2
      · exact hmono' q (h1 q hq)
    · intro q hq hc hl
      exact hmono' q (h.admitted q hq hc hl)

theorem fed_setInp (hw : Local P) {j : Nat} {f : Fed S V} (h : FedInv P g x j f) {p : Nat} (v : Option V)
    (hp : pos P j f.pc ≤ ((P.cfg j).port p).level) : FedInv P g x j { f with inp := upd f.inp p v } := by
  refine ⟨h.running, h.curB, h.curA, h.prov, h.level, h.asleep, h.rangeL, h.rangeP, h.admitted, h.tr0, ?_, h.st⟩
  intro L hL
  show f.tr (L + 1) = P.exec j L (f.tr L) (upd f.inp p v)
  rw [h.trS L hL]
  apply hw.reads
  intro q hq
  rw [upd_other]
  rintro rfl
  have : L < pos P j f.pc := hL
  omega

theorem fed_status {j : Nat} {f : Fed S V} {lv : Level.State} (st : Nat → Level.Status) (h : FedInv P g x j { f with lv := lv }) :
    FedInv P g x j { f with lv := { lv with status := st } } :=
  ⟨h.running, h.curB, h.curA, h.prov, h.level, h.asleep, h.rangeL, h.rangeP, h.admitted, h.tr0, h.trS, h.st⟩

theorem fed_ptag {j : Nat} {f : Fed S V} (h : FedInv P g x j f) (hl : f.lv.lastTAG < g) :
    FedInv P g x j { f with lv := Level.handlePtag (P.cfg j) f.lv g } ∧ f.pc = .before := by
  have hb : f.pc = .before := by
    by_contra hb
    exact absurd (h.curA hb).2 (Tag.not_le.2 hl)
  refine ⟨⟨h.running, h.curB, fun hn => absurd hb hn, fun _ => Or.inl ⟨rfl, rfl⟩, fun hn => absurd hb hn, fun _ hm => (by cases hm),
    h.rangeL, h.rangeP, ?_, h.tr0, h.trS, h.st⟩, hb⟩
  intro p _ _ hlt
  change _ < adm P j f.pc at hlt
  rw [hb] at hlt
  exact absurd hlt (Nat.not_lt_zero _)

theorem fed_tag (hw : Local P) {j : Nat} {f : Fed S V} (h : FedInv P g x j f) {t : Tag} (ht : g ≤ t) (hl : f.lv.lastTAG ≤ t) :
    FedInv P g x j { f with lv := Level.handleTag (P.cfg j) f.lv t } ∧
      (∀ p, g ≤ (Level.handleTag (P.cfg j) f.lv t).known p) ∧ (Level.handleTag (P.cfg j) f.lv t).prov = false := by
  obtain ⟨m, sl, pr, e, hp, hm, hs⟩ := Level.handleTag_cases (P.cfg j) f.lv t
  have hk : ∀ p, g ≤ (Level.handleTag (P.cfg j) f.lv t).known p := by
    intro p
    rw [e]
    exact Tag.le_trans ht (Level.knownAfterGrant_ge f.lv t p).2
  have hk' := hk
  rw [e] at hk'
  rw [if_pos hl] at hp
  refine ⟨?_, hk, by rw [e, hp]; rfl⟩
  rw [e]
  refine ⟨h.running, h.curB, ?_, fun _ => Or.inr fun p _ => hk' p, ?_, ?_, h.rangeL, h.rangeP, fun p _ _ _ => hk' p, h.tr0, h.trS, h.st⟩
  · intro hb
    refine ⟨(h.curA hb).1, ?_⟩
    show g ≤ if f.lv.lastTAG ≤ t then t else f.lv.lastTAG
    rw [if_pos hl]
    exact ht
  · intro hb L hL
    refine ⟨fun _ p _ _ _ => hk' p, fun _ => ?_⟩
    show L < m
    rcases hm with ⟨_, hm⟩ | ⟨hn, hm⟩
    · rw [hm, Level.maxLevel, if_pos]
      · exact hL
      · rw [Level.granted_iff]
        refine ⟨hw.central j, ?_⟩
        rw [(h.curA hb).1]
        rcases Tag.lt_or_eq_of_le ht with h1 | h1
        · exact Or.inl h1
        · exact Or.inr ⟨h1, rfl⟩
    · rw [hm, h.level hb L hL]
      intro p hpn _ _
      exact Tag.le_trans ht (Tag.le_of_lt (Level.notify_false hn hpn).1)
  · intro M hM
    obtain ⟨h1, h2⟩ := hs M hM
    obtain ⟨h3, h4, h5⟩ := h.asleep M h1
    refine ⟨h3, ?_, h5⟩
    show m ≤ M
    omega

theorem fed_start (hw : Local P) {j : Nat} (hj : j < P.n) {f : Fed S V} (h : FedInv P g x j f) (hb : f.pc = .before) (hl : g ≤ f.lv.lastTAG)
    (q : Nat → Bool) :
    FedInv P g x j { f with pc := .level 0, lv := Level.nextTag (P.cfg j) f.lv g (fun _ => false) q } ∧
      (Level.nextTag (P.cfg j) f.lv g (fun _ => false) q).known = f.lv.known := by
  have e : (Level.nextTag (P.cfg j) f.lv g (fun _ => false) q).known = f.lv.known := by
    funext i
    simp [Level.nextTag, Level.broadcast]
  refine ⟨⟨h.running, fun hn => (by cases hn), fun _ => ⟨rfl, hl⟩, ?_, ?_, fun _ hm => (by cases hm), ?_, fun _ hn => (by cases hn), ?_, h.tr0,
    ?_, ?_⟩, e⟩
  · intro _
    rcases h.prov hl with h1 | h1
    · exact Or.inl h1
    · right
      intro p hp
      show g ≤ (Level.nextTag (P.cfg j) f.lv g (fun _ => false) q).known p
      rw [e]
      exact h1 p hp
  · intro _ L hL
    show L < Level.maxLevel (P.cfg j) g (Level.nextTag (P.cfg j) f.lv g (fun _ => false) q).known f.lv.lastTAG f.lv.prov ↔ _
    refine maxLevel_iff (hw.central j) (hw.physical j hj) ?_ hL
    intro hgr p hp
    rw [e]
    rcases h.prov hl with ⟨h1, h2⟩ | h1
    · rw [Level.granted_iff, h1, h2] at hgr
      rcases hgr.2 with h3 | h3
      · exact absurd h3 (Tag.lt_irrefl _)
      · cases h3.2
    · exact h1 p hp
  · rintro L hL
    cases hL
    exact Nat.zero_le _
  · intro p _ _ hlt
    exact absurd hlt (Nat.not_lt_zero _)
  · intro L hL
    exact absurd hL (Nat.not_lt_zero _)
  · have := h.st
    rw [hb] at this
    exact this

theorem fed_stall {j L : Nat} {f : Fed S V} (hw : Local P) (h : FedInv P g x j f) (hp : f.pc = .level L) (hL : L < P.levels j) :
    FedInv P g x j { f with pc := if L ≥ f.lv.mlaa then .level L else .passed L, lv := Level.stall f.lv L } := by
  have hb : f.pc ≠ .before := by rw [hp]; simp
  have hst := h.st
  have htr := h.trS
  have had := h.admitted
  rw [hp] at hst htr had
  unfold Level.stall
  by_cases hm : L ≥ f.lv.mlaa
  · rw [if_pos hm, if_pos hm]
    refine ⟨h.running, fun hn => (by cases hn), fun _ => h.curA hb, h.prov, fun _ => h.level hb, ?_, ?_, fun _ hn => (by cases hn), had, h.tr0,
      htr, hst⟩
    · intro M hM
      change Level.upd f.lv.asleep L true M = true at hM
      unfold Level.upd at hM
      split at hM
      · rename_i e
        rw [e]
        exact ⟨rfl, hm, hL⟩
      · obtain ⟨h1, h2⟩ := h.asleep M hM
        rw [hp] at h1
        cases h1
        exact ⟨rfl, h2⟩
    · intro M hM
      cases hM
      exact Nat.le_of_lt hL
  · rw [if_neg hm, if_neg hm]
    refine ⟨h.running, fun hn => (by cases hn), fun _ => h.curA hb, h.prov, fun _ => h.level hb, ?_, fun _ hn => (by cases hn), ?_, ?_, h.tr0,
      htr, hst⟩
    · intro M hM
      obtain ⟨h1, h2, _⟩ := h.asleep M hM
      rw [hp] at h1
      cases h1
      exact absurd h2 hm
    · intro M hM
      cases hM
      exact hL
    · intro p hpn hc hlt
      have hlt : ((P.cfg j).port p).level < L + 1 := hlt
      have := hw.few j
      have hi : L < Level.INT_MAX := by
        unfold Level.INT_MAX
        omega
      exact (h.level hb L hi).1 (by omega) p hpn hc (by omega)

theorem fed_exec {j L : Nat} {f : Fed S V} (h : FedInv P g x j f) (hp : f.pc = .passed L) :
    FedInv P g x j { f with
      pc := .level (L + 1)
      st := P.exec j L f.st f.inp
      tr := upd f.tr (L + 1) (P.exec j L f.st f.inp) } := by
  have hb : f.pc ≠ .before := by rw [hp]; simp
  have hst := h.st
  have htr := h.trS
  have had := h.admitted
  rw [hp] at hst htr had
  refine ⟨h.running, fun hn => (by cases hn), fun _ => h.curA hb, h.prov, fun _ => h.level hb, ?_, ?_, fun _ hn => (by cases hn), had, ?_, ?_, ?_⟩
  · intro M hM
    have := (h.asleep M hM).1
    rw [hp] at this
    cases this
  · intro M hM
    cases hM
    exact h.rangeP L hp
  · show upd f.tr (L + 1) (P.exec j L f.st f.inp) 0 = _
    rw [upd_other _ _ (by omega)]
    exact h.tr0
  · intro M hM
    have hM : M < L + 1 := hM
    show upd f.tr (L + 1) (P.exec j L f.st f.inp) (M + 1) = P.exec j M (upd f.tr (L + 1) (P.exec j L f.st f.inp) M) f.inp
    by_cases e : M = L
    · subst e
      rw [upd_same, upd_other _ _ (by omega), hst]
      rfl
    · rw [upd_other _ _ (by omega), upd_other _ _ (by omega)]
      exact htr M (by show M < L; omega)
  · exact (upd_same f.tr (L + 1) _).symm

theorem fed_finish {j : Nat} {f : Fed S V} (h : FedInv P g x j f) (hp : f.pc = .level (P.levels j)) :
    FedInv P g x j { f with pc := .done } := by
  have hb : f.pc ≠ .before := by rw [hp]; simp
  have hst := h.st
  have htr := h.trS
  have had := h.admitted
  have hl := h.level hb
  rw [hp] at hst htr had
  refine ⟨h.running, fun hn => (by cases hn), fun _ => h.curA hb, h.prov, fun _ => hl, ?_, fun _ hn => (by cases hn), fun _ hn => (by cases hn),
    had, h.tr0, htr, hst⟩
  intro M hM
  obtain ⟨h1, _, h3⟩ := h.asleep M hM
  rw [hp] at h1
  cases h1
  exact absurd h3 (Nat.lt_irrefl _)

/-! ## Connections -/

/-- All of them are for later tags. -/
def Later (g : Tag) (l : List (Tag × Option V)) : Prop := ∀ e ∈ l, g < e.1 ∧ e.1.microstep < UINT_MAX

/-- What is sent on connection `k` at the tag. -/
def sends (P : Prog S V) (s : State S V) (k : Nat) : Option V := P.out k ((s.fed (P.conn k).src).tr (P.conn k).sendLevel)

def srcPos (P : Prog S V) (s : State S V) (k : Nat) : Nat := pos P (P.conn k).src (s.fed (P.conn k).src).pc

def Sent (P : Prog S V) (s : State S V) (k : Nat) : Prop :=
  ((P.conn k).sendLevel < srcPos P s k ∧ (sends P s k).isSome = true) ∨
  ((P.conn k).absLevel < srcPos P s k ∧ (P.conn k).tells = true ∧ sends P s k = none)

/-- What holds of one connection: `o` is what is sent, `ch` what is on the way, `kn` what is known about the port, `i` the input. -/
structure ChanOk (g : Tag) (o : Option V) (sent done : Prop) (ch : List (Tag × Option V)) (kn : Tag) (i : Option V) : Prop where
  notYet : ¬ sent → i = none ∧ Later g ch ∧ (¬ done → ch = [] ∧ kn < g)
  sent : sent → (∃ rest, ch = (g, o) :: rest ∧ Later g rest ∧ kn < g ∧ i = none) ∨ (Later g ch ∧ g ≤ kn ∧ i = o)

def ChanInv (P : Prog S V) (g : Tag) (s : State S V) (k : Nat) : Prop :=
  ChanOk g (sends P s k) (Sent P s k) ((s.fed (P.conn k).src).pc = .done) (s.chan k)
    ((s.fed (P.conn k).dst).lv.known (P.conn k).port) ((s.fed (P.conn k).dst).inp (P.conn k).port)

structure Inv (P : Prog S V) (g : Tag) (x : Nat → S) (s : State S V) : Prop where
  ok : s.fault = false
  fed : ∀ j < P.n, FedInv P g x j (s.fed j)
  grants : ∀ j < P.n, g ≤ (s.fed j).lv.lastTAG →
    ((s.fed j).lv.prov = true ∧ P.zdc j = true ∧ StrictIn P g s j) ∨ AllIn P g s j
  begun : ∀ k < P.nc, (s.fed (P.conn k).dst).pc ≠ .before → inCycle P k = false → Settled P g s k
  chan : ∀ k < P.nc, ChanInv P g s k
  noConn : ∀ j p, (∀ k < P.nc, ¬((P.conn k).dst = j ∧ (P.conn k).port = p)) → (s.fed j).inp p = none

theorem init_inv {s : State S V} (h : Initial P g x s) : Inv P g x s := by
  refine ⟨h.ok, fun j _ => ?_, ?_, ?_, ?_, fun j p _ => h.inp j p⟩
  · have hp := h.pc j
    refine ⟨h.running j, fun _ => h.cur j, fun hn => absurd hp hn, fun hl => absurd hl (Tag.not_le.2 (h.grant j)), fun hn => absurd hp hn, ?_, ?_, ?_,
      ?_, h.tr j, ?_, ?_⟩
    · intro M hM
      rw [h.awake j M] at hM
      cases hM
    · intro L hL
      rw [hp] at hL
      cases hL
    · intro L hL
      rw [hp] at hL
      cases hL
    · intro p _ _ hl
      rw [hp] at hl
      exact absurd hl (Nat.not_lt_zero _)
    · intro L hL
      rw [hp] at hL
      exact absurd hL (Nat.not_lt_zero _)
    · rw [hp, h.st j]
      exact (h.tr j).symm
  · intro j _ hl
    exact absurd hl (Tag.not_le.2 (h.grant j))
  · intro k _ hn
    exact absurd (h.pc _) hn
  · intro k _
    have hs : ¬ Sent P s k := by
      have : srcPos P s k = 0 := by
        unfold srcPos
        rw [h.pc]
        rfl
      unfold Sent
      rw [this]
      omega
    refine ⟨fun _ => ⟨h.inp _ _, ?_, fun _ => ⟨h.chan k, h.known _ _⟩⟩, fun hc => absurd hc hs⟩
    rw [h.chan k]
    intro e he
    cases he

/-! ## Steps of one federate -/

/-- The federate `j` becomes `f`, which has the same inputs and the same history; nothing is sent or received. -/
theorem local_inv {s : State S V} (h : Inv P g x s) {j : Nat} (hj : j < P.n) {f : Fed S V} (hf : FedInv P g x j f)
    (htr : f.tr = (s.fed j).tr) (hinp : f.inp = (s.fed j).inp) (hpos : pos P j f.pc = pos P j (s.fed j).pc)
    (hdone : (s.fed j).pc = .done → f.pc = .done)
    (hknown : f.lv.known = (s.fed j).lv.known ∨ (AllIn P g s j ∧ ∀ p, g ≤ f.lv.known p))
    (hgrant : g ≤ f.lv.lastTAG → (f.lv.prov = true ∧ P.zdc j = true ∧ StrictIn P g s j) ∨ AllIn P g s j)
    (hbegun : f.pc ≠ .before → (s.fed j).pc ≠ .before ∨ ∀ k < P.nc, (P.conn k).dst = j → inCycle P k = false → Settled P g s k) :
    Inv P g x { s with fed := upd s.fed j f } := by
  have hfed : ∀ i, i ≠ j → upd s.fed j f i = s.fed i := fun i hi => upd_other _ _ hi
  have hset : ∀ k, Settled P g s k → Settled P g { s with fed := upd s.fed j f } k := by
    rintro k ⟨h1, h2⟩
    refine ⟨?_, h2⟩
    show (upd s.fed j f (P.conn k).src).pc = .done
    by_cases e : (P.conn k).src = j
    · rw [e, upd_same]
      rw [e] at h1
      exact hdone h1
    · rw [hfed _ e]
      exact h1
  refine ⟨h.ok, ?_, ?_, ?_, ?_, ?_⟩
  · intro i hi
    show FedInv P g x i (upd s.fed j f i)
    by_cases e : i = j
    · rw [e, upd_same]
      exact hf
    · rw [hfed i e]
      exact h.fed i hi
  · intro i hi
    show g ≤ (upd s.fed j f i).lv.lastTAG → ((upd s.fed j f i).lv.prov = true ∧ _) ∨ _
    by_cases e : i = j
    · rw [e, upd_same]
      intro hl
      rcases hgrant hl with ⟨h1, h2, h3⟩ | h1
      · exact Or.inl ⟨h1, h2, fun k hk hd hz => hset k (h3 k hk hd hz)⟩
      · exact Or.inr fun k hk hd => hset k (h1 k hk hd)
    · rw [hfed i e]
      intro hl
      rcases h.grants i hi hl with ⟨h1, h2, h3⟩ | h1
      · exact Or.inl ⟨h1, h2, fun k hk hd hz => hset k (h3 k hk hd hz)⟩
      · exact Or.inr fun k hk hd => hset k (h1 k hk hd)
  · intro k hk
    show (upd s.fed j f (P.conn k).dst).pc ≠ .before → _
    intro hb hc
    apply hset
    by_cases e : (P.conn k).dst = j
    · rw [e, upd_same] at hb
      rcases hbegun hb with h1 | h1
      · exact h.begun k hk (by rw [e]; exact h1) hc
      · exact h1 k hk e hc
    · rw [hfed _ e] at hb
      exact h.begun k hk hb hc
  · intro k hk
    have hc := h.chan k hk
    unfold ChanInv at hc ⊢
    have e1 : sends P { s with fed := upd s.fed j f } k = sends P s k := by
      unfold sends
      dsimp only
      by_cases e : (P.conn k).src = j
      · rw [e, upd_same, htr]
      · rw [hfed _ e]
    have e2 : srcPos P { s with fed := upd s.fed j f } k = srcPos P s k := by
      unfold srcPos
      dsimp only
      by_cases e : (P.conn k).src = j
      · rw [e, upd_same, hpos]
      · rw [hfed _ e]
    have e3 : Sent P { s with fed := upd s.fed j f } k = Sent P s k := by
      unfold Sent
      rw [e1, e2]
    have e4 : (upd s.fed j f (P.conn k).dst).inp = (s.fed (P.conn k).dst).inp := by
      by_cases e : (P.conn k).dst = j
      · rw [e, upd_same, hinp]
      · rw [hfed _ e]
    have hd : (s.fed (P.conn k).src).pc = .done → (upd s.fed j f (P.conn k).src).pc = .done := by
      by_cases e : (P.conn k).src = j
      · rw [e, upd_same]
        exact hdone
      · rw [hfed _ e]
        exact id
    rw [e1, e3]
    show ChanOk g (sends P s k) (Sent P s k) ((upd s.fed j f (P.conn k).src).pc = .done) (s.chan k)
      ((upd s.fed j f (P.conn k).dst).lv.known (P.conn k).port) ((upd s.fed j f (P.conn k).dst).inp (P.conn k).port)
    rw [e4]
    by_cases e5 : (upd s.fed j f (P.conn k).dst).lv.known (P.conn k).port = (s.fed (P.conn k).dst).lv.known (P.conn k).port
    · rw [e5]
      exact ⟨fun hs => ⟨(hc.notYet hs).1, (hc.notYet hs).2.1, fun hn => (hc.notYet hs).2.2 fun hp => hn (hd hp)⟩, hc.sent⟩
    · have e : (P.conn k).dst = j := by
        by_contra e
        rw [hfed _ e] at e5
        exact e5 rfl
      have hk' : AllIn P g s j ∧ ∀ p, g ≤ f.lv.known p := by
        rcases hknown with h1 | h1
        · rw [e, upd_same, h1] at e5
          exact absurd rfl e5
        · exact h1
      obtain ⟨hdn, hno⟩ := hk'.1 k hk e
      refine ⟨fun hs => ⟨(hc.notYet hs).1, (hc.notYet hs).2.1, fun hn => absurd (hd hdn) hn⟩, fun hs => ?_⟩
      rcases hc.sent hs with ⟨rest, h1, _⟩ | ⟨h1, _, h3⟩
      · exact absurd rfl (hno (g, sends P s k) (by rw [h1]; exact List.mem_cons_self))
      · refine Or.inr ⟨h1, ?_, h3⟩
        rw [e, upd_same]
        exact hk'.2 _
  · intro i p hn
    show (upd s.fed j f i).inp p = none
    by_cases e : i = j
    · rw [e, upd_same, hinp]
      exact h.noConn j p (e ▸ hn)
    · rw [hfed i e]
      exact h.noConn i p hn

end ReactorC.Cycle
