import Verif.DecFed.Ledger

/-! A federation with decentralized coordination does not get stuck: from each state, there are steps that bring it closer to its end. -/

set_option linter.unusedVariables false

namespace ReactorC.DecFed
open ReactorC
open ReactorC.Rti (Topology Sane put put_same put_other)
open ReactorC.FedDet (Program Entry Event Inputs Out Fit Single present upTo Seq Done Exec Gen Quiet present_of present_some)
open ReactorC.Level (Config MIN_SLEEP_DURATION Small exempt blocks waitOver newKnown upd bump)
open ReactorC.Decentral (Ev Delivery due nextTag open_ raise release handle inTime good_inTime reach_timely dueBy)

/-! ## A measure -/

def sum : Nat → (Nat → Nat) → Nat
  | 0, _ => 0
  | n + 1, f => sum n f + f n

theorem sum_congr {f f' : Nat → Nat} : ∀ {n : Nat}, (∀ i < n, f' i = f i) → sum n f' = sum n f
  | 0, _ => rfl
  | n + 1, h => by
    unfold sum
    rw [sum_congr fun i hi => h i (by omega), h n (by omega)]

theorem sum_lt {f f' : Nat → Nat} {i : Nat} : ∀ {n : Nat}, i < n → (∀ j < n, j ≠ i → f' j = f j) → f' i < f i → sum n f' < sum n f
  | 0, hi, _, _ => by omega
  | n + 1, hi, h, hl => by
    unfold sum
    by_cases c : i = n
    · subst c
      rw [sum_congr fun j hj => h j (by omega) (by omega)]
      omega
    · have := sum_lt (n := n) (by omega) (fun j hj => h j (by omega)) hl
      rw [h n (by omega) (fun k => c k.symm)]
      omega

/-- The order of five numbers. -/
abbrev Five := Nat × Nat × Nat × Nat × Nat

def Lt (x y : Five) : Prop :=
  x.1 < y.1 ∨ x.1 = y.1 ∧ (x.2.1 < y.2.1 ∨ x.2.1 = y.2.1 ∧ (x.2.2.1 < y.2.2.1 ∨ x.2.2.1 = y.2.2.1 ∧
    (x.2.2.2.1 < y.2.2.2.1 ∨ x.2.2.2.1 = y.2.2.2.1 ∧ x.2.2.2.2 < y.2.2.2.2)))

theorem lt_wf : WellFounded Lt := by
  refine Subrelation.wf (r := WellFoundedRelation.rel) ?_ (WellFoundedRelation.wf (α := Nat × Nat × Nat × Nat × Nat))
  rintro ⟨a, b, c, d, e⟩ ⟨a', b', c', d', e'⟩ h
  unfold Lt at h
  dsimp only at h
  rcases h with h | ⟨rfl, h | ⟨rfl, h | ⟨rfl, h | ⟨rfl, h⟩⟩⟩⟩
  · exact Prod.Lex.left _ _ h
  · exact Prod.Lex.right _ (Prod.Lex.left _ _ h)
  · exact Prod.Lex.right _ (Prod.Lex.right _ (Prod.Lex.left _ _ h))
  · exact Prod.Lex.right _ (Prod.Lex.right _ (Prod.Lex.right _ (Prod.Lex.left _ _ h)))
  · exact Prod.Lex.right _ (Prod.Lex.right _ (Prod.Lex.right _ (Prod.Lex.right _ h)))

def rnk (x : Decentral.State) (fin : Bool) : Nat :=
  match x.lv.phase with
  | .waiting => 4
  | .atStart => 3
  | .running => if fin then 2 else 1

def way (c : Config) (q : Nat → List Item) : Nat := sum c.n fun p => (q p).length

def blk (c : Config) (x : Decentral.State) : Nat := sum c.n fun p => if blocks c x.lv.cur x.lv.known p then 1 else 0

def left_ (x : Decentral.State) : Nat := (FOREVER - x.lv.now).toNat

variable {S : Setup} {rank : Nat → Nat} {g g' : State} {s : Seq Nat}

def M (S : Setup) (s : Seq Nat) (g : State) : Five :=
  (sum S.P.T.n fun i => (s.log i).length - (g.log i).length,
   sum S.P.T.n fun i => rnk (g.fed i) (g.fin i),
   sum S.P.T.n fun i => way (S.c i) (g.chan i),
   sum S.P.T.n fun i => blk (S.c i) (g.fed i),
   sum S.P.T.n fun i => left_ (g.fed i))

/-- One federate goes on. -/
theorem lt_fed {i : Nat} (hi : i < S.P.T.n) (hlog : g'.log = g.log)
    (ho : ∀ j, j ≠ i → g'.fed j = g.fed j ∧ g'.fin j = g.fin j ∧ g'.chan j = g.chan j)
    (h : rnk (g'.fed i) (g'.fin i) < rnk (g.fed i) (g.fin i) ∨ rnk (g'.fed i) (g'.fin i) = rnk (g.fed i) (g.fin i) ∧
      (way (S.c i) (g'.chan i) < way (S.c i) (g.chan i) ∨ way (S.c i) (g'.chan i) = way (S.c i) (g.chan i) ∧
        (blk (S.c i) (g'.fed i) < blk (S.c i) (g.fed i) ∨ blk (S.c i) (g'.fed i) = blk (S.c i) (g.fed i) ∧
          left_ (g'.fed i) < left_ (g.fed i)))) : Lt (M S s g') (M S s g) := by
  have same : ∀ {f f' : Nat → Nat}, (∀ j, j ≠ i → f' j = f j) → f' i = f i → sum S.P.T.n f' = sum S.P.T.n f := by
    intro f f' h1 h2
    refine sum_congr fun j hj => ?_
    by_cases c : j = i
    · subst c; exact h2
    · exact h1 j c
  have less : ∀ {f f' : Nat → Nat}, (∀ j, j ≠ i → f' j = f j) → f' i < f i → sum S.P.T.n f' < sum S.P.T.n f :=
    fun h1 h2 => sum_lt hi (fun j _ hj => h1 j hj) h2
  have o1 : ∀ j, j ≠ i → rnk (g'.fed j) (g'.fin j) = rnk (g.fed j) (g.fin j) := fun j hj => by rw [(ho j hj).1, (ho j hj).2.1]
  have o2 : ∀ j, j ≠ i → way (S.c j) (g'.chan j) = way (S.c j) (g.chan j) := fun j hj => by rw [(ho j hj).2.2]
  have o3 : ∀ j, j ≠ i → blk (S.c j) (g'.fed j) = blk (S.c j) (g.fed j) := fun j hj => by rw [(ho j hj).1]
  have o4 : ∀ j, j ≠ i → left_ (g'.fed j) = left_ (g.fed j) := fun j hj => by rw [(ho j hj).1]
  refine .inr ⟨by unfold M; rw [hlog], ?_⟩
  rcases h with h | ⟨e1, h | ⟨e2, h | ⟨e3, h⟩⟩⟩
  · exact .inl (less o1 h)
  · exact .inr ⟨same o1 e1, .inl (less o2 h)⟩
  · exact .inr ⟨same o1 e1, .inr ⟨same o2 e2, .inl (less o3 h)⟩⟩
  · exact .inr ⟨same o1 e1, .inr ⟨same o2 e2, .inr ⟨same o3 e3, less o4 h⟩⟩⟩

/-- Nothing that is measured changes. -/
theorem same_fed {i : Nat} {x : Decentral.State} (h1 : x.lv.phase = (g.fed i).lv.phase) (h2 : x.lv.cur = (g.fed i).lv.cur)
    (h3 : x.lv.known = (g.fed i).lv.known) (h4 : x.lv.now = (g.fed i).lv.now) : M S s { g with fed := put g.fed i x } = M S s g := by
  have a : ∀ j, rnk (put g.fed i x j) (g.fin j) = rnk (g.fed j) (g.fin j) := by
    intro j
    by_cases c : j = i
    · subst c; rw [put_same]; unfold rnk; rw [h1]
    · rw [put_other _ _ _ c]
  have b : ∀ j, blk (S.c j) (put g.fed i x j) = blk (S.c j) (g.fed j) := by
    intro j
    by_cases c : j = i
    · subst c; rw [put_same]; unfold blk; rw [h2, h3]
    · rw [put_other _ _ _ c]
  have d : ∀ j, left_ (put g.fed i x j) = left_ (g.fed j) := by
    intro j
    by_cases c : j = i
    · subst c; rw [put_same]; unfold left_; rw [h4]
    · rw [put_other _ _ _ c]
  unfold M
  dsimp only
  rw [sum_congr fun j _ => a j, sum_congr fun j _ => b j, sum_congr fun j _ => d j]

/-! ## The steps -/

/-- No message for the start tag comes in in the moment between the start time and the start. -/
def Calm (S : Setup) (g : State) : Prop := ∀ d < S.P.T.n, (g.fed d).lv.phase = .atStart → ∀ r ∈ (g.fed d).reading, r.2.1 ≠ (S.c d).start

/-- The federation can get closer to its end. -/
def Closer (S : Setup) (s : Seq Nat) (g : State) : Prop :=
  ∃ g', Relation.ReflTransGen (Step S) g g' ∧ Calm S g' ∧ Lt (M S s g') (M S s g)

theorem Closer.after {g1 : State} (h : Closer S s g1) (st : Step S g g1) (e : M S s g1 = M S s g) : Closer S s g := by
  obtain ⟨g', k1, k2, k3⟩ := h
  exact ⟨g', .head st k1, k2, by rw [← e]; exact k3⟩

theorem Closer.one (st : Step S g g') (hc : Calm S g') (hl : Lt (M S s g') (M S s g)) : Closer S s g := ⟨g', .single st, hc, hl⟩

theorem way_lt {c : Config} {q : Nat → List Item} {p : Nat} {r : List Item} (hp : p < c.n) (h : r.length < (q p).length) :
    way c (put q p r) < way c q := by
  refine sum_lt hp (fun j _ hj => ?_) ?_
  · rw [put_other _ _ _ hj]
  · rw [put_same]; exact h

theorem calm_put {i : Nat} {x : Decentral.State} (h : Calm S g) (hx : x.lv.phase = .atStart → ∀ r ∈ x.reading, r.2.1 ≠ (S.c i).start) :
    ∀ d < S.P.T.n, (put g.fed i x d).lv.phase = .atStart → ∀ r ∈ (put g.fed i x d).reading, r.2.1 ≠ (S.c d).start := by
  intro d hd
  by_cases c : d = i
  · subst c; rw [put_same]; exact hx
  · rw [put_other _ _ _ c]; exact h d hd

/-- A message that is being read. -/
theorem go_read (hS : S.Ok rank) (h : Inv S g) (hk : Smalls S g) (hc : Calm S g) {d : Nat} (hd : d < S.P.T.n) (hr : (g.fed d).reading ≠ []) :
    Closer S s g := by
  obtain ⟨hG, hN, hD⟩ := (h.fed d hd).timely hS hd
  cases hrd : (g.fed d).reading with
  | nil => exact absurd hrd hr
  | cons r l =>
    obtain ⟨p, t, v⟩ := r
    have hm : (p, t, v) ∈ (g.fed d).reading := by rw [hrd]; exact List.mem_cons_self
    obtain ⟨hp, -⟩ := hG.pend p t v hm
    have K := h.chan d hd p hp
    obtain ⟨a, rest, hch⟩ := K.read t v hm
    have hdue := K.due hS hd hp (it := ⟨t, some v, a⟩) (by rw [hch]; exact List.mem_cons_self)
    unfold Decentral.dueBy at hdue
    dsimp only at hdue
    have hc' : ¬ ((g.fed d).lv.phase = .atStart ∧ t = (S.c d).start) := fun k => hc d hd k.1 _ hm k.2
    obtain ⟨lv, l, o, dr, la, x, y, e, e1, e2, -⟩ := complete_shape (hS.wf d hd) hG hN hD hm (.inr (by omega)) hc'
    refine .one (.complete hd hm (hk d hd p hp) hc') ?_ ?_
    · refine calm_put hc ?_
      rw [e]
      dsimp only
      intro k r hr
      rw [e1] at k
      exact hc d hd k r (List.mem_of_mem_erase hr)
    · refine lt_fed hd rfl (fun j hj => ⟨?_, rfl, ?_⟩) (.inr ⟨?_, .inl ?_⟩)
      · exact put_other _ _ _ hj
      · exact put_other _ _ _ hj
      · dsimp only; rw [put_same, e]; unfold rnk; dsimp only; rw [e1]
      · dsimp only; rw [put_same]
        refine way_lt hp ?_
        rw [hch]; simp

theorem open_of {c : Config} {x : Decentral.State} (hG : Decentral.Gen c x) (hr : x.reading = []) (t : Tag) : open_ x t := by
  left; rw [hG.req, hr]; rfl

theorem go_start (hS : S.Ok rank) (h : Inv S g) (hc : Calm S g) {i : Nat} (hi : i < S.P.T.n) (hp : (g.fed i).lv.phase = .atStart)
    (hr : (g.fed i).reading = []) : Closer S s g := by
  have L := h.fed i hi
  obtain ⟨hG, hN, hD⟩ := L.timely hS hi
  have hf : g.fin i = false := by
    cases hf : g.fin i with
    | false => rfl
    | true => have := (L.done hf).1; rw [hp] at this; cases this
  refine .one (.start hi hp (open_of hG hr _) (List.Perm.refl _)) ?_ ?_
  · exact calm_put hc fun k => by cases k
  · refine lt_fed hi rfl (fun j hj => ⟨put_other _ _ _ hj, rfl, rfl⟩) (.inl ?_)
    dsimp only; rw [put_same, hf]; unfold rnk; rw [hp]
    show 1 < 3
    omega

theorem go_chan (hS : S.Ok rank) (h : Inv S g) (hk : Smalls S g) (hst : ∀ i < S.P.T.n, (g.fed i).lv.phase ≠ .atStart)
    (hr : ∀ i < S.P.T.n, (g.fed i).reading = []) {d p : Nat} (hd : d < S.P.T.n) (hp : p < (S.c d).n) (hch : g.chan d p ≠ []) : Closer S s g := by
  have hc : Calm S g := fun d hd k => absurd k (hst d hd)
  have hno : ∀ r ∈ (g.fed d).reading, r.1 ≠ p := by rw [hr d hd]; exact fun r k => by cases k
  cases hq : g.chan d p with
  | nil => exact absurd hq hch
  | cons it rest =>
    obtain ⟨t, vo, a⟩ := it
    cases vo with
    | none =>
      obtain ⟨m, sl, e⟩ := Decentral.updatePort_lv (S.c d) (g.fed d).lv p t
      refine .one (.absent hd hp hq hno (hk d hd p hp)) ?_ ?_
      · refine calm_put hc ?_
        dsimp only
        rw [hr d hd]
        exact fun _ r k => by cases k
      · refine lt_fed hd rfl (fun j hj => ⟨?_, rfl, ?_⟩) (.inr ⟨?_, .inl ?_⟩)
        · exact put_other _ _ _ hj
        · exact put_other _ _ _ hj
        · dsimp only; rw [put_same]; unfold rnk; dsimp only; rw [e]
        · dsimp only; rw [put_same]
          refine way_lt hp ?_
          rw [hq]; simp
    | some v =>
      have st : Step S g _ := .header hd hp hq hno
      have h1 := h.header hS hd hp hq hno
      obtain ⟨x, he, -⟩ := Decentral.raise_cases (g.fed d) t ((h.fed d hd).timely hS hd).1.lv.curMicro
      rw [he] at st h1
      refine Closer.after ?_ st ?_
      · refine go_read hS h1 ?_ ?_ hd ?_
        · intro d' hd' p' hp'
          refine hk.put ?_ hd' hp'
          exact fun p hp => hk d hd p hp
        · refine calm_put hc ?_
          exact fun k => absurd k (hst d hd)
        · dsimp only; rw [put_same]; exact fun k => by cases k
      · exact same_fed rfl rfl rfl rfl

/-! Nothing is being read or on the way. -/

section
variable (hr : ∀ i < S.P.T.n, (g.fed i).reading = [])
include hr

theorem calm_of : Calm S g := fun d hd _ => by rw [hr d hd]; exact fun r k => by cases k

theorem calm_keep {i : Nat} {x : Decentral.State} (hi : i < S.P.T.n) (hx : x.reading = (g.fed i).reading) :
    ∀ d < S.P.T.n, (put g.fed i x d).lv.phase = .atStart → ∀ r ∈ (put g.fed i x d).reading, r.2.1 ≠ (S.c d).start :=
  calm_put (calm_of hr) fun _ r k => by rw [hx, hr i hi] at k; cases k

theorem go_begin {i : Nat} (hi : i < S.P.T.n) (hp : (g.fed i).lv.phase = .waiting) (hw : waitOver (S.c i) (g.fed i).lv.now (S.c i).startTime) :
    Closer S s g := by
  refine .one (.own hi (.begin hp hw)) ?_ ?_
  · refine calm_keep hr hi ?_
    rfl
  · refine lt_fed hi rfl (fun j hj => ⟨put_other _ _ _ hj, rfl, rfl⟩) (.inl ?_)
    dsimp only; rw [put_same]; unfold rnk; rw [hp]
    show 3 < 4
    omega

theorem go_finish (hS : S.Ok rank) (hs : Done S.P rank s) (hfit : Fit S.P.T S.P.stop) (h : Inv S g) (hsent : Sent S g) {i : Nat} (hi : i < S.P.T.n)
    (hp : (g.fed i).lv.phase = .running) (hf : g.fin i = false) (hb : Free S g i) (hq : ∀ p < (S.c i).n, g.chan i p = []) : Closer S s g := by
  have he := h.entry_log hS hs hfit hi hp hb hq
  have hsuf := h.entry_suffix hS hs hi hp hf he
  refine .one (.finish (fun _ _ => false) hi hp hf hb (h.fine hS hs hsent hi hp hf he)) ?_ (.inl ?_)
  · unfold finish
    refine calm_keep hr hi ?_
    rfl
  · unfold M finish
    dsimp only
    refine sum_lt hi (fun j _ hj => ?_) ?_
    · rw [put_other _ _ _ hj]
    · rw [put_same]
      have := hsuf.length_le
      rw [List.length_cons] at this ⊢
      omega

theorem go_timeout (hS : S.Ok rank) (h : Inv S g) (hk : Smalls S g) {i p : Nat} (hi : i < S.P.T.n) (hp : p < (S.c i).n)
    (hph : (g.fed i).lv.phase = .running) (hb : blocks (S.c i) (g.fed i).lv.cur (g.fed i).lv.known p = true)
    (hw : waitOver (S.c i) (g.fed i).lv.now (Level.staaUntil (S.c i) (g.fed i).lv.cur ((S.c i).port p).staa)) : Closer S s g := by
  have L := h.fed i hi
  obtain ⟨hG, hN, hD⟩ := L.timely hS hi
  have hlt := ((Level.blocks_iff _ _ _ _).1 hb).2.2.1
  have hst := (Stat.reach (hS.wf i hi) L.reach).status p hlt
  refine Closer.after ?_ (.own hi (.arm (v := ((S.c i).port p).staa) hph)) (same_fed rfl rfl rfl rfl)
  generalize hy : ({ g.fed i with
    lv := { (g.fed i).lv with
      staaWait := some ((g.fed i).lv.cur, ((S.c i).port p).staa, Level.staaUntil (S.c i) (g.fed i).lv.cur ((S.c i).port p).staa) } } : Decentral.State) = y
  have y1 : y.lv.staaWait = some ((g.fed i).lv.cur, ((S.c i).port p).staa, Level.staaUntil (S.c i) (g.fed i).lv.cur ((S.c i).port p).staa) := by rw [← hy]
  have y2 : y.lv.now = (g.fed i).lv.now := by rw [← hy]
  have y3 : y.lv.cur = (g.fed i).lv.cur := by rw [← hy]
  have y4 : y.lv.status = (g.fed i).lv.status := by rw [← hy]
  have y5 : y.lv.known = (g.fed i).lv.known := by rw [← hy]
  have y6 : y.reading = (g.fed i).reading := by rw [← hy]
  have y7 : y.lv.phase = (g.fed i).lv.phase := by rw [← hy]
  have e0 : put g.fed i y i = y := put_same _ _ _
  obtain ⟨m, sl, e⟩ := Decentral.updatePort_lv (S.c i) { y.lv with status := upd y.lv.status p .absent } p y.lv.cur
  have st : Step S { g with fed := put g.fed i y } _ := .own hi (.timeout (i := p) (t := (g.fed i).lv.cur)
    (u := Level.staaUntil (S.c i) (g.fed i).lv.cur ((S.c i).port p).staa) hp (by dsimp only; rw [e0, y1]) (by dsimp only; rw [e0, y2]; exact hw)
    (by dsimp only; rw [e0, y3]) (by dsimp only; rw [e0, y4]; exact hst) (by dsimp only; rw [e0, y5]; exact hk i hi p hp))
  refine .one st ?_ ?_
  · refine calm_keep (g := { g with fed := put g.fed i y }) ?_ hi ?_
    · intro d hd
      dsimp only
      by_cases c : d = i
      · subst c; rw [put_same, y6]; exact hr d hd
      · rw [put_other _ _ _ c]; exact hr d hd
    · rfl
  · refine lt_fed hi rfl (fun j hj => ⟨put_other _ _ _ hj, rfl, rfl⟩) (.inr ⟨?_, .inr ⟨rfl, .inl ?_⟩⟩)
    · dsimp only; rw [put_same, e0]; unfold rnk; dsimp only; rw [e]
    · dsimp only; rw [put_same, e0]; unfold blk; dsimp only; rw [e]
      refine sum_lt hp (fun j _ hj => ?_) ?_
      · dsimp only
        have : blocks (S.c i) y.lv.cur (upd y.lv.known p (newKnown y.lv.cur (y.lv.known p) y.lv.cur)) j = blocks (S.c i) y.lv.cur y.lv.known j := by
          unfold Level.blocks upd; rw [if_neg hj]
        rw [this]
      · dsimp only
        rw [y3, y5, if_pos hb, if_neg]
        · omega
        · rw [Level.blocks_iff]
          rintro ⟨-, -, k, -⟩
          unfold upd at k
          rw [if_pos rfl] at k
          exact absurd k (Tag.not_lt.2 (Level.newKnown_cur (hk i hi p hp) hG.lv.curTime))

theorem go_advance (hS : S.Ok rank) (hs : Done S.P rank s) (hfit : Fit S.P.T S.P.stop) (h : Inv S g) {i : Nat} (hi : i < S.P.T.n)
    (hp : (g.fed i).lv.phase = .running) (hf : g.fin i = true) (hc : (g.fed i).lv.cur < S.P.stop)
    (hw : waitOver (S.c i) (g.fed i).lv.now (Decentral.waitUntilTime (S.c i) (g.fed i) (nextTag (g.fed i)))) : Closer S s g := by
  have key : ∀ y : Decentral.State, y.lv = (g.fed i).lv → y.q = (g.fed i).q → y.stop = (g.fed i).stop → y.reading = (g.fed i).reading →
      y.requestors = (g.fed i).requestors → (∃ p, y.waited = some p) → Closer S s { g with fed := put g.fed i y } := by
    rintro y y1 y2 y3 y4 y5 ⟨p, y6⟩
    have L := h.fed i hi
    obtain ⟨hG, hN, hD⟩ := L.timely hS hi
    have hn : nextTag y = nextTag (g.fed i) := by unfold Decentral.nextTag; rw [y2, y3]
    have hF := fit_time (h.next_fit hS hs hfit hi)
    have e0 : put g.fed i y i = y := put_same _ _ _
    have hlt : (g.fed i).lv.cur < nextTag (g.fed i) := by
      rcases Decentral.nextTag_cases (g.fed i) with k | ⟨e, k1, k2⟩
      · rw [k, L.stop]; exact hc
      · rw [← k2]; exact (hG.ev e k1).2 hp
    have st : Step S { g with fed := put g.fed i y } _ := .advance (i := i) (p := p) (l := due y.q (nextTag y)) hi hf (by dsimp only; rw [e0, y6])
      (by dsimp only; rw [e0, hn, y1]; exact hlt) (by dsimp only; rw [e0, hn]; exact hF.2.1) (by dsimp only; rw [e0, hn]; omega)
      (by dsimp only; rw [e0]; left; rw [y5, hG.req, hr i hi]; rfl) (by dsimp only; rw [e0, y1]; exact hp) (by dsimp only; rw [e0])
    refine .one st ?_ ?_
    · refine calm_keep (g := { g with fed := put g.fed i y }) ?_ hi ?_
      · intro d hd
        dsimp only
        by_cases c : d = i
        · subst c; rw [put_same, y4]; exact hr d hd
        · rw [put_other _ _ _ c]; exact hr d hd
      · rfl
    · refine lt_fed hi rfl (fun j hj => ⟨put_other _ _ _ hj, put_other _ _ _ hj, rfl⟩) (.inl ?_)
      dsimp only; rw [e0, put_same, put_same, hf]; unfold rnk
      have e1 : (Decentral.advance (S.c i) y (nextTag y) (due y.q (nextTag y))).lv.phase = .running := by
        show y.lv.phase = _
        rw [y1]; exact hp
      rw [e1, y1, hp]
      show 1 < 2
      omega
  cases hwt : (g.fed i).waited with
  | some p =>
    have := key (g.fed i) rfl rfl rfl rfl rfl ⟨p, hwt⟩
    rwa [put_id] at this
  | none =>
    refine Closer.after (key { g.fed i with waited := some (nextTag (g.fed i)) } rfl rfl rfl rfl rfl ⟨_, rfl⟩) (.own hi (.wait hp hwt hw)) ?_
    exact same_fed rfl rfl rfl rfl

theorem go_tick (h : Inv S g) {i : Nat} (hi : i < S.P.T.n) (hb : (g.fed i).lv.now + 1 + MIN_SLEEP_DURATION ≤ FOREVER)
    (hP : Prompt S g i ((g.fed i).lv.now + 1)) : Closer S s g := by
  refine .one (.clock hi (by omega) hb hP) ?_ ?_
  · refine calm_keep hr hi ?_
    rfl
  · refine lt_fed hi rfl (fun j hj => ⟨put_other _ _ _ hj, rfl, rfl⟩) (.inr ⟨?_, .inr ⟨rfl, .inr ⟨?_, ?_⟩⟩⟩)
    · dsimp only; rw [put_same]; rfl
    · dsimp only; rw [put_same]; rfl
    · dsimp only; rw [put_same]; unfold left_; dsimp only
      have hM : MIN_SLEEP_DURATION = 10000 := rfl
      omega

end

end ReactorC.DecFed
