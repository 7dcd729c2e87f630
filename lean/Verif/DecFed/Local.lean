import Verif.DecFed.Model

/-! What holds of one federate of a federation with decentralized coordination. -/

set_option linter.unusedVariables false

namespace ReactorC.DecFed
open ReactorC
open ReactorC.Rti (Topology Sane put put_same put_other)
open ReactorC.FedDet (Program Entry Event Inputs Out Fit Single present upTo)
open ReactorC.Level (Config MIN_SLEEP_DURATION Small exempt blocks waitOver newKnown upd)
open ReactorC.Decentral (Ev Delivery due nextTag open_ raise release handle inTime good_inTime reach_timely dueBy)

structure Loc (S : Setup) (i : Nat) (s : Decentral.State) (log : List (Entry Nat)) (loc : List (Event Nat)) (fin : Bool) : Prop where
  reach : Decentral.Reach (S.c i) inTime s
  stop : s.stop = S.P.stop
  done : fin = true → s.lv.phase = .running ∧ (∃ x, (s.lv.cur, x) ∈ log) ∧
    ∀ p < (S.c i).n, exempt (S.c i) s.lv.cur p = true ∨ s.lv.cur ≤ s.lv.known p
  sorted : log.Pairwise fun a b => b.1 < a.1
  logs : ∀ x ∈ log, s.lv.phase = .running ∧ S.P.first ≤ x.1 ∧ x.1 ≤ S.P.stop ∧ Fit S.P.T x.1 ∧ x.1 ≤ s.lv.cur ∧
    (x.1 = s.lv.cur → fin = true)
  run : s.lv.phase = .running → s.lv.cur ≤ S.P.stop ∧ ((∃ x, (S.P.first, x) ∈ log) ∨ (s.lv.cur = S.P.first ∧ fin = false))
  out : ∀ d ∈ s.out, d.port < (S.c i).n ∧ ((∃ x, (d.at_, x) ∈ log) ∨ (d.at_ = s.lv.cur ∧ fin = false))
  gots : ∀ m ∈ s.got, m.1 < (S.c i).n
  val : ∀ x ∈ log, x.2 = inputs (S.c i) s.out loc x.1
  ql : ∀ e ∈ s.q, e.port = none → ∃ e' ∈ loc, e'.1 = e.tag
  lq : ∀ e ∈ loc, S.P.first ≤ e.1 ∧ (S.c i).n ≤ e.2.1 ∧ ((∃ e' ∈ s.q, e'.tag = e.1) ∨ (∃ x, (e.1, x) ∈ log) ∨
    (s.lv.phase = .running ∧ e.1 = s.lv.cur ∧ fin = false) ∨ (s.lv.phase ≠ .running ∧ e.1 = S.P.first))
  single : Single loc
  cause : s.lv.phase = .running → s.lv.cur = S.P.first ∨ s.lv.cur = S.P.stop ∨ (∃ e ∈ loc, e.1 = s.lv.cur) ∨
    ∃ d ∈ s.out, d.at_ = s.lv.cur
  causes : ∀ x ∈ log, x.1 = S.P.first ∨ x.1 = S.P.stop ∨ ∃ k v, x.2 k = some v
  duty : ∀ u, Duty S s fin u → s.lv.now ≤ u.time + S.lag i

/-! ## Small facts -/

theorem arrived_append {out ds : List Delivery} {t : Tag} (h : ∀ d ∈ ds, d.at_ ≠ t) : arrived (out ++ ds) t = arrived out t := by
  funext k
  unfold arrived
  rw [List.find?_append]
  have : ds.find? (fun d => decide (d.port = k ∧ d.at_ = t)) = none := by
    rw [List.find?_eq_none]
    intro d hd
    rw [decide_eq_true_eq]
    exact fun k => h d hd k.2
  rw [this, Option.or_none]

theorem present_append {l m : List (Event Nat)} {t : Tag} (h : ∀ e ∈ m, e.1 ≠ t) : present t (l ++ m) = present t l := by
  funext k
  unfold FedDet.present
  rw [List.find?_append]
  have : m.find? (fun e => decide (e.1 = t ∧ e.2.1 = k)) = none := by
    rw [List.find?_eq_none]
    intro d hd
    rw [decide_eq_true_eq]
    exact fun k => h d hd k.1
  rw [this, Option.or_none]

theorem inputs_append {c : Config} {out ds : List Delivery} {l m : List (Event Nat)} {t : Tag} (h1 : ∀ d ∈ ds, d.at_ ≠ t)
    (h2 : ∀ e ∈ m, e.1 ≠ t) : inputs c (out ++ ds) (l ++ m) t = inputs c out l t := by
  unfold inputs
  rw [arrived_append h1, present_append h2]

theorem start_first {S : Setup} {rank : Nat → Nat} (hS : S.Ok rank) {i : Nat} (hi : i < S.P.T.n) : (S.c i).start = S.P.first := by
  unfold Config.start; rw [hS.start i hi]

theorem Passed.down {s : Decentral.State} {fin : Bool} {t u : Tag} (h : Passed s fin t) (hu : u ≤ t) : Passed s fin u := by
  obtain ⟨h1, h2⟩ := h
  refine ⟨h1, ?_⟩
  rcases h2 with h2 | ⟨h2, h3⟩
  · exact .inl (Tag.lt_of_le_of_lt hu h2)
  · rw [h2] at hu
    rcases Tag.lt_or_eq_of_le hu with k | k
    · exact .inl k
    · exact .inr ⟨k, h3⟩

theorem passed_congr {s s' : Decentral.State} (h1 : s'.lv.phase = s.lv.phase) (h2 : s'.lv.cur = s.lv.cur) (fin : Bool) (u : Tag) :
    Passed s' fin u ↔ Passed s fin u := by
  unfold Passed; rw [h1, h2]

theorem duty_congr (S : Setup) {s s' : Decentral.State} (h1 : s'.lv.phase = s.lv.phase) (h2 : s'.lv.cur = s.lv.cur) (h3 : s'.q = s.q) (fin : Bool)
    (u : Tag) : Duty S s' fin u ↔ Duty S s fin u := by
  unfold Duty Passed; rw [h1, h2, h3]

section
variable {S : Setup} {rank : Nat → Nat} {i : Nat} {s s' : Decentral.State} {log : List (Entry Nat)} {loc : List (Event Nat)} {fin : Bool}

/-- The tag, the queue and what has been delivered stay as they are. -/
theorem Loc.same (h : Loc S i s log loc fin) (hr : Decentral.Reach (S.c i) inTime s') (h1 : s'.lv.phase = s.lv.phase)
    (h2 : s'.lv.cur = s.lv.cur) (h3 : s'.q = s.q) (h4 : s'.out = s.out) (h5 : s'.stop = s.stop) (h6 : s'.got = s.got)
    (h7 : ∀ p, s.lv.cur ≤ s.lv.known p → s.lv.cur ≤ s'.lv.known p) (h8 : ∀ u, Duty S s fin u → s'.lv.now ≤ u.time + S.lag i) :
    Loc S i s' log loc fin where
  reach := hr
  stop := by rw [h5]; exact h.stop
  done := by
    rw [h1, h2]
    intro k
    obtain ⟨a, b, d⟩ := h.done k
    exact ⟨a, b, fun p hp => (d p hp).imp id (h7 p)⟩
  sorted := h.sorted
  logs := by rw [h1, h2]; exact h.logs
  run := by rw [h1, h2]; exact h.run
  out := by rw [h2, h4]; exact h.out
  gots := by rw [h6]; exact h.gots
  val := by rw [h4]; exact h.val
  ql := by rw [h3]; exact h.ql
  lq := by rw [h1, h2, h3]; exact h.lq
  single := h.single
  cause := by rw [h1, h2, h4]; exact h.cause
  causes := h.causes
  duty u k := h8 u ((duty_congr S h1 h2 h3 fin u).1 k)

theorem Loc.timely (h : Loc S i s log loc fin) (hS : S.Ok rank) (hi : i < S.P.T.n) :
    Decentral.Gen (S.c i) s ∧ Decentral.Net (S.c i) s ∧ Decentral.Del (S.c i) s :=
  reach_timely (hS.wf i hi) good_inTime h.reach

theorem known_up {l : Level.State} {c : Config} {p : Nat} {x : Tag} (hs : Small (l.known p)) (hc : l.cur.time < FOREVER) (j : Nat)
    (h : l.cur ≤ l.known j) : l.cur ≤ upd l.known p (newKnown l.cur (l.known p) x) j := by
  unfold upd
  split
  · rename_i e; subst e; exact Level.newKnown_ge hs hc h
  · exact h

theorem Loc.own (h : Loc S i s log loc fin) (hS : S.Ok rank) (hi : i < S.P.T.n) (st : Own (S.c i) s s') : Loc S i s' log loc fin := by
  obtain ⟨hG, -, -⟩ := h.timely hS hi
  cases st with
  | begin hp hw =>
    have hr : Decentral.Reach (S.c i) inTime { s with lv := { s.lv with phase := .atStart, cur := (S.c i).start } } := .step h.reach (.begin hp hw)
    have hnot : s.lv.phase ≠ .running := by rw [hp]; simp
    have hlog : log = [] := by
      cases hl : log with
      | nil => rfl
      | cons x l => exact absurd (h.logs x (by rw [hl]; exact List.mem_cons_self)).1 hnot
    have hfin : fin = false := by
      cases hf : fin with
      | false => rfl
      | true => exact absurd (h.done hf).1 hnot
    have hout : s.out = [] := hG.early hnot
    subst hlog hfin
    refine ⟨hr, h.stop, fun k => (by cases k), .nil, fun x hx => (by cases hx), fun k => (by cases k), fun d hd => ?_, h.gots,
      fun x hx => (by cases hx), h.ql, fun e he => ?_, h.single, fun k => (by cases k), fun x hx => (by cases hx), fun u k => ?_⟩
    · replace hd : d ∈ s.out := hd
      rw [hout] at hd; cases hd
    · obtain ⟨a, b, d⟩ := h.lq e he
      refine ⟨a, b, ?_⟩
      rcases d with d | d | d | d
      · exact .inl d
      · exact .inr (.inl d)
      · exact absurd d.1 hnot
      · exact .inr (.inr (.inr ⟨by simp, d.2⟩))
    · obtain ⟨k1, k2, k3⟩ := k
      refine h.duty u ⟨k1, fun k => absurd k.1 hnot, ?_⟩
      rcases k3 with k3 | k3 | k3 | k3
      · exact .inl k3
      · exact .inr (.inl k3)
      · exact .inr (.inr (.inl k3))
      · cases k3.1
  | wait hp hn hw => exact h.same (.step h.reach (.wait hp hn hw)) rfl rfl rfl rfl rfl rfl (fun _ k => k) h.duty
  | @stall level hp =>
    refine h.same (.step h.reach (.stall (level := level) hp)) ?_ ?_ rfl rfl rfl rfl (fun p k => ?_) fun u k => ?_
    · show (Level.stall s.lv level).phase = _; unfold Level.stall; split <;> rfl
    · show (Level.stall s.lv level).cur = _; unfold Level.stall; split <;> rfl
    · show _ ≤ (Level.stall s.lv level).known p; unfold Level.stall; split <;> exact k
    · show (Level.stall s.lv level).now ≤ _; unfold Level.stall; split <;> exact h.duty u k
  | @arm v hp => exact h.same (.step h.reach (.arm (v := v) hp)) rfl rfl rfl rfl rfl rfl (fun _ k => k) h.duty
  | @timeout j t u hj hw ho hc hst hs =>
    have hstep := Decentral.Step.timeout (a := inTime) hj hw ho hc hst hs
    obtain ⟨m, sl, e⟩ := Decentral.updatePort_lv (S.c i) { s.lv with status := upd s.lv.status j .absent } j s.lv.cur
    refine h.same (.step h.reach hstep) ?_ ?_ rfl rfl rfl rfl (fun p k => ?_) fun u k => ?_
    · dsimp only; rw [e]
    · dsimp only; rw [e]
    · dsimp only; rw [e]; exact known_up (c := S.c i) hs hG.lv.curTime p k
    · dsimp only; rw [e]; exact h.duty u k

theorem Loc.clock (h : Loc S i s log loc fin) {t : Int} (h1 : s.lv.now ≤ t) (h2 : t + MIN_SLEEP_DURATION ≤ FOREVER)
    (h3 : ∀ u, Duty S s fin u → t ≤ u.time + S.lag i) : Loc S i { s with lv := { s.lv with now := t } } log loc fin :=
  h.same (.step h.reach (.clock h1 h2)) rfl rfl rfl rfl rfl rfl (fun _ k => k) h3

theorem Loc.start (h : Loc S i s log loc fin) (hS : S.Ok rank) (hi : i < S.P.T.n) {l : List Ev} (hp : s.lv.phase = .atStart)
    (ho : open_ s (S.c i).start) (hl : l.Perm (due s.q (S.c i).start)) : Loc S i (Decentral.start_ (S.c i) s l) log loc fin := by
  obtain ⟨hG, -, hD⟩ := h.timely hS hi
  have hsf := start_first hS hi
  have hnot : s.lv.phase ≠ .running := by rw [hp]; simp
  have hcur : s.lv.cur = S.P.first := by rw [← hsf]; exact (hG.after (by rw [hp]; simp)).2 hp
  have hlog : log = [] := by
    cases hl : log with
    | nil => rfl
    | cons x l => exact absurd (h.logs x (by rw [hl]; exact List.mem_cons_self)).1 hnot
  have hfin : fin = false := by
    cases hf : fin with
    | false => rfl
    | true => exact absurd (h.done hf).1 hnot
  have hout : s.out = [] := hG.early hnot
  subst hlog hfin
  have hpop := (hD.pops hl).1
  refine ⟨.step h.reach (.start hp ho hl), h.stop, fun k => (by cases k), .nil, fun x hx => (by cases hx),
    fun k => ⟨by show s.lv.cur ≤ _; rw [hcur]; exact hS.prog.stop, .inr ⟨hcur, rfl⟩⟩, fun d hd => ?_, h.gots,
    fun x hx => (by cases hx), fun e he hn => ?_, fun e he => ?_, h.single, fun k => .inl hcur, fun x hx => (by cases hx), fun u k => ?_⟩
  · replace hd : d ∈ s.out ++ Decentral.pops (S.c i).start l := hd
    rw [hout, List.nil_append] at hd
    obtain ⟨a1, a2, a3, a4⟩ := hpop d hd
    refine ⟨h.gots _ (hD.q _ a4 d.port rfl).2.2, .inr ⟨?_, rfl⟩⟩
    rw [a1, hsf]; exact hcur.symm
  · exact h.ql e ((Decentral.mem_rest _ _ _).1 he).1 hn
  · obtain ⟨a, b, d⟩ := h.lq e he
    refine ⟨a, b, ?_⟩
    rcases d with ⟨e', d1, d2⟩ | d | d | d
    · by_cases c : e'.tag = (S.c i).start
      · exact .inr (.inr (.inl ⟨rfl, by rw [← d2, c, hsf]; exact hcur.symm, rfl⟩))
      · exact .inl ⟨e', (Decentral.mem_rest _ _ _).2 ⟨d1, c⟩, d2⟩
    · exact .inr (.inl d)
    · exact absurd d.1 hnot
    · exact .inr (.inr (.inl ⟨rfl, by rw [d.2]; exact hcur.symm, rfl⟩))
  · obtain ⟨k1, k2, k3⟩ := k
    refine h.duty u ⟨k1, fun k => absurd k.1 hnot, ?_⟩
    rcases k3 with ⟨e, k3, k4⟩ | k3 | k3 | k3
    · exact .inl ⟨e, ((Decentral.mem_rest _ _ _).1 k3).1, k4⟩
    · exact .inr (.inl k3)
    · exact .inr (.inr (.inl k3))
    · exact .inr (.inl (by rw [← hcur]; exact k3.2))

theorem Loc.advance (h : Loc S i s log loc true) (hS : S.Ok rank) (hi : i < S.P.T.n) {p : Tag} {l : List Ev} (hw : s.waited = some p)
    (hlt : s.lv.cur < nextTag s) (h1 : (nextTag s).time < FOREVER) (h2 : (nextTag s).microstep < UINT_MAX) (ho : open_ s (nextTag s))
    (hp : s.lv.phase = .running) (hl : l.Perm (due s.q (nextTag s))) :
    Loc S i (Decentral.advance (S.c i) s (nextTag s) l) log loc false := by
  obtain ⟨hG, -, hD⟩ := h.timely hS hi
  obtain ⟨-, ⟨y, hy⟩, -⟩ := h.done rfl
  have hpop := (hD.pops hl).1
  have hle : nextTag s ≤ S.P.stop := by rw [← h.stop]; exact Decentral.nextTag_le_stop s
  have old : ∀ x ∈ log, x.1 < nextTag s := fun x hx => Tag.lt_of_le_of_lt (h.logs x hx).2.2.2.2.1 hlt
  refine ⟨.step h.reach (.advance hw hlt h1 h2 ho hp hl), h.stop, fun k => (by cases k), h.sorted, fun x hx => ?_,
    fun k => ⟨hle, ?_⟩, fun d hd => ?_, h.gots, fun x hx => ?_, fun e he hn => ?_, fun e he => ?_, h.single, fun k => ?_, h.causes, fun u k => ?_⟩
  · obtain ⟨a1, a2, a3, a4, a5, a6⟩ := h.logs x hx
    exact ⟨hp, a2, a3, a4, Tag.le_of_lt (old x hx), fun k => absurd (old x hx) (by rw [k]; exact Tag.lt_irrefl _)⟩
  · rcases (h.run hp).2 with k | k
    · exact .inl k
    · cases k.2
  · rcases List.mem_append.1 hd with hd | hd
    · obtain ⟨a, b⟩ := h.out d hd
      refine ⟨a, .inl ?_⟩
      rcases b with b | b
      · exact b
      · cases b.2
    · obtain ⟨a1, a2, a3, a4⟩ := hpop d hd
      exact ⟨h.gots _ (hD.q _ a4 d.port rfl).2.2, .inr ⟨a1, rfl⟩⟩
  · rw [h.val x hx]
    have := inputs_append (c := S.c i) (out := s.out) (ds := Decentral.pops (nextTag s) l) (l := loc) (m := []) (t := x.1)
      (fun d hd k => by
        rw [(hpop d hd).1] at k
        exact Tag.lt_irrefl _ (k ▸ old x hx)) (fun e he => by cases he)
    rw [List.append_nil] at this
    exact this.symm
  · exact h.ql e ((Decentral.mem_rest _ _ _).1 he).1 hn
  · obtain ⟨a, b, d⟩ := h.lq e he
    refine ⟨a, b, ?_⟩
    rcases d with ⟨e', d1, d2⟩ | d | d | d
    · by_cases c : e'.tag = nextTag s
      · exact .inr (.inr (.inl ⟨hp, by rw [← d2, c]; rfl, rfl⟩))
      · exact .inl ⟨e', (Decentral.mem_rest _ _ _).2 ⟨d1, c⟩, d2⟩
    · exact .inr (.inl d)
    · cases d.2.2
    · exact absurd hp d.1
  · rcases Decentral.nextTag_cases s with c | ⟨e, he, c⟩
    · exact .inr (.inl (by show nextTag s = _; rw [c]; exact h.stop))
    · right; right
      cases hport : e.port with
      | none =>
        obtain ⟨e', k1, k2⟩ := h.ql e he hport
        exact .inl ⟨e', k1, by rw [k2, c]; rfl⟩
      | some j => exact .inr ⟨_, List.mem_append_right _ ((hD.pops hl).2 e he c j hport), rfl⟩
  · obtain ⟨k1, k2, k3⟩ := k
    have hu : ¬ Passed s true u := by
      intro k
      refine k2 ⟨hp, .inl ?_⟩
      rcases k.2 with k | k
      · exact Tag.lt_trans k hlt
      · exact k.1 ▸ hlt
    refine h.duty u ⟨k1, hu, ?_⟩
    rcases k3 with ⟨e, k3, k4⟩ | k3 | k3 | ⟨-, k3⟩
    · exact .inl ⟨e, ((Decentral.mem_rest _ _ _).1 k3).1, k4⟩
    · exact .inr (.inl k3)
    · exact .inr (.inr (.inl k3))
    · replace k3 : u = nextTag s := k3
      rcases Decentral.nextTag_cases s with c | ⟨e, he, c⟩
      · exact .inr (.inr (.inl (by rw [k3, c]; exact h.stop)))
      · exact .inl ⟨e, he, by rw [k3, c]⟩

/-! ## The reactions of a tag -/

theorem addLocals_reach {c : Config} {a : Decentral.Assume} : ∀ {l : List (Event Nat)} {s : Decentral.State}, Decentral.Reach c a s →
    (∀ e ∈ l, s.lv.cur < e.1 ∧ c.start ≤ e.1) → Decentral.Reach c a (addLocals s l)
  | [], s, h, _ => by unfold addLocals; rw [List.map_nil, List.append_nil]; exact h
  | e :: l, s, h, hl => by
    have h1 : Decentral.Reach c a { s with q := s.q ++ [⟨none, e.1, NEVER_TAG, e.2.2⟩] } :=
      .step h (.local_ (hl e List.mem_cons_self).1 (hl e List.mem_cons_self).2)
    have h2 := addLocals_reach (l := l) h1 fun e he => hl e (List.mem_cons_of_mem _ he)
    unfold addLocals at h2 ⊢
    dsimp only at h2
    rw [List.append_assoc] at h2
    exact h2

theorem arrived_some {out : List Delivery} {d : Delivery} (h : d ∈ out) : ∃ v, arrived out d.at_ d.port = some v := by
  unfold arrived
  cases hf : out.find? (fun x => decide (x.port = d.port ∧ x.at_ = d.at_)) with
  | none =>
    rw [List.find?_eq_none] at hf
    exact absurd (decide_eq_true ⟨rfl, rfl⟩) (hf d h)
  | some x => exact ⟨x.val, rfl⟩

theorem present_mem {l : List (Event Nat)} {e : Event Nat} (h : e ∈ l) : ∃ v, present e.1 l e.2.1 = some v := by
  unfold FedDet.present
  cases hf : l.find? (fun x => decide (x.1 = e.1 ∧ x.2.1 = e.2.1)) with
  | none =>
    rw [List.find?_eq_none] at hf
    exact absurd (decide_eq_true ⟨rfl, rfl⟩) (hf e h)
  | some x => exact ⟨x.2.2, rfl⟩

theorem Loc.finish (h : Loc S i s log loc false) (hS : S.Ok rank) (hi : i < S.P.T.n) (hp : s.lv.phase = .running)
    (hb : ∀ p < (S.c i).n, blocks (S.c i) s.lv.cur s.lv.known p = false) {x : Entry Nat} (hx : x = (s.lv.cur, inputs (S.c i) s.out loc s.lv.cur))
    (hF : Fit S.P.T s.lv.cur) (hs : Single (loc ++ S.P.scheds i (x :: log))) :
    Loc S i (addLocals s (S.P.scheds i (x :: log))) (x :: log) (loc ++ S.P.scheds i (x :: log)) true := by
  obtain ⟨hG, -, hD⟩ := h.timely hS hi
  have hsf := start_first hS hi
  have hcur : S.P.first ≤ s.lv.cur := by rw [← hsf]; exact (hG.after (by rw [hp]; simp)).1
  have hx1 : x.1 = s.lv.cur := by rw [hx]
  have hlater : ∀ e ∈ S.P.scheds i (x :: log), s.lv.cur < e.1 := fun e he => by rw [← hx1]; exact hS.prog.later i x log e he
  have hr : Decentral.Reach (S.c i) inTime (addLocals s (S.P.scheds i (x :: log))) :=
    addLocals_reach h.reach fun e he => ⟨hlater e he, by rw [hsf]; exact Tag.le_of_lt (Tag.lt_of_le_of_lt hcur (hlater e he))⟩
  have old : ∀ y ∈ log, y.1 < s.lv.cur := by
    intro y hy
    obtain ⟨-, -, -, -, a5, a6⟩ := h.logs y hy
    rcases Tag.lt_or_eq_of_le a5 with k | k
    · exact k
    · cases a6 k
  have hstop := (h.run hp).1
  have hval : ∀ y ∈ x :: log, y.2 = inputs (S.c i) s.out (loc ++ S.P.scheds i (x :: log)) y.1 := by
    intro y hy
    have hy1 : y.1 ≤ s.lv.cur ∧ y.2 = inputs (S.c i) s.out loc y.1 := by
      rcases List.mem_cons.1 hy with rfl | hy
      · exact ⟨by rw [hx1]; exact Tag.le_refl _, by rw [hx]⟩
      · exact ⟨Tag.le_of_lt (old y hy), h.val y hy⟩
    have := inputs_append (c := S.c i) (out := s.out) (ds := []) (l := loc) (m := S.P.scheds i (x :: log)) (t := y.1)
      (fun d hd => by cases hd) (fun e he k => Tag.lt_irrefl _ (Tag.lt_of_lt_of_le (hlater e he) (k ▸ hy1.1)))
    rw [List.append_nil] at this
    rw [this]; exact hy1.2
  refine ⟨hr, h.stop, fun _ => ⟨hp, ⟨x.2, by rw [show (addLocals s (S.P.scheds i (x :: log))).lv.cur = x.1 from hx1.symm]; exact List.mem_cons_self⟩,
      fun p hpn => ?_⟩, List.pairwise_cons.2 ⟨fun y hy => by rw [hx1]; exact old y hy, h.sorted⟩, fun y hy => ?_, fun _ => ⟨hstop, .inl ?_⟩,
    fun d hd => ?_, h.gots, hval, fun e he hn => ?_, fun e he => ?_, hs, fun _ => ?_, fun y hy => ?_, fun u k => ?_⟩
  · have hb' := hb p hpn
    by_cases c : exempt (S.c i) s.lv.cur p = true
    · exact .inl c
    · right
      rw [← Tag.not_lt]
      intro k
      have : blocks (S.c i) s.lv.cur s.lv.known p = true := by
        rw [Level.blocks_iff]
        refine ⟨?_, by rw [Bool.not_eq_true] at c; exact c, k, (hS.source i hi p hpn).2⟩
        unfold Level.inTable; rw [(hS.wf i hi).dec]; rfl
      rw [this] at hb'; cases hb'
  · rcases List.mem_cons.1 hy with rfl | hy
    · exact ⟨hp, by rw [hx1]; exact hcur, by rw [hx1]; exact hstop, by rw [hx1]; exact hF, by rw [hx1]; exact Tag.le_refl _, fun _ => rfl⟩
    · obtain ⟨a1, a2, a3, a4, a5, a6⟩ := h.logs y hy
      exact ⟨a1, a2, a3, a4, a5, fun _ => rfl⟩
  · rcases (h.run hp).2 with ⟨y, k⟩ | k
    · exact ⟨y, List.mem_cons_of_mem _ k⟩
    · exact ⟨x.2, by rw [← k.1, ← hx1]; exact List.mem_cons_self⟩
  · obtain ⟨a, b⟩ := h.out d hd
    refine ⟨a, .inl ?_⟩
    rcases b with ⟨y, b⟩ | b
    · exact ⟨y, List.mem_cons_of_mem _ b⟩
    · exact ⟨x.2, by rw [b.1, ← hx1]; exact List.mem_cons_self⟩
  · rcases List.mem_append.1 he with he | he
    · obtain ⟨e', k1, k2⟩ := h.ql e he hn
      exact ⟨e', List.mem_append_left _ k1, k2⟩
    · obtain ⟨e', k1, rfl⟩ := List.mem_map.1 he
      exact ⟨e', List.mem_append_right _ k1, rfl⟩
  · rcases List.mem_append.1 he with he | he
    · obtain ⟨a, b, d⟩ := h.lq e he
      refine ⟨a, b, ?_⟩
      rcases d with ⟨e', d1, d2⟩ | ⟨y, d⟩ | d | d
      · exact .inl ⟨e', List.mem_append_left _ d1, d2⟩
      · exact .inr (.inl ⟨y, List.mem_cons_of_mem _ d⟩)
      · exact .inr (.inl ⟨x.2, by rw [d.2.1, ← hx1]; exact List.mem_cons_self⟩)
      · exact absurd hp d.1
    · refine ⟨Tag.le_of_lt (Tag.lt_of_le_of_lt hcur (hlater e he)), hS.scheds i _ e he, .inl ⟨_, List.mem_append_right _ (List.mem_map_of_mem he), rfl⟩⟩
  · rcases h.cause hp with k | k | ⟨e, k1, k2⟩ | k
    · exact .inl k
    · exact .inr (.inl k)
    · exact .inr (.inr (.inl ⟨e, List.mem_append_left _ k1, k2⟩))
    · exact .inr (.inr (.inr k))
  · rcases List.mem_cons.1 hy with rfl | hy
    · rw [hx1]
      rcases h.cause hp with k | k | ⟨e, k1, k2⟩ | ⟨d, k1, k2⟩
      · exact .inl k
      · exact .inr (.inl k)
      · right; right
        obtain ⟨v, hv⟩ := present_mem k1
        refine ⟨e.2.1, v, ?_⟩
        rw [hx]
        show inputs _ _ _ _ _ = _
        unfold inputs
        rw [if_neg (by have := (h.lq e k1).2.1; omega), ← k2]; exact hv
      · right; right
        obtain ⟨v, hv⟩ := arrived_some k1
        refine ⟨d.port, v, ?_⟩
        rw [hx]
        show inputs _ _ _ _ _ = _
        unfold inputs
        rw [if_pos (h.out d k1).1, ← k2]; exact hv
    · exact h.causes y hy
  · obtain ⟨k1, k2, k3⟩ := k
    have hdc : s.lv.now ≤ s.lv.cur.time + S.lag i :=
      h.duty _ ⟨hstop, fun k => by rcases k.2 with k | k; exacts [Tag.lt_irrefl _ k, by cases k.2], .inr (.inr (.inr ⟨hp, rfl⟩))⟩
    have hu : s.lv.cur < u := Tag.not_le.1 fun k => k2 (Passed.down (t := s.lv.cur) ⟨hp, .inr ⟨rfl, rfl⟩⟩ k)
    show s.lv.now ≤ _
    rw [Tag.lt_def] at hu
    omega

end

end ReactorC.DecFed
