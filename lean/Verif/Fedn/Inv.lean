import Verif.Fedn.Model
import Verif.Fedn.Out

/-! The invariant of the federates of Verif.Fedn.Model. -/

set_option linter.unusedSimpArgs false
set_option linter.unusedVariables false

namespace ReactorC.Fedn
open ReactorC
open ReactorC.Rti (Topology Down Up Sys Sane put put_same put_other)

/-! ## The next event tag -/

theorem foldMin (q : List Ev) : ∀ t : Tag,
    let r := q.foldl (fun t e => if lf_tag_compare e.tag t < 0 then e.tag else t) t
    r ≤ t ∧ (∀ e ∈ q, r ≤ e.tag) ∧ (r = t ∨ ∃ e ∈ q, r = e.tag) := by
  induction q with
  | nil => intro t; exact ⟨Tag.le_refl _, (fun e h => by cases h), .inl rfl⟩
  | cons a q ih =>
    intro t
    simp only [List.foldl_cons]
    by_cases h : lf_tag_compare a.tag t < 0
    · rw [if_pos h]
      obtain ⟨h1, h2, h3⟩ := ih a.tag
      rw [cmp_lt_zero] at h
      refine ⟨Tag.le_trans h1 (Tag.le_of_lt h), fun e he => ?_, ?_⟩
      · rcases List.mem_cons.1 he with rfl | he
        · exact h1
        · exact h2 e he
      · rcases h3 with h3 | ⟨e, he, h3⟩
        · exact .inr ⟨a, List.mem_cons_self, h3⟩
        · exact .inr ⟨e, List.mem_cons_of_mem _ he, h3⟩
    · rw [if_neg h]
      obtain ⟨h1, h2, h3⟩ := ih t
      rw [cmp_lt_zero, Tag.not_lt] at h
      refine ⟨h1, fun e he => ?_, ?_⟩
      · rcases List.mem_cons.1 he with rfl | he
        · exact Tag.le_trans h1 h
        · exact h2 e he
      · rcases h3 with h3 | ⟨e, he, h3⟩
        · exact .inl h3
        · exact .inr ⟨e, List.mem_cons_of_mem _ he, h3⟩

theorem next_le_stop (f : Fed) : f.next ≤ f.stop := (foldMin f.q f.stop).1

theorem next_le {f : Fed} {e : Ev} (h : e ∈ f.q) : f.next ≤ e.tag := (foldMin f.q f.stop).2.1 e h

theorem next_cases (f : Fed) : f.next = f.stop ∨ ∃ e ∈ f.q, f.next = e.tag := (foldMin f.q f.stop).2.2

/-- With more events and an earlier stop tag the next event is not later. -/
theorem next_mono {f f' : Fed} (hq : ∀ e ∈ f.q, e ∈ f'.q) (hs : f'.stop ≤ f.stop) : f'.next ≤ f.next := by
  rcases next_cases f with h | ⟨e, he, h⟩
  · rw [h]; exact Tag.le_trans (next_le_stop f') hs
  · rw [h]; exact next_le (hq e he)

theorem next_congr {f f' : Fed} (hq : f'.q = f.q) (hs : f'.stop = f.stop) : f'.next = f.next := by
  unfold Fed.next; rw [hq, hs]

/-! ## Distances -/

/-- The earliest tag of an output with the distance `d` from something at `t`. -/
def due (t : Tag) (d : Int) : Tag := if d = 0 then t else ⟨t.time + d, 0⟩

theorem le_due {t : Tag} {d : Int} (h : 0 ≤ d) : t ≤ due t d := by
  unfold due
  split
  · exact Tag.le_refl _
  · tag_omega

theorem due_zero (t : Tag) : due t 0 = t := rfl

theorem due_mono {t t' : Tag} {d d' δ : Int} (h0 : 0 ≤ δ) (h1 : 0 ≤ d') (ht : t < t') (hδ : t.time + δ ≤ t'.time)
    (hd : d ≤ δ + d') (hd0 : 0 ≤ d) : due t d ≤ due t' d' := by
  unfold due
  split <;> split <;> tag_omega

/-! ## Invariant -/

section
variable (C : Config)

/-- Nothing occurs that breaks what federates promise, see `Config`. -/
structure Config.Calm : Prop where
  early : C.early = false
  ties : C.ties = false
  shut : C.stops = false ∨ C.shut = false

/-- What holds depending on where the thread that advances the tag is. -/
def PcOk (i : Nat) (f : Fed) : Prop :=
  match f.pc with
  | .starting => f.started = false
  | .asking none t => f.started = false ∧ f.cur ≤ t
  | .waiting none t => f.started = false ∧ f.cur ≤ t
  | .pausing none => f.started = false
  | .asking (some o) t => f.started = true ∧ f.next ≤ o ∧ t = f.next
  | .waiting (some o) t => f.started = true ∧ f.next ≤ o ∧ f.next ≤ t ∧
      (physical C i = true → t.time ≤ f.now + C.minDelay i)
  | .pausing (some o) => f.started = true ∧ f.next ≤ o
  | .resting => f.started = true ∧ (hasUp C i = true → f.next ≤ f.lastTAG)
  | .executing => f.started = true
  | .ended => f.started = true
  | .gone => True

/-- The invariant of a federate that has not gone, where `net` and `done` are what it has promised and `l` what it has read. -/
structure FInv (i : Nat) (f : Fed) (net done : Tag) (l : List Down) : Prop where
  start : (⟨C.start, 0⟩ : Tag) ≤ f.cur
  first : f.started = false → f.cur = ⟨C.start, 0⟩
  sane : Sane C.T f.cur
  finite : f.cur ≠ FOREVER_TAG
  curStop : f.cur ≤ f.stop
  stopTimeout : f.stop ≤ C.timeout i
  stops : C.stops = false → f.stop = C.timeout i
  clock : f.pc = .starting ∨ C.fast = true ∨ f.cur.time - f.now < minSleep
  q : ∀ e ∈ f.q, f.cur ≤ e.tag ∧ (f.started = true → f.cur < e.tag)
  events : ∀ e ∈ f.q, ∀ d, e.rem = some d → 0 ≤ d ∧ (hasDown C i = true → net ≤ due e.tag d)
  causes : ∀ d ∈ f.causes, 0 ≤ d ∧ (hasDown C i = true → net ≤ due f.cur d)
  idle : f.started = true → f.pc ≠ .executing → f.causes = []
  pc : PcOk C i f
  netSane : Sane C.T net
  netTimeout : net ≤ C.timeout i
  netStart : f.started = false → net ≤ ⟨C.start, 0⟩
  netPhys : physical C i = true → net ≤ ⟨C.start, 0⟩ ∨ net ≤ ⟨f.now + C.minDelay i, 0⟩
  ltc : done = f.lastLTC
  ltcLe : f.lastLTC ≤ f.cur
  ltcLt : f.started = false ∨ f.pc = .executing → f.lastLTC < f.cur
  granted : f.started = true → hasUp C i = true → f.cur ≤ f.lastTAG
  last : f.lastTAG = NEVER_TAG ∨ (f.prov = false ∧ Down.tag f.lastTAG ∈ l) ∨ (f.prov = true ∧ Down.ptag f.lastTAG ∈ l)
  grants : ∀ g, Down.tag g ∈ l ∨ Down.ptag g ∈ l → g ≤ f.lastTAG

end

section
variable {C : Config} {i : Nat} {f : Fed} {net done : Tag} {l : List Down}

theorem PcOk.mono {f' : Fed} (h : PcOk C i f) (hpc : f'.pc = f.pc) (hs : f'.started = f.started) (hc : f'.cur = f.cur)
    (hn : f'.next ≤ f.next) (he : f.free = true ∨ f'.next = f.next) (hw : f.now ≤ f'.now)
    (hl : f.lastTAG ≤ f'.lastTAG) : PcOk C i f' := by
  unfold PcOk at *
  unfold Fed.free at he
  rw [hpc, hs, hc]
  generalize f.pc = p at *
  cases p with
  | starting => exact h
  | executing => exact h
  | ended => exact h
  | gone => exact h
  | asking o t =>
    cases o with
    | none => exact h
    | some o =>
      rcases he with he | he
      · cases he
      · rw [he]; exact h
  | waiting o t =>
    cases o with
    | none => exact h
    | some o =>
      obtain ⟨h1, h2, h3, h4⟩ := h
      exact ⟨h1, Tag.le_trans hn h2, Tag.le_trans hn h3, fun k => by have := h4 k; omega⟩
  | pausing o =>
    cases o with
    | none => exact h
    | some o => exact ⟨h.1, Tag.le_trans hn h.2⟩
  | resting => exact ⟨h.1, fun k => Tag.le_trans hn (Tag.le_trans (h.2 k) hl)⟩

/-- Physical time passes. -/
theorem FInv.tick (h : FInv C i f net done l) {t : Int} (ht : f.now ≤ t) : FInv C i { f with now := t } net done l :=
  { h with
    clock := by
      rcases h.clock with k | k | k
      · exact .inl k
      · exact .inr (.inl k)
      · right; right; show f.cur.time - t < minSleep; omega
    pc := h.pc.mono rfl rfl rfl (Tag.le_refl _) (.inr rfl) ht (Tag.le_refl _)
    netPhys := fun k => by
      rcases h.netPhys k with k | k
      · exact .inl k
      · right; show net ≤ ⟨t + C.minDelay i, 0⟩; tag_omega }

theorem FInv.begin (h : FInv C i f net done l) (hp : f.pc = .starting) (ht : C.fast = true ∨ C.start - f.now < minSleep) :
    FInv C i { f with pc := .asking none f.cur } net done l := by
  have hs : f.started = false := by have := h.pc; unfold PcOk at this; rw [hp] at this; exact this
  exact { h with
    clock := by
      rcases ht with k | k
      · exact .inr (.inl k)
      · right; right; show f.cur.time - f.now < minSleep; rw [h.first hs]; exact k
    idle := fun k => by rw [hs] at k; cases k
    pc := ⟨hs, Tag.le_refl _⟩
    ltcLt := fun _ => h.ltcLt (.inl hs) }

/-- An event is inserted. -/
theorem FInv.insert (h : FInv C i f net done l) (hf : f.free = true) {e : Ev} (h1 : f.cur ≤ e.tag)
    (h2 : f.started = true → f.cur < e.tag)
    (h3 : ∀ d, e.rem = some d → 0 ≤ d ∧ (hasDown C i = true → net ≤ due e.tag d)) :
    FInv C i { f with q := e :: f.q } net done l :=
  { h with
    q := fun e' he => by
      rcases List.mem_cons.1 he with rfl | he
      · exact ⟨h1, h2⟩
      · exact h.q e' he
    events := fun e' he => by
      rcases List.mem_cons.1 he with rfl | he
      · exact h3
      · exact h.events e' he
    pc := h.pc.mono rfl rfl rfl (next_mono (fun e he => List.mem_cons_of_mem _ he) (Tag.le_refl _)) (.inl hf) (by simp)
      (Tag.le_refl _) }

theorem FInv.schedule (h : FInv C i f net done l) (hp : f.pc = .executing) {δ : Int} {e : Ev} (he : SchedOk f δ e) :
    FInv C i { f with q := e :: f.q } net done l := by
  obtain ⟨h1, h2⟩ := he
  refine h.insert (by unfold Fed.free; rw [hp]) (Tag.le_of_lt h1) (fun _ => h1) (fun d' hd => ?_)
  rw [hd] at h2
  obtain ⟨k1, k2, k3, d, k4, k5⟩ := h2
  refine ⟨k2, fun hh => Tag.le_trans ((h.causes d k4).2 hh) ?_⟩
  exact due_mono k1 k2 h1 k3 k5 (h.causes d k4).1

theorem FInv.act (h : FInv C i f net done l) (hf : f.free = true) {e : Ev} (he : PhysOk C i f e) :
    FInv C i { f with q := e :: f.q } net done l := by
  obtain ⟨h1, h2⟩ := he
  refine h.insert hf (Tag.le_of_lt h1) (fun _ => h1) (fun d hd => ?_)
  rw [hd] at h2
  obtain ⟨k1, k2, k3⟩ := h2
  refine ⟨k1, fun hh => ?_⟩
  have hp : Fedn.physical C i = true := by unfold Fedn.physical; rw [hh]; simpa using k2
  rcases h.netPhys hp with k | k
  · exact Tag.le_trans k (Tag.le_trans h.start (Tag.le_trans (Tag.le_of_lt h1) (le_due k1)))
  · refine Tag.le_trans k ?_
    unfold due
    split <;> tag_omega

theorem FInv.learn (h : FInv C i f net done l) (hs : C.stops = true) (hf : f.free = true) {t : Tag} (ht : f.cur < t) :
    FInv C i (f.learn t) net done l := by
  have hst : (f.learn t).stop ≤ f.stop ∧ f.cur ≤ (f.learn t).stop := by
    unfold Fed.learn
    dsimp only
    split
    · rename_i k; rw [cmp_lt_zero] at k; exact ⟨Tag.le_of_lt k, Tag.le_of_lt ht⟩
    · exact ⟨Tag.le_refl _, h.curStop⟩
  exact { h with
    curStop := hst.2
    stopTimeout := Tag.le_trans hst.1 h.stopTimeout
    stops := fun k => by rw [hs] at k; cases k
    pc := h.pc.mono rfl rfl rfl (next_mono (fun e he => he) hst.1) (.inl hf) (Int.le_refl _) (Tag.le_refl _) }

/-- The events of the current tag are taken off the queue. -/
theorem FInv.pop (h : FInv C i f net done l) (hr : f.started = false) (hp : f.pc ≠ .starting)
    (hg : hasUp C i = true → f.cur ≤ f.lastTAG) :
    FInv C i { f.pop with pc := .executing, started := true } net done l :=
  { h with
    first := fun k => by cases k
    clock := by
      rcases h.clock with k | k
      · exact absurd k hp
      · exact .inr k
    q := fun e he => by
      simp only [Fed.pop, List.mem_filter, decide_eq_true_eq] at he
      have := (h.q e he.1).1
      refine ⟨this, fun _ => ?_⟩
      rcases Tag.lt_or_eq_of_le this with k | k
      · exact k
      · exact absurd k.symm he.2
    events := fun e he => by
      simp only [Fed.pop, List.mem_filter, decide_eq_true_eq] at he
      exact h.events e he.1
    causes := fun d hd => by
      simp only [Fed.pop, List.mem_append, List.mem_filterMap, List.mem_filter, decide_eq_true_eq] at hd
      rcases hd with hd | ⟨e, ⟨he, hc⟩, hd⟩
      · exact h.causes d hd
      · have := h.events e he d hd
        rw [hc] at this; exact this
    idle := fun _ k => absurd rfl k
    pc := rfl
    netStart := fun k => by cases k
    ltcLt := fun _ => h.ltcLt (.inl hr)
    granted := fun _ => hg }

/-- What holds during a call of `lf_send_next_event_tag`. -/
def OrigOk (f : Fed) (orig : Option Tag) : Prop :=
  match orig with
  | none => f.started = false
  | some o => f.started = true ∧ f.next ≤ o

/-- The federate returns from `lf_send_next_event_tag`. -/
theorem FInv.ret (h : FInv C i f net done l) {orig : Option Tag} {g : Tag}
    (hp : f.pc ≠ .starting ∧ f.pc ≠ .executing) (ho : OrigOk f orig)
    (hg : hasUp C i = true → g = f.lastTAG ∧ (f.started = false → f.cur ≤ g)) : FInv C i (f.ret orig g) net done l := by
  have hclock : ∀ p, p = Pc.starting ∨ C.fast = true ∨ f.cur.time - f.now < minSleep := by
    intro p
    rcases h.clock with k | k
    · exact absurd k hp.1
    · exact .inr k
  unfold Fed.ret
  cases orig with
  | none =>
    exact h.pop ho hp.1 (fun k => by obtain ⟨k1, k2⟩ := hg k; rw [← k1]; exact k2 ho)
  | some o =>
    dsimp only
    split
    · exact { h with
        clock := hclock _
        idle := fun k _ => h.idle k hp.2
        pc := ⟨ho.1, Tag.le_refl _, rfl⟩
        ltcLt := fun k => by
          rcases k with k | k
          · exact h.ltcLt (.inl k)
          · cases k }
    · rename_i k
      rw [cmp_lt_zero, Tag.not_lt] at k
      exact { h with
        clock := hclock _
        idle := fun k _ => h.idle k hp.2
        pc := ⟨ho.1, fun hu => Tag.le_trans ho.2 (by rw [← (hg hu).1]; exact k)⟩
        ltcLt := fun k => by
          rcases k with k | k
          · exact h.ltcLt (.inl k)
          · cases k }

/-- The federate moves on without a change of anything but its place. -/
theorem FInv.move (h : FInv C i f net done l) {p : Pc} (hp : f.pc ≠ .starting ∧ f.pc ≠ .executing) (hp' : p ≠ .executing)
    (hk : PcOk C i { f with pc := p }) : FInv C i { f with pc := p } net done l :=
  { h with
    clock := by
      rcases h.clock with k | k
      · exact absurd k hp.1
      · exact .inr k
    idle := fun k _ => h.idle k hp.2
    pc := hk
    ltcLt := fun k => by
      rcases k with k | k
      · exact h.ltcLt (.inl k)
      · exact absurd k hp' }

theorem le_later_left (a b : Tag) : a ≤ later a b := by
  unfold later; split
  · rename_i k; exact Tag.le_of_lt k
  · exact Tag.le_refl _

theorem le_later_right (a b : Tag) : b ≤ later a b := by
  unfold later; split
  · exact Tag.le_refl _
  · rename_i k; rwa [Tag.not_lt] at k

theorem later_le {a b c : Tag} (h1 : a ≤ c) (h2 : b ≤ c) : later a b ≤ c := by
  unfold later; split <;> assumption

/-- A next event tag is sent. -/
theorem FInv.report (h : FInv C i f net done l) (hC : C.Calm) {n : Tag} (hx : f.pc ≠ .executing) (hn : n ≤ f.next)
    (hs : f.started = false → n = f.cur) (hns : Sane C.T n)
    (hph : physical C i = true → n ≤ ⟨C.start, 0⟩ ∨ n ≤ ⟨f.now + C.minDelay i, 0⟩) :
    FInv C i f (later n net) done l :=
  { h with
    events := fun e he d hd => ⟨(h.events e he d hd).1, fun hh => later_le
      (Tag.le_trans hn (Tag.le_trans (next_le he) (le_due (h.events e he d hd).1))) ((h.events e he d hd).2 hh)⟩
    causes := fun d hd => ⟨(h.causes d hd).1, fun hh => by
      refine later_le ?_ ((h.causes d hd).2 hh)
      cases hst : f.started with
      | true => rw [h.idle hst hx] at hd; cases hd
      | false => rw [hs hst]; exact le_due (h.causes d hd).1⟩
    netSane := by
      unfold later; split
      · exact h.netSane
      · exact hns
    netTimeout := later_le (Tag.le_trans hn (Tag.le_trans (next_le_stop f) h.stopTimeout)) h.netTimeout
    netStart := fun k => later_le (by rw [hs k, h.first k]; exact Tag.le_refl _) (h.netStart k)
    netPhys := fun k => by
      unfold later; split
      · exact h.netPhys k
      · exact hph k }

/-- What is promised after a next event tag may have been sent. -/
def netAfter (n : Option Tag) (net : Tag) : Tag :=
  match n with
  | none => net
  | some n => later n net

theorem report_cases (h : FInv C i f net done l) (hC : C.Calm) {n : Tag} (hk : NetOk C i f (some n))
    (hb : physical C i = true → f.started = true → n.time ≤ f.now + C.minDelay i) :
    (f.started = false → n = f.cur) ∧ Sane C.T n ∧
      (physical C i = true → n ≤ ⟨C.start, 0⟩ ∨ n ≤ ⟨f.now + C.minDelay i, 0⟩) := by
  obtain ⟨k1, k2, k3⟩ := hk
  rw [hC.early] at k2
  rw [hC.ties] at k3
  refine ⟨fun k => ?_, k1, fun k => ?_⟩
  · rcases k2 with k2 | k2 | k2
    · cases k2
    · rw [k] at k2; cases k2
    · exact k2
  · cases hst : f.started with
    | false =>
      left
      rcases k2 with k2 | k2 | k2
      · cases k2
      · rw [hst] at k2; cases k2
      · rw [k2, h.first hst]; exact Tag.le_refl _
    | true =>
      right
      have := hb k hst
      rcases k3 with k3 | k3 | k3 | k3
      · cases k3
      · rw [k] at k3; cases k3
      · tag_omega
      · tag_omega

theorem cur_le_next (h : FInv C i f net done l) : f.cur ≤ f.next := by
  rcases next_cases f with k | ⟨e, he, k⟩
  · rw [k]; exact h.curStop
  · rw [k]; exact (h.q e he).1

theorem FInv.ask (h : FInv C i f net done l) (hO : C.Ok) (hC : C.Calm) (hk : NetOk C i f (ask C i f).2) :
    FInv C i (ask C i f).1 (netAfter (ask C i f).2 net) done l := by
  have hpc := h.pc
  revert hk
  unfold Fedn.ask
  cases hp : f.pc with
  | asking orig tag =>
    have hpp : f.pc ≠ .starting ∧ f.pc ≠ .executing := by rw [hp]; exact ⟨by simp, by simp⟩
    have ho : OrigOk f orig := by
      unfold PcOk at hpc
      rw [hp] at hpc
      cases orig with
      | none => exact hpc.1
      | some o => exact ⟨hpc.1, hpc.2.1⟩
    have ht : f.cur ≤ tag ∧ (f.started = true → tag = f.next) := by
      unfold PcOk at hpc
      rw [hp] at hpc
      cases orig with
      | none => exact ⟨hpc.2, fun k => by rw [hpc.1] at k; cases k⟩
      | some o => exact ⟨by rw [hpc.2.2]; exact cur_le_next h, fun _ => hpc.2.2⟩
    have hn : (f.started = false → tag = f.cur) → tag ≤ f.next := by
      intro k
      cases hst : f.started with
      | false => rw [k hst]; exact cur_le_next h
      | true => rw [ht.2 hst]; exact Tag.le_refl _
    dsimp only
    split
    · rename_i k
      intro _
      exact h.ret hpp ho (fun hu => by rw [k.2] at hu; cases hu)
    split
    · rename_i k
      simp only [ge_iff_le, cmp_ge_zero] at k
      intro _
      exact h.ret hpp ho (fun hu => ⟨rfl, fun _ => Tag.le_trans ht.1 k⟩)
    split
    · rename_i k
      intro _
      unfold bounded at k
      rw [Bool.and_eq_true] at k
      have hm : 0 ≤ C.minDelay i := by
        have := k.1; unfold Fedn.physical at this; rw [Bool.and_eq_true] at this; simpa using this.1
      have hlt : f.cur < (⟨f.now + C.minDelay i - 1 + C.interval, 0⟩ : Tag) := by
        rcases h.clock with c | c | c
        · exact absurd c hpp.1
        · have := hO.slow c i; omega
        · have := hO.interval; tag_omega
      have hmove : FInv C i { f with pc := .pausing orig } net done l := by
        refine h.move hpp (by simp) ?_
        unfold PcOk
        cases orig with
        | none => exact ho
        | some o => exact ho
      exact hmove.insert (f := { f with pc := .pausing orig }) rfl (Tag.le_of_lt hlt) (fun _ => hlt) (fun d hd => by cases hd)
    rename_i hb
    have hb' : physical C i = true → tag.time ≤ f.now + C.minDelay i := by
      intro k
      unfold bounded at hb
      rw [k] at hb
      simpa using hb
    split
    · rename_i hu
      intro hk
      obtain ⟨c1, c2, c3⟩ := report_cases h hC hk (fun a _ => hb' a)
      have h2 := h.report hC hpp.2 (hn c1) c1 c2 c3
      refine h2.move hpp (by simp) ?_
      unfold PcOk
      cases orig with
      | none => exact ⟨ho, ht.1⟩
      | some o => exact ⟨ho.1, ho.2, by rw [ht.2 ho.1]; exact Tag.le_refl _, hb'⟩
    · rename_i hu
      intro hk
      obtain ⟨c1, c2, c3⟩ := report_cases h hC hk (fun a _ => hb' a)
      have h2 := h.report hC hpp.2 (hn c1) c1 c2 c3
      exact h2.ret hpp ho (fun k => absurd k hu)
  | _ => intro _; exact h

theorem FInv.wake (h : FInv C i f net done l) (hO : C.Ok) (hC : C.Calm) (hk : NetOk C i f (wake f).2) :
    FInv C i (wake f).1 (netAfter (wake f).2 net) done l := by
  have hpc := h.pc
  revert hk
  unfold Fedn.wake
  cases hp : f.pc with
  | waiting orig tag =>
    have hpp : f.pc ≠ .starting ∧ f.pc ≠ .executing := by rw [hp]; exact ⟨by simp, by simp⟩
    unfold PcOk at hpc
    rw [hp] at hpc
    have ho : OrigOk f orig := by
      cases orig with
      | none => exact hpc.1
      | some o => exact ⟨hpc.1, hpc.2.1⟩
    dsimp only
    split
    · rename_i k
      simp only [ge_iff_le, cmp_ge_zero] at k
      intro _
      refine h.ret hpp ho (fun hu => ⟨rfl, fun hst => ?_⟩)
      rcases k with k | k
      · exact Tag.le_trans (cur_le_next h) k
      · cases orig with
        | none => exact Tag.le_trans hpc.2 k
        | some o => rw [ho.1] at hst; cases hst
    split
    · intro hk
      obtain ⟨c1, c2, c3⟩ := report_cases h hC hk (fun a hst => by
        cases orig with
        | none => rw [hpc.1] at hst; cases hst
        | some o =>
          have := hpc.2.2.2 a
          have := hpc.2.2.1
          tag_omega)
      exact h.report hC hpp.2 (Tag.le_refl _) c1 c2 c3
    · intro _; exact h
  | _ => intro _; exact h

theorem FInv.resume (h : FInv C i f net done l) : FInv C i (resume f) net done l := by
  have hpc := h.pc
  unfold Fedn.resume
  cases hp : f.pc with
  | pausing orig =>
    have hpp : f.pc ≠ .starting ∧ f.pc ≠ .executing := by rw [hp]; exact ⟨by simp, by simp⟩
    unfold PcOk at hpc
    rw [hp] at hpc
    refine h.move hpp (by simp) ?_
    unfold PcOk
    cases orig with
    | none => have := cur_le_next h; exact ⟨hpc, this⟩
    | some o => exact ⟨hpc.1, hpc.2, rfl⟩
  | _ => exact h

theorem FInv.advance (h : FInv C i f net done l) (hC : C.Calm) (hp : f.pc = .resting) (hs : Sane C.T f.next)
    (hF : f.next ≠ FOREVER_TAG) (ht : C.fast = true ∨ f.next.time - f.now < minSleep) :
    FInv C i (advance C i f) net done l := by
  have hpc := h.pc
  unfold PcOk at hpc
  rw [hp] at hpc
  obtain ⟨hst, hup⟩ := hpc
  unfold Fedn.advance
  split
  · exact h.move (by rw [hp]; exact ⟨by simp, by simp⟩) (by simp) hst
  · rename_i hne
    simp only [ge_iff_le, cmp_ge_zero] at hne
    have hlt : f.cur < f.next := by
      rcases next_cases f with k | ⟨e, he, k⟩
      · rw [k]
        rw [← Tag.not_le]
        intro c
        exact hne ⟨by rw [k]; exact Tag.le_refl _, c⟩
      · rw [k]; exact (h.q e he).2 hst
    refine { h with
      start := Tag.le_trans h.start (Tag.le_of_lt hlt)
      first := fun k => by rw [show _ = f.started from rfl, hst] at k; cases k
      sane := hs
      finite := hF
      curStop := next_le_stop f
      clock := .inr ht
      q := fun e he => ?_
      events := fun e he => ?_
      causes := fun d hd => ?_
      idle := fun _ k => absurd rfl k
      pc := hst
      ltcLe := Tag.le_trans h.ltcLe (Tag.le_of_lt hlt)
      ltcLt := fun _ => Tag.lt_of_le_of_lt h.ltcLe hlt
      granted := fun _ => hup }
    · simp only [Fed.pop, List.mem_filter, decide_eq_true_eq] at he
      have := next_le he.1
      refine ⟨this, fun _ => ?_⟩
      rcases Tag.lt_or_eq_of_le this with k | k
      · exact k
      · exact absurd k.symm he.2
    · simp only [Fed.pop, List.mem_filter, decide_eq_true_eq] at he
      exact h.events e he.1
    · simp only [Fed.pop, List.mem_append, List.mem_filterMap, List.mem_filter, decide_eq_true_eq] at hd
      rcases hd with hd | ⟨e, ⟨he, hc⟩, hd⟩
      · split at hd
        · rename_i k
          rw [List.mem_singleton] at hd
          subst hd
          refine ⟨by omega, fun _ => ?_⟩
          rw [due_zero]
          simp only [ge_iff_le, cmp_ge_zero] at k
          refine Tag.le_trans h.netTimeout ?_
          have : f.stop = C.timeout i := by
            rcases k.2 with k2 | k2
            · exact k2
            · rcases hC.shut with c | c
              · exact h.stops c
              · rw [k2] at c; cases c
          rw [← this]; exact k.1
        · cases hd
      · have := h.events e he d hd
        rw [hc] at this; exact this

theorem FInv.confirm (h : FInv C i f net done l) {need : Bool} {t : Tag}
    (ht : t ≤ f.cur ∧ (f.started = false ∨ f.pc = .executing → t < f.cur)) :
    FInv C i (confirm need t f).1 net ((confirm need t f).2.getD done) l := by
  unfold Fedn.confirm
  split
  · exact h
  split
  · exact { h with ltc := rfl, ltcLe := ht.1, ltcLt := ht.2 }
  · exact h

theorem FInv.complete (h : FInv C i f net done l) (hp : f.pc = .executing) {need : Bool} :
    FInv C i (complete need f).1 net ((complete need f).2.getD done) l := by
  have hpc := h.pc
  unfold PcOk at hpc
  rw [hp] at hpc
  have hclock : C.fast = true ∨ f.cur.time - f.now < minSleep := by
    rcases h.clock with k | k
    · rw [hp] at k; cases k
    · exact k
  have h1 : FInv C i { f with causes := [], pc := .asking (some f.next) f.next } net done l :=
    { h with
      clock := .inr hclock
      causes := fun d hd => by cases hd
      idle := fun _ _ => rfl
      pc := ⟨hpc, Tag.le_refl _, rfl⟩
      ltcLt := fun k => by
        rcases k with k | k
        · rw [show _ = f.started from rfl, hpc] at k; cases k
        · cases k }
  have h2 := h1.confirm (need := need) (t := f.cur) ⟨Tag.le_refl _, fun k => by
    rcases k with k | k
    · rw [show _ = f.started from rfl, hpc] at k; cases k
    · cases k⟩
  have e : (Fedn.confirm need f.cur { f with causes := [], pc := .asking (some f.next) f.next }).2 =
      (Fedn.complete need f).2 := by
    unfold Fedn.complete Fedn.confirm
    dsimp only
    split
    · rfl
    · split <;> rfl
  have e1 : (Fedn.confirm need f.cur { f with causes := [], pc := .asking (some f.next) f.next }).1 =
      (Fedn.complete need f).1 := by
    unfold Fedn.complete Fedn.confirm
    dsimp only
    split
    · rfl
    · split <;> rfl
  rw [e, e1] at h2
  exact h2

/-! ## Reading -/

theorem FInv.read (h : FInv C i f net done l) : FInv C i f.read net done l :=
  { h with pc := h.pc.mono rfl rfl rfl (Tag.le_refl _) (.inr rfl) (Int.le_refl _) (Tag.le_refl _) }

/-- Something that is not a grant has been read. -/
theorem FInv.readMsg (h : FInv C i f net done l) (m : Tag) : FInv C i f net done (l ++ [.msg m]) :=
  { h with
    last := by
      rcases h.last with k | k | k
      · exact .inl k
      · exact .inr (.inl ⟨k.1, List.mem_append_left _ k.2⟩)
      · exact .inr (.inr ⟨k.1, List.mem_append_left _ k.2⟩)
    grants := fun g hg => h.grants g (by simpa using hg) }

theorem FInv.takeTag (h : FInv C i f net done l) (hf : f.free = true) (g : Tag) :
    FInv C i (takeTag g f) net done (l ++ [.tag g]) := by
  unfold Fedn.takeTag
  split
  · rename_i k
    simp only [ge_iff_le, cmp_ge_zero] at k
    exact { h with
      pc := h.pc.mono rfl rfl rfl (Tag.le_refl _) (.inl hf) (Int.le_refl _) k
      granted := fun a b => Tag.le_trans (h.granted a b) k
      last := .inr (.inl ⟨rfl, by simp⟩)
      grants := fun g' hg => by
        show g' ≤ g
        simp only [List.mem_append, List.mem_singleton, Down.tag.injEq, reduceCtorEq, or_false] at hg
        rcases hg with (hg | hg) | hg
        · exact Tag.le_trans (h.grants g' (.inl hg)) k
        · rw [hg]; exact Tag.le_refl _
        · exact Tag.le_trans (h.grants g' (.inr hg)) k }
  · rename_i k
    simp only [ge_iff_le, cmp_ge_zero, Tag.not_le] at k
    exact { h with
      last := by
        rcases h.last with k | k | k
        · exact .inl k
        · exact .inr (.inl ⟨k.1, List.mem_append_left _ k.2⟩)
        · exact .inr (.inr ⟨k.1, List.mem_append_left _ k.2⟩)
      grants := fun g' hg => by
        simp only [List.mem_append, List.mem_singleton, Down.tag.injEq, reduceCtorEq, or_false] at hg
        rcases hg with (hg | hg) | hg
        · exact h.grants g' (.inl hg)
        · rw [hg]; exact Tag.le_of_lt k
        · exact h.grants g' (.inr hg) }

/-- A provisional grant is recorded. -/
theorem FInv.ptag (h : FInv C i f net done l) (hf : f.free = true) {g : Tag} (k : f.lastTAG ≤ g) :
    FInv C i { f with lastTAG := g, prov := true } net done (l ++ [.ptag g]) :=
  { h with
    pc := h.pc.mono rfl rfl rfl (Tag.le_refl _) (.inl hf) (Int.le_refl _) k
    granted := fun a b => Tag.le_trans (h.granted a b) k
    last := .inr (.inr ⟨rfl, by simp⟩)
    grants := fun g' hg => by
      show g' ≤ g
      simp only [List.mem_append, List.mem_singleton, Down.ptag.injEq, reduceCtorEq, or_false] at hg
      rcases hg with hg | hg | hg
      · exact Tag.le_trans (h.grants g' (.inl hg)) k
      · exact Tag.le_trans (h.grants g' (.inr hg)) k
      · rw [hg]; exact Tag.le_refl _ }

theorem FInv.takePtag (h : FInv C i f net done l) (hf : f.free = true) {g : Tag} {need : Bool}
    (hg : (takePtag need g f).1.pc ≠ .gone) :
    FInv C i (takePtag need g f).1 net ((takePtag need g f).2.getD done) (l ++ [.ptag g]) := by
  revert hg
  unfold Fedn.takePtag
  split
  · intro hg; exact absurd rfl hg
  · rename_i k
    rw [cmp_lt_zero, not_or] at k
    have k1 := k.1
    rw [Tag.not_lt] at k1
    have h1 := h.ptag hf k1
    split
    · intro _; exact h1
    split
    · rename_i c
      simp only [gt_iff_lt, cmp_gt_zero] at c
      intro _
      exact h1.confirm ⟨Tag.le_of_lt c, fun _ => c⟩
    rename_i c1 c2
    have hlt : f.cur < g := by
      simp only [gt_iff_lt, cmp_gt_zero, Tag.not_lt] at c2
      rw [cmp_eq_zero] at c1
      rcases Tag.lt_or_eq_of_le c2 with k | k
      · exact k
      · exact absurd k c1
    split
    · intro _
      exact h1.insert (f := { f with lastTAG := g, prov := true }) hf (Tag.le_of_lt hlt) (fun _ => hlt)
        (fun d hd => by cases hd)
    · intro _; exact h1

/-- A message is received. -/
theorem FInv.lower (h : FInv C i f net done l) {m : Tag} (hm : Sane C.T m) :
    FInv C i f (if m < net then m else net) done l := by
  split
  · rename_i k
    have k := Tag.le_of_lt k
    exact { h with
      events := fun e he d hd => ⟨(h.events e he d hd).1, fun hh => Tag.le_trans k ((h.events e he d hd).2 hh)⟩
      causes := fun d hd => ⟨(h.causes d hd).1, fun hh => Tag.le_trans k ((h.causes d hd).2 hh)⟩
      netSane := hm
      netTimeout := Tag.le_trans k h.netTimeout
      netStart := fun a => Tag.le_trans k (h.netStart a)
      netPhys := fun a => by
        rcases h.netPhys a with b | b
        · exact .inl (Tag.le_trans k b)
        · exact .inr (Tag.le_trans k b) }
  · exact h

theorem lower_le (m net : Tag) : (if m < net then m else net) ≤ m := by
  split
  · exact Tag.le_refl _
  · rename_i k; rwa [Tag.not_lt] at k

theorem FInv.takeMsg (h : FInv C i f net done l) (hf : f.free = true) {m : Tag} (hm : Sane C.T m)
    (hst : (⟨C.start, 0⟩ : Tag) ≤ m) {direct : Bool} (hg : (takeMsg direct m f).1.pc ≠ .gone) :
    FInv C i (takeMsg direct m f).1 (if (takeMsg direct m f).2 then (if m < net then m else net) else net) done
      (l ++ [.msg m]) ∧ ((takeMsg direct m f).2 = true → done < m) := by
  have h1 := (h.lower hm).readMsg m
  revert hg
  unfold Fedn.takeMsg
  split
  · rename_i k
    obtain ⟨k1, k2, k3, k4⟩ := k
    rw [cmp_eq_zero] at k4
    intro _
    refine ⟨{ h1 with
      causes := fun d hd => ?_
      idle := fun _ c => absurd k3 c }, fun _ => ?_⟩
    · rcases List.mem_append.1 hd with hd | hd
      · exact h1.causes d hd
      · rw [List.mem_singleton] at hd
        subst hd
        refine ⟨by omega, fun _ => ?_⟩
        rw [due_zero]
        show _ ≤ f.cur
        rw [← k4]
        exact lower_le _ _
    · rw [h.ltc, k4]; exact h.ltcLt (.inr k3)
  split
  · intro hg; exact absurd rfl hg
  split
  · intro hg; exact absurd rfl hg
  · rename_i k
    rw [cmp_le_zero, not_and_or, Tag.not_le] at k
    intro _
    have a1 : f.started = true → f.cur < m := by
      intro c
      rcases k with k | k
      · exact k
      · exact absurd c k
    have a2 : f.cur ≤ m := by
      cases hs : f.started with
      | true => exact Tag.le_of_lt (a1 hs)
      | false => rw [h.first hs]; exact hst
    refine ⟨h1.insert hf (e := ⟨m, some 0⟩) a2 a1 (fun d hd => ?_), fun _ => ?_⟩
    · cases hd
      exact ⟨by omega, fun _ => by rw [due_zero]; exact lower_le _ _⟩
    · rw [h.ltc]
      cases hs : f.started with
      | true => exact Tag.lt_of_le_of_lt h.ltcLe (a1 hs)
      | false => exact Tag.lt_of_lt_of_le (h.ltcLt (.inl hs)) a2

end

end ReactorC.Fedn
