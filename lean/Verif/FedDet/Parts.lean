import Verif.FedDet.Local

/-! The parts of the invariant of an execution that concern the RTI and the channels. -/

set_option linter.unusedVariables false

namespace ReactorC.FedDet
open ReactorC
open ReactorC.Rti (Topology Down Up Sys Sane put put_same put_other)
open ReactorC.Fedn (Config Fed State Ev Act Pc FInv)

variable {V : Type}

/-- The messages, by destination and tag, in a channel to the RTI. -/
def sent (l : List Up) : List (Nat × Tag) :=
  l.filterMap fun | .msg d _ _ m => some (d, m) | _ => none

/-- The tags of the messages among what the RTI has written. -/
def msgs (l : List Down) : List Tag :=
  l.filterMap fun | .msg m => some m | _ => none

theorem msgs_append (a b : List Down) : msgs (a ++ b) = msgs a ++ msgs b := List.filterMap_append
theorem sent_append (a b : List Up) : sent (a ++ b) = sent a ++ sent b := List.filterMap_append

theorem msgs_none {l : List Down} (h : ∀ p, Down.msg p ∉ l) : msgs l = [] := by
  unfold msgs
  rw [List.filterMap_eq_nil_iff]
  intro a ha
  cases a with
  | msg p => exact absurd ha (h p)
  | tag p => rfl
  | ptag p => rfl

theorem mem_sent {l : List Up} {d : Nat} {m : Tag} : (d, m) ∈ sent l ↔ ∃ s w, Up.msg d s w m ∈ l := by
  unfold sent
  rw [List.mem_filterMap]
  constructor
  · rintro ⟨a, ha, k⟩
    cases a with
    | msg d' s w m' => dsimp only at k; cases k; exact ⟨s, w, ha⟩
    | _ => cases k
  · rintro ⟨s, w, h⟩
    exact ⟨_, h, rfl⟩

theorem mem_msgs {l : List Down} {m : Tag} : m ∈ msgs l ↔ Down.msg m ∈ l := by
  unfold msgs
  rw [List.mem_filterMap]
  constructor
  · rintro ⟨a, ha, k⟩
    cases a with
    | msg m' => dsimp only at k; cases k; exact ha
    | _ => cases k
  · intro h
    exact ⟨_, h, rfl⟩

section
variable {P : Program V} {M : Timing} {rank : Nat → Nat}

/-- The interval is longer than the precision of waits, see `Fedn.Config.Ok`. -/
def Timing.Ok (M : Timing) : Prop := Fedn.minSleep < M.interval

theorem Program.Ok.conf (hP : P.Ok rank) (hM : M.Ok) : (conf P M).Ok where
  topology := hP.topology
  down := hP.down
  start := by
    rcases hP.start.1 with k | k
    · exact absurd k hP.start.2
    · exact k.1
  finite := by
    rcases hP.start.1 with k | k
    · exact absurd k hP.start.2
    · exact k.2.1
  timeout := fun _ => hP.stop
  events := fun i e he => by
    obtain ⟨a, ha, rfl⟩ := List.mem_map.1 he
    exact ⟨hP.after i a ha, fun d hd => by cases hd; omega⟩
  causes := fun i d hd => by rw [List.mem_singleton.1 hd]
  interval := hM
  slow := fun _ _ => by show (-1 : Int) < 0; decide

theorem conf_calm (P : Program V) (M : Timing) : (conf P M).Calm := ⟨rfl, rfl, .inl rfl⟩

theorem Program.Ok.noCycle (hP : P.Ok rank) : ¬ ∃ u, Rti.OnZeroDelayCycle P.T u := by
  have path : ∀ e u ws, Rti.Path P.T (fun _ => true) e u ws → (∀ w ∈ ws, w < 0) → rank u < rank e := by
    intro e u ws h
    induction h with
    | last u w _ h => intro k; exact hP.rank e u w h (k w (by simp))
    | step u i w ws _ h _ ih =>
      intro k
      exact Nat.lt_trans (hP.rank i u w h (k w (by simp))) (ih fun w hw => k w (by simp [hw]))
  rintro ⟨u, ws, h, k⟩
  exact Nat.lt_irrefl _ (path u u ws h k)

theorem Program.Ok.noPtag (hP : P.Ok rank) {σ : Sys} (h : Rti.Reach P.T P.start σ) (i : Nat) (g : Tag) :
    Down.ptag g ∉ σ.rti.out i := by
  intro k
  have h0 : 0 ≤ P.start ∧ P.start < FOREVER := by
    rcases hP.start.1 with k | k
    · exact absurd k hP.start.2
    · exact ⟨k.1, k.2.1⟩
  exact hP.noCycle (Rti.reach_cycle hP.topology hP.down h0.1 h0.2 h k)

/-! ## The RTI -/

/-- What the RTI has written since is no message. -/
def Silent (a b : Rti.Rti) : Prop := ∀ j, ∃ l, b.out j = a.out j ++ l ∧ ∀ p, Down.msg p ∉ l

/-- All connections work, and only federates that have come to their end have resigned. -/
structure Live (P : Program V) (s : State) : Prop where
  whole : Rti.Whole s.sys.rti
  connected : ∀ i, (s.sys.rti.node i).connected = true ∨ (i < P.T.n ∧ (s.fed i).pc = .gone ∧ s.sys.up i = [])
  last : ∀ i, Up.resign ∈ s.sys.up i → (s.fed i).pc = .gone ∧ ∃ q, s.sys.up i = q ++ [Up.resign] ∧ Up.resign ∉ q

theorem Live.head {s : State} (h : Live P s) {i : Nat} {q : List Up} (hq : s.sys.up i = .resign :: q) : (s.fed i).pc = .gone ∧ q = [] := by
  obtain ⟨h1, q', h2, h3⟩ := h.last i (by rw [hq]; exact List.mem_cons_self)
  refine ⟨h1, ?_⟩
  rw [hq] at h2
  cases q' with
  | nil => exact (List.cons.inj h2).2
  | cons y q' => exact absurd (by rw [← (List.cons.inj h2).1]; exact List.mem_cons_self) h3

theorem Live.tail {s : State} (h : Live P s) {i : Nat} {x : Up} {q : List Up} (hq : s.sys.up i = x :: q) (hx : x ≠ .resign)
    (hr : Up.resign ∈ q) : ∃ q', q = q' ++ [Up.resign] ∧ Up.resign ∉ q' := by
  obtain ⟨h1, q', h2, h3⟩ := h.last i (by rw [hq]; exact List.mem_cons_of_mem _ hr)
  rw [hq] at h2
  cases q' with
  | nil => exact absurd (List.cons.inj h2).1 hx
  | cons y q' => exact ⟨q', (List.cons.inj h2).2, fun k => h3 (List.mem_cons_of_mem _ k)⟩

theorem Live.conn {s : State} (h : Live P s) {i : Nat} (hi : s.sys.up i ≠ [] ∨ (s.fed i).pc ≠ .gone) : (s.sys.rti.node i).connected = true := by
  rcases h.connected i with k | ⟨_, k1, k2⟩
  · exact k
  · rcases hi with k | k
    · exact absurd k2 k
    · exact absurd k1 k

/-- The RTI handles what comes next from `i`. -/
theorem handle_effect (hP : P.Ok rank) {i : Nat} {s : State} {σ' : Sys} (hr : Rti.Reach P.T P.start s.sys) (hl : Live P s)
    (hdest : ∀ d t w m q, s.sys.up i = .msg d t w m :: q → (s.sys.rti.node d).connected = true)
    (hh : Fedn.handle (conf P M) i s.sys = some σ') :
    σ'.net = s.sys.net ∧ σ'.done = s.sys.done ∧ Live P ⟨σ', s.fed⟩ ∧ (∀ j, s.sys.rti.out j <+: σ'.rti.out j) ∧
    ((∃ d t w m q, s.sys.up i = .msg d t w m :: q ∧ σ'.up = put s.sys.up i q ∧ d < P.T.n ∧
        (∃ l, σ'.rti.out d = s.sys.rti.out d ++ .msg m :: l ∧ ∀ p, Down.msg p ∉ l) ∧
        ∀ j, j ≠ d → ∃ l, σ'.rti.out j = s.sys.rti.out j ++ l ∧ ∀ p, Down.msg p ∉ l) ∨
      ((¬ ∃ d t w m q, s.sys.up i = .msg d t w m :: q) ∧ (∀ j, sent (σ'.up j) = sent (s.sys.up j)) ∧ Silent s.sys.rti σ'.rti)) := by
  have h0 : 0 ≤ P.start ∧ P.start < FOREVER := by
    rcases hP.start.1 with k | k
    · exact absurd k hP.start.2
    · exact ⟨k.1, k.2.1⟩
  obtain ⟨β, hi⟩ := hr.inv hP.topology hP.down h0.1 h0.2
  -- what comes next is handled, and more may come
  have live : ∀ x q q' r, s.sys.up i = x :: q → x ≠ .resign → (q' = q ∨ ∃ c, q' = .clean c :: q) → Rti.Whole r →
      (∀ j, (r.node j).connected = (s.sys.rti.node j).connected) → Live P ⟨{ s.sys with rti := r, up := put s.sys.up i q' }, s.fed⟩ := by
    intro x q q' r hq hx hq' hw hc
    refine ⟨hw, fun j => ?_, fun j hj => ?_⟩
    · show (r.node j).connected = true ∨ j < P.T.n ∧ (s.fed j).pc = .gone ∧ put s.sys.up i q' j = []
      rw [hc j]
      rcases hl.connected j with k | ⟨k0, k1, k2⟩
      · exact .inl k
      · by_cases e : j = i
        · subst e; rw [hq] at k2; cases k2
        · rw [put_other _ _ _ e]; exact .inr ⟨k0, k1, k2⟩
    · replace hj : Up.resign ∈ put s.sys.up i q' j := hj
      show (s.fed j).pc = .gone ∧ ∃ q'', put s.sys.up i q' j = q'' ++ [Up.resign] ∧ Up.resign ∉ q''
      by_cases e : j = i
      · subst e
        rw [put_same] at hj ⊢
        rcases hq' with rfl | ⟨c, rfl⟩
        · exact ⟨(hl.last j (by rw [hq]; exact List.mem_cons_of_mem _ hj)).1, hl.tail hq hx hj⟩
        · have hj : Up.resign ∈ q := by simpa using hj
          obtain ⟨q'', k1, k2⟩ := hl.tail hq hx hj
          exact ⟨(hl.last j (by rw [hq]; exact List.mem_cons_of_mem _ hj)).1, .clean c :: q'', by rw [k1]; rfl, by simpa using k2⟩
      · rw [put_other _ _ _ e] at hj ⊢; exact hl.last j hj
  have other : ∀ x q q' r, s.sys.up i = x :: q → x ≠ .resign → (q' = q ∨ ∃ c, q' = .clean c :: q) → Rti.Tame s.sys.rti r →
      sent q' = sent (x :: q) → (∀ d t w m, x ≠ .msg d t w m) → σ' = { s.sys with rti := r, up := put s.sys.up i q' } →
      σ'.net = s.sys.net ∧ σ'.done = s.sys.done ∧ Live P ⟨σ', s.fed⟩ ∧ (∀ j, s.sys.rti.out j <+: σ'.rti.out j) ∧
      ((∃ d t w m q, s.sys.up i = .msg d t w m :: q ∧ σ'.up = put s.sys.up i q ∧ d < P.T.n ∧
          (∃ l, σ'.rti.out d = s.sys.rti.out d ++ .msg m :: l ∧ ∀ p, Down.msg p ∉ l) ∧
          ∀ j, j ≠ d → ∃ l, σ'.rti.out j = s.sys.rti.out j ++ l ∧ ∀ p, Down.msg p ∉ l) ∨
        ((¬ ∃ d t w m q, s.sys.up i = .msg d t w m :: q) ∧ (∀ j, sent (σ'.up j) = sent (s.sys.up j)) ∧ Silent s.sys.rti σ'.rti)) := by
    intro x q q' r hq hx hre ht hse hxm e
    subst e
    refine ⟨rfl, rfl, live x q q' r hq hx hre (fun j => by rw [ht.broken]; exact hl.whole j) (fun j => ht.connected hl.whole j),
      fun j => ?_, .inr ⟨?_, fun j => ?_, ht.out⟩⟩
    · obtain ⟨l, e, _⟩ := ht.out j
      exact ⟨l, e.symm⟩
    · rintro ⟨d, t, w, m, q'', e⟩
      rw [hq] at e
      exact hxm d t w m (List.cons.inj e).1
    · show sent (put s.sys.up i q' j) = _
      by_cases e : j = i
      · subst e; rw [put_same, hse, hq]
      · rw [put_other _ _ _ e]
  unfold Fedn.handle at hh
  split at hh
  · rename_i c q hq
    cases hh
    exact other _ q q _ hq (by simp) (.inl rfl) (Rti.removeInTransit_tame i c _) rfl (fun _ _ _ _ e => by cases e) rfl
  · rename_i d t w m q hq
    split at hh
    · rename_i hcn
      have hp := hi.pre i hcn
      rw [hq] at hp
      obtain ⟨r, hr', k⟩ := Rti.handleTimed_tame hP.topology hP.down h0.1 hp.1.dest m s.sys.rti (hdest d t w m q hq) (hl.whole d)
      have hr'' : Rti.handleTimedMessage (conf P M).T (conf P M).start d m s.sys.rti = some r := hr'
      rw [hr''] at hh
      cases hh
      have hout : ∃ l, r.out d = s.sys.rti.out d ++ .msg m :: l ∧ ∀ p, Down.msg p ∉ l := by
        obtain ⟨l, e, kl⟩ := k.out d
        refine ⟨l, ?_, kl⟩
        rw [e]; unfold Rti.Rti.write; dsimp only; rw [put_same]; simp
      have hother : ∀ j, j ≠ d → ∃ l, r.out j = s.sys.rti.out j ++ l ∧ ∀ p, Down.msg p ∉ l := by
        intro j hj
        obtain ⟨l, e, kl⟩ := k.out j
        refine ⟨l, ?_, kl⟩
        rw [e]; unfold Rti.Rti.write; dsimp only; rw [put_other _ _ _ hj]
      refine ⟨rfl, rfl, live _ q q r hq (by simp) (.inl rfl) (fun j => by rw [k.broken]; exact hl.whole j) (fun j => k.connected hl.whole j),
        fun j => ?_, .inl ⟨d, t, w, m, q, hq, rfl, hp.1.dest, hout, hother⟩⟩
      obtain ⟨l, e, _⟩ := k.out j
      exact (Rti.write_prefix s.sys.rti d (.msg m) j).trans ⟨l, e.symm⟩
    · cases hh
  · rename_i n p q hq
    split at hh
    · rename_i hcn
      cases hh
      have hp := hi.pre i hcn
      rw [hq] at hp
      exact other _ q q _ hq (by simp) (.inl rfl) (Rti.updateFederate_tame hP.topology hP.down h0.1 hp.2.2.2.2.2.1 _ _) rfl
        (fun _ _ _ _ e => by cases e) rfl
    · cases hh
  · rename_i c q hq
    split at hh
    · cases hh
      exact other _ q (.clean c :: q) _ hq (by simp) (.inr ⟨c, rfl⟩) (Rti.logicalTagComplete_tame hP.topology hP.down h0.1 i c _) rfl
        (fun _ _ _ _ e => by cases e) rfl
    · cases hh
  · rename_i q hq
    split at hh
    · cases hh
      obtain ⟨hg, rfl⟩ := hl.head hq
      have hin : i < P.T.n := hr.numbered.1 i (by rw [hq]; simp)
      have ht : Rti.Tame (s.sys.rti.setNode i fun nd => { nd with connected := false, nextEvent := FOREVER_TAG })
          (Rti.handleResign P.T P.start i s.sys.rti) := (Rti.notifyAllDownstream_micros h0.1 hP.topology hP.down i _).tame
      have hw : Rti.Whole (s.sys.rti.setNode i fun nd => { nd with connected := false, nextEvent := FOREVER_TAG }) := hl.whole
      refine ⟨rfl, rfl, ⟨fun j => ?_, fun j => ?_, fun j hj => ?_⟩, fun j => ?_, .inr ⟨?_, fun j => ?_, ht.out⟩⟩
      · show (Rti.handleResign P.T P.start i s.sys.rti).broken j = false
        rw [ht.broken]; exact hw j
      · show ((Rti.handleResign P.T P.start i s.sys.rti).node j).connected = true ∨
          j < P.T.n ∧ (s.fed j).pc = .gone ∧ put s.sys.up i [] j = []
        by_cases e : j = i
        · subst e; rw [put_same]; exact .inr ⟨hin, hg, rfl⟩
        · rw [ht.connected hw j, Rti.setNode_other _ _ e, put_other _ _ _ e]; exact hl.connected j
      · replace hj : Up.resign ∈ put s.sys.up i [] j := hj
        show (s.fed j).pc = .gone ∧ ∃ q'', put s.sys.up i [] j = q'' ++ [Up.resign] ∧ Up.resign ∉ q''
        by_cases e : j = i
        · subst e; rw [put_same] at hj; cases hj
        · rw [put_other _ _ _ e] at hj ⊢; exact hl.last j hj
      · obtain ⟨l, e, _⟩ := ht.out j
        exact ⟨l, e.symm⟩
      · rintro ⟨d, t, w, m, q'', e⟩
        rw [hq] at e
        cases (List.cons.inj e).1
      · show sent (put s.sys.up i [] j) = _
        by_cases e : j = i
        · subst e; rw [put_same, hq]; rfl
        · rw [put_other _ _ _ e]
    · cases hh
  · cases hh

/-! ## What a step leaves of a federate that is gone -/

/-- The steps that occur. -/
def Allowed : Act → Prop
  | .closed _ => False
  | .breaks _ => False
  | .physical _ _ => False
  | .stop _ => False
  | .learn _ _ => False
  | _ => True

theorem ret_gone {f : Fed} {o : Option Tag} {g : Tag} : (f.ret o g).pc ≠ .gone := by
  unfold Fed.ret
  cases o with
  | none => simp
  | some o => dsimp only; split <;> simp

theorem ask_gone {C : Config} {i : Nat} {f : Fed} (h : (Fedn.ask C i f).1.pc = .gone) : (Fedn.ask C i f).1 = f := by
  unfold Fedn.ask at h ⊢
  cases hp : f.pc with
  | asking o t =>
    rw [hp] at h
    dsimp only at h
    exfalso
    split at h
    · exact ret_gone h
    split at h
    · exact ret_gone h
    split at h
    · cases h
    split at h
    · cases h
    · exact ret_gone h
  | _ => rfl

theorem wake_gone {f : Fed} (h : (Fedn.wake f).1.pc = .gone) : (Fedn.wake f).1 = f := by
  unfold Fedn.wake at h ⊢
  cases hp : f.pc with
  | waiting o t =>
    rw [hp] at h
    dsimp only at h ⊢
    split at h
    · exact absurd h ret_gone
    · rename_i k
      rw [if_neg k]
      split <;> rfl
  | _ => rfl

theorem resume_gone {f : Fed} (h : (Fedn.resume f).pc = .gone) : Fedn.resume f = f := by
  unfold Fedn.resume at h ⊢
  cases hp : f.pc with
  | pausing o => rw [hp] at h; cases h
  | _ => rfl

theorem takePtag_gone {need : Bool} {g : Tag} {f : Fed} (h : (Fedn.takePtag need g f).1.pc = .gone) (hf : f.pc ≠ .gone) :
    (Fedn.takePtag need g f).1.cur = f.cur ∧ (Fedn.takePtag need g f).1.stop = f.stop ∧
      (Fedn.takePtag need g f).1.started = f.started ∧ (Fedn.takePtag need g f).2 = none := by
  revert h
  unfold Fedn.takePtag
  split
  · intro _; exact ⟨rfl, rfl, rfl, rfl⟩
  split
  · intro k; exact absurd k hf
  split
  · intro k; rw [(Fedn.confirm_keeps _ _ _).2.2] at k; exact absurd k hf
  split <;> (intro k; exact absurd k hf)

/-- A federate that is gone after a step is where it was before. -/
theorem frozen {C : Config} {s : State} {a : Act} (hC : ∀ i σ', Fedn.handle C i s.sys = some σ' → σ'.done = s.sys.done)
    (ha : Allowed a) (hp : Fedn.pre C s a) {i : Nat} (hg : ((Fedn.post C s a).fed i).pc = .gone) :
    ((Fedn.post C s a).fed i).cur = (s.fed i).cur ∧ ((Fedn.post C s a).fed i).stop = (s.fed i).stop ∧
      ((Fedn.post C s a).fed i).started = (s.fed i).started ∧ (Fedn.post C s a).sys.done i = s.sys.done i ∧
      (s.fed i).taken ≤ ((Fedn.post C s a).fed i).taken := by
  have same : ∀ (j : Nat) (f : Fed) (σ : Sys), (put s.fed j f i).pc = .gone →
      (i = j → f.pc = .gone → f.cur = (s.fed i).cur ∧ f.stop = (s.fed i).stop ∧ f.started = (s.fed i).started ∧ σ.done i = s.sys.done i ∧
        (s.fed i).taken ≤ f.taken) →
      (i ≠ j → σ.done i = s.sys.done i) →
      (put s.fed j f i).cur = (s.fed i).cur ∧ (put s.fed j f i).stop = (s.fed i).stop ∧
        (put s.fed j f i).started = (s.fed i).started ∧ σ.done i = s.sys.done i ∧ (s.fed i).taken ≤ (put s.fed j f i).taken := by
    intro j f σ h1 h2 h3
    by_cases e : i = j
    · subst e; rw [put_same] at h1 ⊢; exact h2 rfl h1
    · rw [put_other _ _ _ e] at h1 ⊢; exact ⟨rfl, rfl, rfl, h3 e, Nat.le_refl _⟩
  cases a with
  | closed j => exact absurd ha id
  | breaks j => exact absurd ha id
  | physical j e => exact absurd ha id
  | leave j => exact same j _ _ hg (fun e _ => by subst e; exact ⟨rfl, rfl, rfl, rfl, Nat.le_refl _⟩) (fun _ => rfl)
  | stop t => exact absurd ha id
  | learn j t => exact absurd ha id
  | handle j =>
    revert hg
    unfold Fedn.post
    dsimp only
    cases hh : Fedn.handle C j s.sys with
    | none => intro _; exact ⟨rfl, rfl, rfl, rfl, Nat.le_refl _⟩
    | some σ => intro _; exact ⟨rfl, rfl, rfl, by rw [show (⟨σ, s.fed⟩ : State).sys.done = σ.done from rfl, hC j σ hh], Nat.le_refl _⟩
  | tick j t => exact same j _ s.sys hg (fun e _ => by subst e; exact ⟨rfl, rfl, rfl, rfl, Nat.le_refl _⟩) (fun _ => rfl)
  | begin j => exact same j _ s.sys hg (fun e k => by cases k) (fun _ => rfl)
  | ask j =>
    refine same j _ _ hg (fun e k => ?_) (fun _ => congrFun (Fedn.sendNet_done _ _ _) i)
    subst e; rw [ask_gone k]; exact ⟨rfl, rfl, rfl, congrFun (Fedn.sendNet_done _ _ _) i, Nat.le_refl _⟩
  | wake j =>
    refine same j _ _ hg (fun e k => ?_) (fun _ => congrFun (Fedn.sendNet_done _ _ _) i)
    subst e; rw [wake_gone k]; exact ⟨rfl, rfl, rfl, congrFun (Fedn.sendNet_done _ _ _) i, Nat.le_refl _⟩
  | resume j =>
    refine same j _ s.sys hg (fun e k => ?_) (fun _ => rfl)
    subst e; rw [resume_gone k]; exact ⟨rfl, rfl, rfl, rfl, Nat.le_refl _⟩
  | advance j =>
    refine same j _ s.sys hg (fun e k => ?_) (fun _ => rfl)
    exfalso
    unfold Fedn.advance at k
    split at k <;> cases k
  | send j d w => exact ⟨rfl, rfl, rfl, rfl, Nat.le_refl _⟩
  | schedule j δ e => exact same j _ s.sys hg (fun e _ => by subst e; exact ⟨rfl, rfl, rfl, rfl, Nat.le_refl _⟩) (fun _ => rfl)
  | complete j need =>
    refine same j _ _ hg (fun e k => by cases k) (fun e => Fedn.sendLtc_other _ _ e)
  | exit j =>
    refine same j _ _ hg (fun e k => ?_) (fun _ => congrFun (Fedn.sendNet_done _ _ _) i)
    subst e; exact ⟨rfl, rfl, rfl, congrFun (Fedn.sendNet_done _ _ _) i, Nat.le_refl _⟩
  | take j direct need =>
    obtain ⟨_, hfree, _⟩ := hp
    have hng : (s.fed j).pc ≠ .gone := by
      intro k; unfold Fed.free at hfree; rw [k] at hfree; cases hfree
    revert hg
    unfold Fedn.post Fedn.take
    dsimp only
    cases (s.sys.rti.out j)[(s.fed j).taken]? with
    | none => intro _; exact ⟨rfl, rfl, rfl, rfl, Nat.le_refl _⟩
    | some y =>
      cases y with
      | tag g =>
        intro hg
        refine same j _ s.sys hg (fun e _ => ?_) (fun _ => rfl)
        subst e; unfold Fedn.takeTag; split <;> exact ⟨rfl, rfl, rfl, rfl, Nat.le_succ _⟩
      | ptag g =>
        intro hg
        refine same j _ _ hg (fun e k => ?_) (fun e => Fedn.sendLtc_other _ _ e)
        subst e
        obtain ⟨k1, k2, k3, k4⟩ := takePtag_gone k hng
        refine ⟨k1, k2, k3, ?_, by rw [(Fedn.takePtag_keeps _ _ _).1]; exact Nat.le_succ _⟩
        show (Fedn.sendLtc i (Fedn.takePtag need g (s.fed i).read).2 s.sys).done i = _
        rw [k4]; rfl
      | msg m =>
        intro hg
        have hd : ∀ b : Bool, (if b = true then Fedn.receive j m s.sys else s.sys).done i = s.sys.done i := by
          intro b; cases b
          · rfl
          · exact congrFun (Fedn.receive_done j m s.sys) i
        refine same j _ _ hg (fun e k => ?_) (fun e => ?_)
        · subst e
          refine ⟨?_, ?_, ?_, hd _, by rw [Fedn.takeMsg_taken]; exact Nat.le_succ _⟩
          all_goals
            unfold Fedn.takeMsg
            split
            · rfl
            split
            · rfl
            split <;> rfl
        · exact hd _

end

end ReactorC.FedDet
