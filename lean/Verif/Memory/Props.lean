import Verif.Memory.Term

/-! # Property C80: memory is freed at the end, and nothing is freed twice -/

namespace Verif.Memory

/-- C80.  As long as the program uses the functions properly, nothing it does before its end is undefined behaviour:
every proper operation in every state that can be reached can be executed. -/
theorem C80_proper_use_is_safe {s : St} (h : Reach s) (o : Op) (hp : Proper s o) : ∃ s', apply s o = some s' :=
  let ⟨s', e, _⟩ := step_ok (reach_inv h) o hp
  ⟨s', e⟩

/-- C80 for programs where no reactor has two watchdogs in the first environment.  However many reactors, allocations,
environments and events there were, the end of the program frees nothing twice, reads nothing that is not allocated, and
afterwards exactly the memory that `Leaks` lists is still allocated: everything recorded with `lf_new_reactor` and
`lf_allocate` on such reactors, and everything of the environments but events and arrays of watchdogs, is freed.
Missing for the full property: the memory in `Leaks`, and reactors with two watchdogs (both below). -/
theorem C80_termination_frees_all_but_the_leaks_partial {s : St} (h : Reach s) (hx : s.executed = false)
    (hw : (watched s).Nodup) :
    ∃ s', termination true s = some s' ∧ ∀ a, s'.heap a = true ↔ Leaks s a := by
  obtain ⟨hp, e, hh⟩ := termination_safe (reach_inv h) hw
  exact ⟨{ s with heap := hp, executed := true }, by simp [termination, hx, e], hh⟩

/-- C80 for programs without watchdogs, events and memory of their own: all memory is freed. -/
theorem C80_programs_without_leaks_free_all_memory {s : St} (h : Reach s) (hx : s.executed = false)
    (hl : s.loose = []) (ho : s.own = []) (hm : ∀ r, s.mutex r = none)
    (he : ∀ e ∈ s.envs, e.events = [] ∧ e.recycled = [] ∧ e.cfg.watchdogs = 0) :
    ∃ s', termination true s = some s' ∧ ∀ a, s'.heap a = false := by
  have i := reach_inv h
  have hb : watched s = [] := by
    unfold watched
    cases hE : s.envs with
    | nil => rfl
    | cons e l =>
        dsimp only
        split
        · rfl
        · apply List.eq_nil_iff_forall_not_mem.2
          intro b hb
          have := (i.wd e (by simp [hE]) b hb).2.1
          rw [hm] at this
          simp at this
  obtain ⟨s', e, hh⟩ := C80_termination_frees_all_but_the_leaks_partial h hx (by rw [hb]; exact List.nodup_nil)
  refine ⟨s', e, ?_⟩
  intro a
  by_contra ha
  have ha : s'.heap a = true := by simpa using ha
  rcases (hh a).1 ha with h1 | ⟨r, hr, -⟩ | ⟨e, hee, h3⟩ | ⟨r, -, hr, -⟩
  · simp [hl] at h1
  · simp [ho] at hr
  · obtain ⟨e1, e2, e3⟩ := he e hee
    rcases h3 with h3 | h3 | h3
    · simp [e1] at h3
    · simp [e2] at h3
    · have := i.ptrs e hee .watchdogs
      rw [h3] at this
      simp [Cfg.allocates, e3] at this
  · rw [hm] at hr
    cases hr

/-- C80.  The functions called at exit run once: a second call of `termination`, as when `exit` is called during the
first, changes nothing. -/
theorem C80_termination_runs_once {s s' : St} (n m : Bool) (h : termination n s = some s') :
    termination m s' = some s' := by
  have hx : s'.executed = true := by
    unfold termination at h
    split at h
    · cases h
      assumption
    · split at h
      · cases he : exec (terminationActs s) s.heap with
        | none => rw [he] at h; cases h
        | some hp => rw [he] at h; cases h; rfl
      · cases h
        rfl
  simp [termination, hx]

/-- C80.  A program that ends abnormally frees nothing, whatever its state, so it cannot free anything twice. -/
theorem C80_abnormal_termination_frees_nothing (s : St) :
    ∃ s', termination false s = some s' ∧ s'.heap = s.heap := by
  unfold termination
  split
  · exact ⟨s, rfl, rfl⟩
  · exact ⟨_, rfl, rfl⟩

/-- C80, the full property, is false of the code: events.  Every event that was ever allocated is in the event queue or
in the queue of recycled events of its environment, and stays allocated at the end. -/
theorem C80_not_events_are_freed {s : St} (h : Reach s) (hx : s.executed = false) (hw : (watched s).Nodup) {e : Env}
    (he : e ∈ s.envs) {a : Nat} (ha : a ∈ e.events ∨ a ∈ e.recycled) :
    ∃ s', termination true s = some s' ∧ s'.heap a = true := by
  obtain ⟨s', e', hh⟩ := C80_termination_frees_all_but_the_leaks_partial h hx hw
  exact ⟨s', e', (hh a).2 (.inr (.inr (.inl ⟨e, he, by tauto⟩)))⟩

/-- Events are never lost before the end either: as long as the program runs, every event is in one of the queues. -/
theorem C80_not_events_are_freed_earlier (s : St) (i : Nat) (e : Env) (he : s.envs[i]? = some e) :
    ∃ e', (newEvent s i).envs[i]? = some e' ∧
      (e'.events ++ e'.recycled).length =
        (e.events ++ e.recycled).length + (if e.recycled = [] then 1 else 0) ∧
      ∃ e'', (recycle s i).envs[i]? = some e'' ∧
        (e''.events ++ e''.recycled).length = (e.events ++ e.recycled).length := by
  have hi : i < s.envs.length := (List.getElem?_eq_some_iff.1 he).1
  have R : ∃ e'', (recycle s i).envs[i]? = some e'' ∧
        (e''.events ++ e''.recycled).length = (e.events ++ e.recycled).length := by
    unfold recycle
    rw [he]
    dsimp only
    cases hE : e.events with
    | nil => exact ⟨e, he, by simp [hE]⟩
    | cons x l => exact ⟨_, by simp [hi]; rfl, by simp; omega⟩
  cases hR : e.recycled with
  | nil =>
      refine ⟨{ e with events := e.events ++ [s.next] }, ?_, by simp [hR], hR ▸ R⟩
      unfold newEvent
      rw [he]
      dsimp only
      rw [hR]
      simp [hi, hR]
  | cons x l =>
      refine ⟨{ e with events := e.events ++ [x], recycled := l }, ?_, by simp, hR ▸ R⟩
      unfold newEvent
      rw [he]
      dsimp only
      rw [hR]
      simp [hi]

/-- C80 is false of the code: watchdogs.  The array of watchdogs of an environment and the mutexes of reactors with
watchdogs in environments other than the first (enclaves) stay allocated. -/
theorem C80_not_watchdogs_are_freed {s : St} (h : Reach s) (hx : s.executed = false) (hw : (watched s).Nodup)
    {a : Nat}
    (ha : (∃ e ∈ s.envs, e.ptr .watchdogs = some a) ∨
      ∃ r ∈ s.toFree.map Prod.snd, s.mutex r = some a ∧ r ∉ watched s) :
    ∃ s', termination true s = some s' ∧ s'.heap a = true := by
  obtain ⟨s', e', hh⟩ := C80_termination_frees_all_but_the_leaks_partial h hx hw
  refine ⟨s', e', (hh a).2 ?_⟩
  rcases ha with ⟨e, he, ha⟩ | ha
  · exact .inr (.inr (.inl ⟨e, he, by tauto⟩))
  · exact .inr (.inr (.inr ha))

/-- A configuration with some watchdogs and everything else there is in a program with threads. -/
def exampleCfg (w : Nat) : Cfg :=
  { named := true
    timers := 2
    startup := 1
    shutdown := 1
    reset := 0
    present := 3
    numModes := 2
    resets := 1
    watchdogs := w
    singleThreaded := false
    modal := true
    decentralized := true }

/-- A history is proper, decided. -/
def properly : St → List Op → Bool
  | _, [] => true
  | s, o :: l =>
      (match o with
        | .allocate self => (s.toFree.map Prod.snd).contains self || s.own.contains self
        | .freeLoose a => s.loose.contains a
        | .freeReactor self => s.own.contains self
        | .newMutex self => (s.toFree.map Prod.snd).contains self && (s.mutex self).isNone
        | .addWatchdog i self =>
            match s.envs[i]? with
            | none => false
            | some e => decide (e.bases.length < e.cfg.watchdogs) && (s.toFree.map Prod.snd).contains self &&
                (s.mutex self).isSome
        | _ => true) &&
      match apply s o with
      | none => false
      | some s' => properly s' l

theorem reach_of_properly {l : List Op} : ∀ {s : St}, Reach s → properly s l = true →
    ∃ s', run s l = some s' ∧ Reach s' := by
  induction l with
  | nil => intro s h _; exact ⟨s, rfl, h⟩
  | cons o l ih =>
      intro s h hp
      simp only [properly, Bool.and_eq_true] at hp
      obtain ⟨p1, p2⟩ := hp
      cases e : apply s o with
      | none => simp [e] at p2
      | some s1 =>
          simp only [e] at p2
          have hpr : Proper s o := by
            cases o <;> simp only [Proper]
            case allocate => simpa using p1
            case freeLoose => simpa using p1
            case freeReactor => simpa using p1
            case newMutex => simpa using p1
            case addWatchdog i self =>
              dsimp only at p1
              cases he : s.envs[i]? with
              | none => simp [he] at p1
              | some e' =>
                  simp only [he, Bool.and_eq_true, decide_eq_true_eq] at p1
                  exact ⟨e', rfl, p1.1.1, by simpa using p1.1.2, p1.2⟩
          obtain ⟨s', r, hr⟩ := ih (Reach.step o h hpr e) p2
          exact ⟨s', by simp [run, e, r], hr⟩

/-- C80 is false of the code: two watchdogs.  A reactor with two watchdogs has one mutex, which `termination` frees once
for each of them: the program frees memory twice when it ends. -/
theorem C80_not_safe_with_two_watchdogs_in_a_reactor :
    ∃ s, Reach s ∧ s.executed = false ∧ watched s = [1, 1] ∧ termination true s = none := by
  obtain ⟨s, e, h⟩ := reach_of_properly (l := [.newReactor, .newMutex 1, .initEnv (exampleCfg 2), .addWatchdog 0 1,
    .addWatchdog 0 1]) Reach.init (by decide +kernel)
  have e2 : (run St.init [.newReactor, .newMutex 1, .initEnv (exampleCfg 2), .addWatchdog 0 1,
    .addWatchdog 0 1]).map (fun s => (s.executed, watched s, (termination true s).isNone)) =
      some (false, [1, 1], true) := by decide +kernel
  rw [e] at e2
  simp only [Option.map_some, Option.some.injEq, Prod.mk.injEq] at e2
  exact ⟨s, h, e2.1, e2.2.1, by simpa using e2.2.2⟩

/-- In general: whenever a watchdog of a reactor comes after another watchdog of that reactor in the first environment,
the end of the program is undefined behaviour. -/
theorem C80_not_safe_whenever_two_watchdogs_share_a_reactor {s : St} (h : Reach s) (hx : s.executed = false)
    (hw : ¬ (watched s).Nodup) : termination true s = none := by
  have i := reach_inv h
  have key : ∀ hp, exec (freeMutexes s) hp = none := by
    unfold freeMutexes
    unfold watched at hw
    cases hE : s.envs with
    | nil => simp [hE] at hw
    | cons e l =>
        simp only [hE] at hw ⊢
        split at hw
        · simp at hw
        · rename_i hst
          rw [if_neg hst]
          have W := i.wd e (by simp [hE])
          have gone : ∀ (l : List Nat) (hp : Heap) (m b : Nat), b ∈ l → s.mutex b = some m → hp m = false →
              exec (l.flatMap fun b => .read (e.ptr .watchdogs) :: .read (some b) ::
                (if (s.mutex b).isSome then [.free (s.mutex b)] else [])) hp = none := by
            intro l
            induction l with
            | nil => intro hp m b hb; simp at hb
            | cons c l ih =>
                intro hp m b hb hm hh
                rw [List.flatMap_cons, exec_append]
                cases hc : exec (.read (e.ptr .watchdogs) :: .read (some c) ::
                  (if (s.mutex c).isSome then [.free (s.mutex c)] else [])) hp with
                | none => rfl
                | some hp' =>
                    rw [Option.bind_some]
                    have hmono := exec_mono hc m hh
                    by_cases hbc : b = c
                    · subst hbc
                      exfalso
                      rw [hm] at hc
                      simp only [Option.isSome_some, if_true] at hc
                      cases hwp : e.ptr .watchdogs with
                      | none => simp [exec, Act.exec, hwp] at hc
                      | some w =>
                          simp only [hwp, exec, Act.exec, hh] at hc
                          split at hc
                          · simp only [Option.bind_some] at hc
                            split at hc
                            · simp [exec, Act.exec, hh] at hc
                            · simp at hc
                          · simp at hc
                    · refine ih hp' m b ?_ hm hmono
                      rcases List.mem_cons.1 hb with h | h
                      · exact absurd h hbc
                      · exact h
          have dup : ∀ (l : List Nat), (∀ b ∈ l, (s.mutex b).isSome) → ¬ l.Nodup → ∀ hp,
              exec (l.flatMap fun b => .read (e.ptr .watchdogs) :: .read (some b) ::
                (if (s.mutex b).isSome then [.free (s.mutex b)] else [])) hp = none := by
            intro l
            induction l with
            | nil => intro _ hn; exact absurd List.nodup_nil hn
            | cons c l ih =>
                intro hall hn hp
                rw [List.flatMap_cons, exec_append]
                cases hc : exec (.read (e.ptr .watchdogs) :: .read (some c) ::
                  (if (s.mutex c).isSome then [.free (s.mutex c)] else [])) hp with
                | none => rfl
                | some hp' =>
                    rw [Option.bind_some]
                    by_cases hcl : c ∈ l
                    · obtain ⟨m, hm⟩ := Option.isSome_iff_exists.1 (hall c (by simp))
                      refine gone l hp' m c hcl hm ?_
                      rw [hm] at hc
                      exact exec_frees hc m (by
                        rw [mem_frees]
                        simp)
                    · refine ih (fun b hb => hall b (by simp [hb])) ?_ hp'
                      intro h
                      exact hn (List.nodup_cons.2 ⟨hcl, h⟩)
          exact dup e.bases (fun b hb => (W b hb).2.1) hw
  have : exec (terminationActs s) s.heap = none := by
    unfold terminationActs
    rw [List.append_assoc, exec_append, key]
    rfl
  simp [termination, hx, this]

/-- C80 is false of reactors that are freed early although they were allocated with `lf_new_reactor`: the reactor is
freed again at the end.  (The comment at include/core/reactor.h:104-113 warns of this.) -/
theorem C80_not_safe_when_new_reactors_are_freed_early :
    (run St.init [.newReactor, .allocate 1, .freeReactor 1]).map (fun s => (termination true s).isNone) =
      some true := by
  decide +kernel

/-! ## The hypotheses are met -/

/-- A program with three reactors, one of which is freed early, memory on them, two environments with a watchdog each,
and events, one of which is used again. -/
def exampleHistory : List Op :=
  [.newReactor, .newReactor, .ownReactor, .allocate 1, .allocate 1, .allocate 3, .allocate 4, .freeReactor 4,
    .allocateLoose, .newMutex 1, .newMutex 3, .initEnv (exampleCfg 1), .initEnv (exampleCfg 1), .addWatchdog 0 1,
    .addWatchdog 1 3, .newEvent 0, .newEvent 0, .recycle 0, .newEvent 0, .newEvent 1]

/-- The history is proper and meets the hypotheses of the theorem about the end. -/
example : ∃ s, run St.init exampleHistory = some s ∧ Reach s := reach_of_properly Reach.init (by decide +kernel)
example : (run St.init exampleHistory).map (fun s => (s.executed, watched s, s.next)) = some (false, [1], 57) := by
  decide +kernel
/-- What is left at the end: the memory without a record (13), the mutex of the second reactor (15), the arrays of
watchdogs (23 and 42), and the events (54, 55, 56). -/
example : ((run St.init exampleHistory).bind (termination true)).map
    (fun s => (List.range s.next).filter s.heap) = some [13, 15, 23, 42, 54, 55, 56] := by decide +kernel
/-- A program without leaks. -/
example : ((run St.init [.newReactor, .allocate 1, .initEnv (exampleCfg 0)]).bind (termination true)).map
    (fun s => (List.range s.next).filter s.heap) = some [] := by decide +kernel
/-- The same program, compiled without threads. -/
example : ((run St.init [.newReactor, .allocate 1, .initEnv { exampleCfg 0 with singleThreaded := true }]).bind
    (termination true)).map (fun s => (List.range s.next).filter s.heap) = some [] := by decide +kernel

end Verif.Memory
