import Verif.Threads.Model
import Verif.Trace.Props
import Mathlib.Algebra.BigOperators.Group.List.Basic
import Mathlib.Data.List.Induction
import Mathlib.Data.List.Nodup

/-!
# C98: threads, their identifiers, and their trace buffers

An execution is a list of calls of `initialize_lf_thread_id`, in the order of the schedule: any list for
`C98_identifiers_differ`, one that has at most the calls of the program (`List.Subperm`) when some threads have not begun yet,
one that has exactly those (`List.Perm`) when all have.
-/

namespace ReactorC.Threads

/-! ## Lemmas -/

section
variable {α : Type} [DecidableEq α]

theorem after_append (l : List α) (t : α) : after (l ++ [t]) = (after l).initialize t := by
  unfold after; rw [List.foldl_append]; rfl

theorem after_count (l : List α) : (after l).count = l.length := by
  induction l using List.reverseRecOn with
  | nil => rfl
  | append_singleton l t ih =>
    rw [after_append, List.length_append]
    show (after l).count + 1 = _
    rw [ih]; rfl

theorem after_id (l : List α) (t : α) (k : Nat) (h : (after l).id t = some k) : l[k]? = some t := by
  induction l using List.reverseRecOn with
  | nil => exact absurd h (by simp [after, Ids.start])
  | append_singleton l u ih =>
    rw [after_append] at h
    have h' : (if t = u then some (after l).count else (after l).id t) = some k := h
    by_cases e : t = u
    · rw [if_pos e, after_count] at h'
      have : l.length = k := by simpa using h'
      rw [← this, e]
      simp
    · rw [if_neg e] at h'
      have h2 := ih h'
      have hlt : k < l.length := (List.getElem?_eq_some_iff.mp h2).1
      rw [List.getElem?_append_left hlt]
      exact h2

theorem after_mem (l : List α) (t : α) : (after l).id t = none ↔ t ∉ l := by
  induction l using List.reverseRecOn with
  | nil => simp [after, Ids.start]
  | append_singleton l u ih =>
    rw [after_append]
    show (if t = u then some (after l).count else (after l).id t) = none ↔ _
    by_cases e : t = u
    · rw [if_pos e]; simp [e]
    · rw [if_neg e, ih]; simp [e]

theorem after_lt (l : List α) (t : α) (k : Nat) (h : (after l).id t = some k) : k < l.length :=
  (List.getElem?_eq_some_iff.mp (after_id l t k h)).1

theorem after_last (l : List α) (h : l ≠ []) : ∃ t, (after l).id t = some (l.length - 1) := by
  induction l using List.reverseRecOn with
  | nil => exact absurd rfl h
  | append_singleton l u _ =>
    refine ⟨u, ?_⟩
    rw [after_append]
    show (if u = u then some (after l).count else (after l).id u) = _
    rw [if_pos rfl, after_count]
    simp
end

theorem zipIdx_flatMap_length {α β : Type} (f : α → Nat → List β) (g : α → Nat) (hf : ∀ a i, (f a i).length = g a) :
    ∀ (l : List α) (i : Nat), ((l.zipIdx i).flatMap fun e => f e.1 e.2).length = (l.map g).sum := by
  intro l
  induction l with
  | nil => intro i; rfl
  | cons a l ih =>
    intro i
    rw [List.zipIdx_cons, List.flatMap_cons, List.length_append, hf, ih, List.map_cons, List.sum_cons]

theorem calls_length (p : Program) : (calls p).length = 1 + (p.environments.map fun e => e.2 + e.1).sum +
    (match p.federate with
      | none => 0
      | some f => f.inbound + 1 + (if f.clockSync then 1 else 0) + (if f.decentralized then p.environments.length else 0)) := by
  unfold calls
  rw [List.length_cons, List.length_append,
    zipIdx_flatMap_length (fun e i => environmentCalls i e) (fun e => e.2 + e.1) (fun a i => by
      unfold environmentCalls; simp)]
  cases p.federate with
  | none => simp; omega
  | some f =>
    unfold federateCalls
    dsimp only
    cases f.clockSync <;> cases f.decentralized <;> simp <;> omega

theorem sum_const {l : List (Nat × Nat)} {n : Nat} (h : ∀ e ∈ l, e = (n, 0)) : (l.map fun e => e.2 + e.1).sum = n * l.length := by
  induction l with
  | nil => rfl
  | cons e l ih =>
    rw [List.map_cons, List.sum_cons, ih (fun e he => h e (List.mem_cons_of_mem _ he)), h e List.mem_cons_self,
      List.length_cons, Nat.mul_succ]
    dsimp only
    omega

/-! ## Identifiers -/

/-- **C98** Whatever threads take identifiers in whatever order, no two threads have the same. -/
theorem C98_identifiers_differ {α : Type} [DecidableEq α] (log : List α) (t u : α) (i j : Nat) (h : t ≠ u)
    (ht : (after log).id t = some i) (hu : (after log).id u = some j) : i ≠ j := by
  intro e
  subst e
  have h1 := after_id log t i ht
  have h2 := after_id log u i hu
  rw [h1] at h2
  exact h (by simpa using h2)

/-- **C98** In a program, exactly the threads that the runtime has created and that have begun, and the main thread, have an
identifier; a thread of the user has none, and so uses the buffer with the mutex. -/
theorem C98_user_threads_have_no_identifier (p : Program) (log : List Thread) (h : log.Subperm (calls p)) (n : Nat) :
    (after log).id (.user n) = none := by
  rw [after_mem]
  intro hm
  have := h.subset hm
  unfold calls environmentCalls federateCalls at this
  simp only [List.mem_cons, List.mem_append, List.mem_flatMap, List.mem_map] at this
  rcases this with h | ⟨e, _, ⟨_, _, h⟩ | ⟨j, _, h⟩⟩ | h
  · simp at h
  · simp at h
  · split at h <;> simp at h
  · cases hf : p.federate with
    | none => rw [hf] at h; simp at h
    | some f =>
      rw [hf] at h
      dsimp only at h
      cases f.clockSync <;> cases f.decentralized <;> simp at h

/-! ## Buffers -/

/-- **C98** If no program part has a watchdog and all environments have the same number of workers, every thread of a program
that is not federated has a trace buffer of its own, whichever threads have begun and in whichever order. -/
theorem C98_buffers_suffice_partial (p : Program) (w : Nat) (he : ∀ e ∈ p.environments, e = (w, 0)) (hf : p.federate = none)
    (log : List Thread) (h : log.Subperm (calls p)) (t : Thread) (k : Nat) (hk : (after log).id t = some k) :
    k < buffers p := by
  have h1 := after_lt log t k hk
  have h2 := h.length_le
  rw [calls_length, sum_const he, hf] at h2
  unfold buffers
  rw [hf]
  cases hp : p.environments with
  | nil => rw [hp] at h2; dsimp only at h2 ⊢; simp at h2 ⊢; omega
  | cons e l =>
    have : e = (w, 0) := he e (by rw [hp]; exact List.mem_cons_self)
    rw [hp] at h2
    rw [this] at h2 ⊢
    dsimp only at h2 ⊢
    omega

theorem trace_flush_number {Rec : Type} (k : Nat) (ok : Bool) (s : Trace.State Rec) :
    (Trace.flush_trace_locked k ok s).number = s.number := by
  unfold Trace.flush_trace_locked
  repeat' split
  all_goals rfl

theorem trace_flushAll_number {Rec : Type} (ok : Nat → Bool) : ∀ (n : Nat) (s : Trace.State Rec),
    (Trace.flushAll ok n s).number = s.number := by
  intro n
  induction n with
  | zero => intro s; rfl
  | succ n ih =>
    intro s
    unfold Trace.flushAll
    dsimp only
    split
    · rw [trace_flush_number, ih]
    · rw [ih]

theorem trace_step_number {Rec : Type} {cap : Nat} {reliable : Prop} {s t : Trace.State Rec}
    (st : Trace.Step cap reliable s t) : t.number = s.number := by
  cases st with
  | call _ k r _ h =>
    unfold Trace.call at h
    split at h
    · simp at h
    · simp only [Option.some.injEq] at h
      rw [← h]
  | flush k r ok _ _ =>
    unfold Trace.flushIfFull
    split
    · exact trace_flush_number k ok s
    · rfl
  | append k r _ => rfl
  | stop ok _ _ =>
    unfold Trace.stop
    split
    · rfl
    · exact trace_flushAll_number ok _ s

theorem trace_number {Rec : Type} {cap number : Nat} {opened : Bool} {reliable : Prop} {s : Trace.State Rec}
    (r : Trace.Reach cap reliable number opened s) : s.number = number := by
  induction r with
  | start => rfl
  | step _ st ih => rw [← ih]; exact trace_step_number st

/-- **C98** With C49: in such a program, no tracepoint of any thread writes outside of the buffers, whenever the thread has
taken its identifier and whatever the others write at the same time. -/
theorem C98_no_write_outside_partial {Rec : Type} (p : Program) (w : Nat) (he : ∀ e ∈ p.environments, e = (w, 0))
    (hf : p.federate = none) (log : List Thread) (h : log.Subperm (calls p)) (t : Thread) (k cap : Nat) (hcap : 0 < cap)
    (hk : (after log).id t = some k) (s : Trace.State Rec) (r : Trace.Reach cap True (buffers p) true s)
    (running : s.stopped = false) (record : Rec) (hp : s.pc (k + 1) = .ready record) (hs : s.fault = false) :
    (Trace.append cap (k + 1) record s).fault = false := by
  refine Trace.C49_no_overrun hcap r running (k + 1) record hp ?_ hs
  rw [trace_number r]
  exact C98_buffers_suffice_partial p w he hf log h t k hk

/-- **C98** The same for a federate, which has one environment, and to which fewer federates connect than there are, as no
federate connects to itself. -/
theorem C98_federate_buffers_suffice_partial (p : Program) (w : Nat) (f : Federate) (he : p.environments = [(w, 0)])
    (hf : p.federate = some f) (hi : f.inbound < f.federates) (log : List Thread) (h : log.Subperm (calls p)) (t : Thread)
    (k : Nat) (hk : (after log).id t = some k) : k < buffers p := by
  have h1 := after_lt log t k hk
  have h2 := h.length_le
  rw [calls_length, hf, he] at h2
  unfold buffers
  rw [hf, he]
  dsimp only at h2 ⊢
  simp only [List.map_cons, List.map_nil, List.sum_cons, List.sum_nil, List.length_cons, List.length_nil] at h2 ⊢
  cases hc : f.clockSync <;> cases hd : f.decentralized <;> rw [hc, hd] at h2 <;> simp at h2 <;> omega

/-- **C98** Every thread of an RTI has a trace buffer of its own. -/
theorem C98_rti_buffers_suffice (n : Nat) (sync stop : Bool) (log : List RtiThread) (h : log.Subperm (rtiCalls n sync stop))
    (t : RtiThread) (k : Nat) (hk : (after log).id t = some k) : k < rtiBuffers n := by
  have h1 := after_lt log t k hk
  have h2 := h.length_le
  have h3 : (rtiCalls n sync stop).length ≤ n * 2 + 3 := by
    unfold rtiCalls
    by_cases hn : 0 < n
    · cases sync <;> cases stop <;> simp [hn] <;> omega
    · cases sync <;> cases stop <;> simp [hn] <;> omega
  unfold rtiBuffers
  omega

/-- **C98** (limit) The threads of watchdogs are not counted: in every execution of a program with watchdogs in which all
threads begin, some thread has no buffer. -/
theorem C98_watchdogs_not_counted (w d : Nat) (hd : 0 < d) (log : List Thread)
    (h : log.Perm (calls ⟨[(w, d)], none⟩)) :
    ∃ t k, (after log).id t = some k ∧ buffers ⟨[(w, d)], none⟩ ≤ k := by
  have hl := h.length_eq
  rw [calls_length] at hl
  simp at hl
  have hne : log ≠ [] := by
    intro e
    rw [e] at hl
    simp at hl
    omega
  obtain ⟨t, ht⟩ := after_last log hne
  refine ⟨t, _, ht, ?_⟩
  unfold buffers
  simp
  omega

/-- **C98** (limit) With exactly one watchdog this is not noticed: the thread that begins last is not refused by the test
for identifiers, and it uses the element after the last of the array of buffers. -/
theorem C98_one_watchdog_not_noticed (w : Nat) (log : List Thread) (h : log.Perm (calls ⟨[(w, 1)], none⟩)) :
    ∃ t, (after log).id t = some (buffers ⟨[(w, 1)], none⟩) ∧
      refused ((after log).id t) (buffers ⟨[(w, 1)], none⟩) = false := by
  have hl := h.length_eq
  rw [calls_length] at hl
  simp at hl
  have hne : log ≠ [] := by
    intro e
    rw [e] at hl
    simp at hl
    omega
  obtain ⟨t, ht⟩ := after_last log hne
  have e : log.length - 1 = buffers ⟨[(w, 1)], none⟩ := by
    unfold buffers
    simp
    omega
  rw [e] at ht
  refine ⟨t, ht, ?_⟩
  rw [ht]
  unfold refused
  simp

/-- **C98** (limit) The number of workers of the first environment is taken for all: if another has more, some thread of
every execution in which all threads begin has no buffer. -/
theorem C98_other_environments_not_counted (v w : Nat) (hw : v < w) (log : List Thread)
    (h : log.Perm (calls ⟨[(v, 0), (w, 0)], none⟩)) :
    ∃ t k, (after log).id t = some k ∧ buffers ⟨[(v, 0), (w, 0)], none⟩ ≤ k := by
  have hl := h.length_eq
  rw [calls_length] at hl
  simp at hl
  have hne : log ≠ [] := by
    intro e
    rw [e] at hl
    simp at hl
    omega
  obtain ⟨t, ht⟩ := after_last log hne
  refine ⟨t, _, ht, ?_⟩
  unfold buffers
  simp
  omega

/-! ## Workers -/

/-- **C98** The number of workers is that given on the command line; otherwise that given in the program; otherwise the number
of cores, but not more than can be of use. -/
theorem C98_number_of_workers (given property : Nat) (cores : Int) (breadth : Option Nat) (h1 : 0 ≤ cores)
    (h2 : cores < 2147483648) :
    (0 < given → determineNumberOfWorkers given property cores breadth = given) ∧
    (given = 0 → 0 < property → determineNumberOfWorkers given property cores breadth = property) ∧
    (given = 0 → property = 0 → ∀ b, breadth = some b →
      (determineNumberOfWorkers given property cores breadth : Int) = min cores b) ∧
    (given = 0 → property = 0 → breadth = none →
      (determineNumberOfWorkers given property cores breadth : Int) = cores) := by
  have hc : cores % 4294967296 = cores := Int.emod_eq_of_lt h1 (by omega)
  refine ⟨fun h => ?_, fun h h' => ?_, fun h h' b hb => ?_, fun h h' hb => ?_⟩
  · unfold determineNumberOfWorkers; rw [if_neg (by omega)]
  · unfold determineNumberOfWorkers; rw [if_pos h, if_neg (by omega)]
  · unfold determineNumberOfWorkers
    rw [if_pos h, if_pos h', hb]
    dsimp only
    rw [hc]
    split <;> omega
  · unfold determineNumberOfWorkers
    rw [if_pos h, if_pos h', hb]
    dsimp only
    rw [hc]
    omega

/-- **C98** (limit) If the operating system cannot tell the number of cores (`sysconf` returns -1) the program asks for
4294967295 workers. -/
theorem C98_unknown_cores_not_handled : determineNumberOfWorkers 0 0 (-1) none = 4294967295 := by decide

theorem mem_create (i n : Nat) (e : Event) :
    e ∈ createWorkers i n ↔ ∃ j, j < n ∧ ¬ (i = 0 ∧ j = 0) ∧ e = .created i j := by
  unfold createWorkers
  rw [List.mem_flatMap]
  constructor
  · rintro ⟨j, hj, h⟩
    split at h
    · simp at h
    · exact ⟨j, by simpa using hj, by assumption, by simpa using h⟩
  · rintro ⟨j, hj, hn, rfl⟩
    exact ⟨j, by simpa using hj, by rw [if_neg hn]; simp⟩

theorem mem_join (i n : Nat) (e : Event) :
    e ∈ joinWorkers i n ↔ ∃ j, j < n ∧ ¬ (i = 0 ∧ j = 0) ∧ e = .joined i j := by
  unfold joinWorkers
  rw [List.mem_flatMap]
  constructor
  · rintro ⟨j, hj, h⟩
    split at h
    · simp at h
    · exact ⟨j, by simpa using hj, by assumption, by simpa using h⟩
  · rintro ⟨j, hj, hn, rfl⟩
    exact ⟨j, by simpa using hj, by rw [if_neg hn]; simp⟩

/-- **C98** Every worker of every environment is run, the first of the first environment on the main thread and each other on
a thread that is created for it; and exactly the threads that were created are waited for. -/
theorem C98_all_workers_run (ns : List Nat) (i j : Nat) :
    (Event.created i j ∈ mainLoop ns ↔ (∃ n, ns[i]? = some n ∧ j < n) ∧ ¬ (i = 0 ∧ j = 0)) ∧
    (Event.joined i j ∈ mainLoop ns ↔ Event.created i j ∈ mainLoop ns) ∧
    (Event.runsOnMain ∈ mainLoop ns ↔ ∃ n, ns[0]? = some n ∧ 0 < n) := by
  have hm : ∀ e : Event, e ∈ mainWorker ns ↔
      e = .runsOnMain ∧ ∃ n, ns[0]? = some n ∧ 0 < n := by
    intro e
    unfold mainWorker
    cases ns with
    | nil => simp
    | cons n ns =>
      dsimp only
      by_cases h : 0 < n
      · rw [if_pos h]; simp [h]
      · rw [if_neg h]; simp [h]
  have hz : ∀ i n : Nat, (n, i) ∈ ns.zipIdx ↔ ns[i]? = some n := by
    intro i n
    rw [List.mem_zipIdx_iff_getElem?]
  have hc : Event.created i j ∈ mainLoop ns ↔ (∃ n, ns[i]? = some n ∧ j < n) ∧ ¬ (i = 0 ∧ j = 0) := by
    unfold mainLoop
    rw [List.mem_append, List.mem_append, hm, List.mem_flatMap, List.mem_flatMap]
    constructor
    · rintro ((⟨⟨n, i'⟩, h1, h2⟩ | ⟨h, _⟩) | ⟨⟨n, i'⟩, h1, h2⟩)
      · rw [mem_create] at h2
        obtain ⟨j', a, b, c⟩ := h2
        simp only [Event.created.injEq] at c
        rw [c.1, c.2]
        exact ⟨⟨n, (hz _ _).mp h1, a⟩, b⟩
      · simp at h
      · rw [mem_join] at h2
        obtain ⟨j', _, _, c⟩ := h2
        simp at c
    · rintro ⟨⟨n, h1, h2⟩, h3⟩
      exact Or.inl (Or.inl ⟨(n, i), (hz _ _).mpr h1, (mem_create _ _ _).mpr ⟨j, h2, h3, rfl⟩⟩)
  refine ⟨hc, ?_, ?_⟩
  · rw [hc]
    unfold mainLoop
    rw [List.mem_append, List.mem_append, hm, List.mem_flatMap, List.mem_flatMap]
    constructor
    · rintro ((⟨⟨n, i'⟩, h1, h2⟩ | ⟨h, _⟩) | ⟨⟨n, i'⟩, h1, h2⟩)
      · rw [mem_create] at h2
        obtain ⟨j', _, _, c⟩ := h2
        simp at c
      · simp at h
      · rw [mem_join] at h2
        obtain ⟨j', a, b, c⟩ := h2
        simp only [Event.joined.injEq] at c
        rw [c.1, c.2]
        exact ⟨⟨n, (hz _ _).mp h1, a⟩, b⟩
    · rintro ⟨⟨n, h1, h2⟩, h3⟩
      exact Or.inr ⟨(n, i), (hz _ _).mpr h1, (mem_join _ _ _).mpr ⟨j, h2, h3, rfl⟩⟩
  · unfold mainLoop
    rw [List.mem_append, List.mem_append, hm, List.mem_flatMap, List.mem_flatMap]
    constructor
    · rintro ((⟨⟨n, i'⟩, h1, h2⟩ | ⟨_, h⟩) | ⟨⟨n, i'⟩, h1, h2⟩)
      · rw [mem_create] at h2
        obtain ⟨j', _, _, c⟩ := h2
        simp at c
      · exact h
      · rw [mem_join] at h2
        obtain ⟨j', _, _, c⟩ := h2
        simp at c
    · exact fun h => Or.inl (Or.inr ⟨rfl, h⟩)

theorem zipIdx_pairwise {β : Type} (f : Nat × Nat → List β) (hf : ∀ a b : Nat × Nat, a.2 ≠ b.2 → List.Disjoint (f a) (f b)) :
    ∀ (l : List Nat) (i : Nat), List.Pairwise (fun a b => List.Disjoint (f a) (f b)) (l.zipIdx i) := by
  intro l
  induction l with
  | nil => intro i; exact List.Pairwise.nil
  | cons a l ih =>
    intro i
    rw [List.zipIdx_cons, List.pairwise_cons]
    refine ⟨fun b hb => hf _ _ ?_, ih _⟩
    have := List.le_snd_of_mem_zipIdx hb
    dsimp only
    omega

theorem range_nodup {β : Type} (f : Nat → List β) (h1 : ∀ j, (f j).Nodup)
    (h2 : ∀ a b, a ≠ b → List.Disjoint (f a) (f b)) (n : Nat) : ((List.range n).flatMap f).Nodup := by
  rw [List.nodup_flatMap]
  refine ⟨fun j _ => h1 j, ?_⟩
  exact (List.nodup_range (n := n)).imp (fun h => h2 _ _ h)

/-- **C98** The threads of workers that take an identifier are exactly those that are created to run a worker. -/
theorem C98_created_threads_take_identifiers (p : Program) (i j : Nat) :
    Thread.worker i j ∈ calls p ↔ Event.created i j ∈ mainLoop (p.environments.map (·.1)) := by
  rw [(C98_all_workers_run _ i j).1]
  have hf : ∀ f : Federate, Thread.worker i j ∉ federateCalls p.environments.length f := by
    intro f h
    unfold federateCalls at h
    simp only [List.mem_append, List.mem_map, List.mem_singleton] at h
    rcases h with ((⟨_, _, h⟩ | h) | h) | h
    · cases h
    · cases h
    · split at h <;> simp at h
    · split at h <;> simp at h
  have he : ∀ (k : Nat) (e : Nat × Nat), Thread.worker i j ∈ environmentCalls k e ↔ i = k ∧ j < e.1 ∧ ¬ (i = 0 ∧ j = 0) := by
    intro k e
    unfold environmentCalls
    rw [List.mem_append, List.mem_map, List.mem_map]
    constructor
    · rintro (⟨_, _, h⟩ | ⟨a, ha, h⟩)
      · cases h
      · split at h
        · cases h
        · injection h with h1 h2
          subst h1 h2
          exact ⟨rfl, List.mem_range.1 ha, by assumption⟩
    · rintro ⟨rfl, h1, h2⟩
      exact Or.inr ⟨j, List.mem_range.2 h1, by rw [if_neg h2]⟩
  have key : Thread.worker i j ∈ calls p ↔ Thread.worker i j ∈ p.environments.zipIdx.flatMap (fun e => environmentCalls e.2 e.1) := by
    unfold calls
    rw [List.mem_cons, List.mem_append]
    constructor
    · rintro (h | h | h)
      · cases h
      · exact h
      · cases hp : p.federate with
        | none => rw [hp] at h; cases h
        | some f => rw [hp] at h; exact absurd h (hf f)
    · intro h
      exact Or.inr (Or.inl h)
  rw [key, List.mem_flatMap]
  constructor
  · rintro ⟨⟨e, k⟩, hm, h⟩
    obtain ⟨rfl, h1, h2⟩ := (he k e).1 h
    have := List.mem_zipIdx_iff_getElem?.1 hm
    dsimp only at this
    exact ⟨⟨e.1, by rw [List.getElem?_map, this]; rfl, h1⟩, h2⟩
  · rintro ⟨⟨n, hn, hj⟩, h2⟩
    rw [List.getElem?_map] at hn
    cases h3 : p.environments[i]? with
    | none => rw [h3] at hn; cases hn
    | some e =>
      rw [h3] at hn
      injection hn with hn
      refine ⟨(e, i), List.mem_zipIdx_iff_getElem?.2 h3, (he i e).2 ⟨rfl, ?_, h2⟩⟩
      have : e.1 = n := hn
      omega

example : Thread.worker 1 0 ∈ calls ⟨[(2, 0), (2, 1)], none⟩ ∧ Thread.worker 0 0 ∉ calls ⟨[(2, 0), (2, 1)], none⟩ := by decide

/-- **C98** No worker is run twice, and no thread is waited for twice or before all have been created and the main thread has
ended its work. -/
theorem C98_workers_run_once (ns : List Nat) :
    (mainLoop ns).Nodup ∧ ∃ before after, mainLoop ns = before ++ after ∧
      (∀ i j, Event.joined i j ∉ before ∧ Event.created i j ∉ after) ∧ Event.runsOnMain ∉ after := by
  have hc : (ns.zipIdx.flatMap (fun n => createWorkers n.2 n.1)).Nodup := by
    rw [List.nodup_flatMap]
    refine ⟨fun n _ => ?_, zipIdx_pairwise _ (fun a b hab e h1 h2 => ?_) _ _⟩
    · refine range_nodup _ (fun j => ?_) (fun a b hab e h1 h2 => ?_) _
      · split <;> simp
      · split at h1 <;> split at h2 <;> simp at h1 h2
        rw [h1] at h2; simp at h2; exact hab h2
    · obtain ⟨_, _, _, e1⟩ := (mem_create _ _ _).mp h1
      obtain ⟨_, _, _, e2⟩ := (mem_create _ _ _).mp h2
      rw [e1] at e2; simp at e2; exact hab e2.1
  have hj : (ns.zipIdx.flatMap (fun n => joinWorkers n.2 n.1)).Nodup := by
    rw [List.nodup_flatMap]
    refine ⟨fun n _ => ?_, zipIdx_pairwise _ (fun a b hab e h1 h2 => ?_) _ _⟩
    · refine range_nodup _ (fun j => ?_) (fun a b hab e h1 h2 => ?_) _
      · split <;> simp
      · split at h1 <;> split at h2 <;> simp at h1 h2
        rw [h1] at h2; simp at h2; exact hab h2
    · obtain ⟨_, _, _, e1⟩ := (mem_join _ _ _).mp h1
      obtain ⟨_, _, _, e2⟩ := (mem_join _ _ _).mp h2
      rw [e1] at e2; simp at e2; exact hab e2.1
  have hm : (mainWorker ns).Nodup ∧ ∀ e ∈ mainWorker ns, e = .runsOnMain := by
    unfold mainWorker
    cases ns with
    | nil => simp
    | cons n ns => dsimp only; split <;> simp
  have mc : ∀ e ∈ ns.zipIdx.flatMap (fun n => createWorkers n.2 n.1), ∃ i j, e = .created i j := by
    intro e he
    obtain ⟨n, _, h⟩ := List.mem_flatMap.mp he
    obtain ⟨j, _, _, h⟩ := (mem_create _ _ _).mp h
    exact ⟨_, j, h⟩
  have mj : ∀ e ∈ ns.zipIdx.flatMap (fun n => joinWorkers n.2 n.1), ∃ i j, e = .joined i j := by
    intro e he
    obtain ⟨n, _, h⟩ := List.mem_flatMap.mp he
    obtain ⟨j, _, _, h⟩ := (mem_join _ _ _).mp h
    exact ⟨_, j, h⟩
  refine ⟨?_, _, _, rfl, fun i j => ⟨fun h => ?_, fun h => ?_⟩, fun h => ?_⟩
  · unfold mainLoop
    refine List.Nodup.append (List.Nodup.append hc hm.1 ?_) hj ?_
    · intro e h1 h2
      obtain ⟨i, j, h⟩ := mc e h1
      rw [hm.2 e h2] at h; simp at h
    · intro e h1 h2
      obtain ⟨i, j, h⟩ := mj e h2
      rcases List.mem_append.mp h1 with h1 | h1
      · obtain ⟨i', j', h'⟩ := mc e h1
        rw [h] at h'; simp at h'
      · rw [hm.2 e h1] at h; simp at h
  · rcases List.mem_append.mp h with h | h
    · obtain ⟨_, _, h⟩ := mc _ h; simp at h
    · have := hm.2 _ h; simp at this
  · obtain ⟨_, _, h⟩ := mj _ h; simp at h
  · obtain ⟨_, _, h⟩ := mj _ h; simp at h

/-- **C98** (limit) A program whose reaction graph has breadth 0 and that is given no number of workers has none: if all
environments have this number, nothing is executed at all, and the program ends as if all was well. -/
theorem C98_breadth_zero_not_executed (cores : Int) (h1 : 0 ≤ cores) (h2 : cores < 2147483648) (environments : Nat) :
    mainLoop (List.replicate environments (determineNumberOfWorkers 0 0 cores (some 0))) = [] := by
  have e : determineNumberOfWorkers 0 0 cores (some 0) = 0 := by
    have := (C98_number_of_workers 0 0 cores (some 0) h1 h2).2.2.1 rfl rfl 0 rfl
    omega
  rw [e, List.eq_nil_iff_forall_not_mem]
  have key : ∀ i n : Nat, (List.replicate environments 0)[i]? = some n → n = 0 := by
    intro i n h
    rw [List.getElem?_replicate] at h
    split at h <;> simp at h
    exact h.symm
  intro ev hev
  cases ev with
  | created i j =>
    obtain ⟨⟨n, a, b⟩, _⟩ := (C98_all_workers_run _ i j).1.mp hev
    have := key _ _ a; omega
  | joined i j =>
    obtain ⟨⟨n, a, b⟩, _⟩ := (C98_all_workers_run _ i j).1.mp ((C98_all_workers_run _ i j).2.1.mp hev)
    have := key _ _ a; omega
  | runsOnMain =>
    obtain ⟨n, a, b⟩ := (C98_all_workers_run _ 0 0).2.2.mp hev
    have := key _ _ a; omega

structure Workers.Inv (n : Nat) (s : Workers) : Prop where
  count : s.count = s.working.length
  sum : s.working.length + s.ended = s.begun
  le : s.begun ≤ n
  less : ∀ k ∈ s.working, k < s.begun
  nodup : s.working.Nodup
  all : 0 < s.ended → s.begun = n
  reports : s.reports = if s.ended = n ∧ 0 < n then 1 else 0

theorem Workers.inv {n : Nat} {s : Workers} (h : Reach n True s) : Inv n s := by
  induction h with
  | start =>
    refine ⟨rfl, rfl, Nat.zero_le _, by simp, by simp, by simp, ?_⟩
    dsimp only
    rw [if_neg (by omega)]
  | @step s t _ st ih =>
    cases st with
    | begins hb =>
      have h0 : s.ended = 0 := by
        by_contra hc
        have := ih.all (by omega)
        omega
      have hs := ih.sum
      have hc := ih.count
      refine ⟨by simp [hc], by simp; omega, hb, ?_, ?_, ?_, ?_⟩
      · intro k hk
        dsimp only at hk ⊢
        rcases List.mem_cons.mp hk with e | e
        · omega
        · have := ih.less k e; omega
      · dsimp only
        rw [List.nodup_cons]
        refine ⟨fun hm => ?_, ih.nodup⟩
        have := ih.less _ hm
        omega
      · dsimp only; omega
      · exact ih.reports
    | ends k hk ho =>
      have hb := ho trivial
      have hs := ih.sum
      have hc := ih.count
      have hl : (s.working.erase k).length = s.working.length - 1 := List.length_erase_of_mem hk
      have hpos : 0 < s.working.length := List.length_pos_of_mem hk
      refine ⟨by dsimp only; omega, by dsimp only; omega, ih.le, ?_, ih.nodup.erase k, fun _ => hb, ?_⟩
      · intro j hj
        exact ih.less j (List.mem_of_mem_erase hj)
      · have hr := ih.reports
        have e1 : ¬ (s.ended = n ∧ 0 < n) := by omega
        rw [if_neg e1] at hr
        dsimp only
        rw [hr]
        by_cases e : s.count - 1 = 0
        · have e2 : s.ended + 1 = n ∧ 0 < n := by omega
          rw [if_pos e, if_pos e2]
        · have e2 : ¬ (s.ended + 1 = n ∧ 0 < n) := by omega
          rw [if_neg e, if_neg e2]

/-- **C98** As long as no worker ends before all have begun, the workers of an environment have different numbers, all below
the number of workers; and the end of the execution is reported exactly once, by the last to end. -/
theorem C98_worker_numbers_partial {n : Nat} {s : Workers} (h : Workers.Reach n True s) :
    s.working.Nodup ∧ (∀ k ∈ s.working, k < n) ∧ s.reports = (if s.ended = n ∧ 0 < n then 1 else 0) := by
  have i := Workers.inv h
  exact ⟨i.nodup, fun k hk => Nat.lt_of_lt_of_le (i.less k hk) i.le, i.reports⟩

/-- **C98** (limit) This rests on the scheduler alone: if a worker could end before all have begun, two workers could have the
same number, and the end of the execution could be reported twice. -/
theorem C98_early_end_not_handled :
    (∃ s, Workers.Reach 3 False s ∧ s.working = [1, 1]) ∧ (∃ s, Workers.Reach 2 False s ∧ s.reports = 2) := by
  constructor
  · refine ⟨_, .step (.step (.step (.step .start (.begins _ (by decide))) (.begins _ (by decide)))
      (.ends _ 0 (by decide) (fun h => h.elim))) (.begins _ (by decide)), by decide⟩
  · refine ⟨_, .step (.step (.step (.step .start (.begins _ (by decide))) (.ends _ 0 (by decide) (fun h => h.elim)))
      (.begins _ (by decide))) (.ends _ 0 (by decide) (fun h => h.elim)), by decide⟩

/-! ## Examples -/

/-- Two environments with two workers each. -/
def exampleProgram : Program := ⟨[(2, 0), (2, 0)], none⟩

example : calls exampleProgram = [.main, .main, .worker 0 1, .worker 1 0, .worker 1 1] := by decide
example : buffers exampleProgram = 5 := by decide
example : (after (calls exampleProgram)).id .main = some 1 ∧ (after (calls exampleProgram)).id (.worker 1 1) = some 4 := by
  decide
example : [Thread.main, .worker 1 1, .main].Subperm (calls exampleProgram) := by decide

/-- A federate with three workers in a federation of four, with everything. -/
def exampleFederate : Program := ⟨[(3, 0)], some ⟨4, 3, true, true⟩⟩

example : (calls exampleFederate).length = 10 ∧ buffers exampleFederate = 10 := by decide
example : (rtiCalls 1 true true).length = 5 ∧ rtiBuffers 1 = 5 := by decide
example : refused ((after (calls ⟨[(1, 1)], none⟩)).id .main) (buffers ⟨[(1, 1)], none⟩) = false ∧
    (after (calls ⟨[(1, 1)], none⟩)).id .main = some 2 ∧ buffers ⟨[(1, 1)], none⟩ = 2 := by decide
example : mainLoop [2, 1] = [.created 0 1, .created 1 0, .runsOnMain, .joined 0 1, .joined 1 0] := by decide
example : determineNumberOfWorkers 0 0 8 (some 3) = 3 ∧ determineNumberOfWorkers 0 0 2 (some 3) = 2 := by decide
example : ∃ s, Workers.Reach 2 True s ∧ s.ended = 2 ∧ s.reports = 1 := by
  refine ⟨_, .step (.step (.step (.step .start (.begins _ (by decide))) (.begins _ (by decide)))
    (.ends _ 0 (by decide) (fun _ => rfl))) (.ends _ 1 (by decide) (fun _ => rfl)), by decide, by decide⟩

end ReactorC.Threads
