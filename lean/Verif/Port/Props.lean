import Verif.Port.Threads
import Mathlib.Data.List.Nodup
import Mathlib.Data.List.Perm.Subperm

/-! # Presence, multiport iteration and concurrent setting: properties C18, C19, C20 -/

namespace ReactorC.Port

/-! ## C18 -/

/-- C18.  In every history of setting ports, marking triggers and starting tags, a flag is set exactly
if it was set since the last tag began. -/
theorem C18_present_iff_set_in_current_tag (e : Env) (h : Initial e) (ops : List Op)
    (ho : ∀ o ∈ ops, Registered e o) (f : Nat) :
    (run e ops).fields f = true ↔ SetInCurrentTag f ops.reverse :=
  present_iff h ops ho f

/-- C18.  When a new tag begins everything is absent and every sparse record is empty, whatever was
set before, in whatever order and however often. -/
theorem C18_all_absent_at_new_tag (e : Env) (h : Initial e) (ops : List Op) (ho : ∀ o ∈ ops, Registered e o) :
    (∀ f, (run e (ops ++ [.newTag])).fields f = false) ∧
    (∀ r, ((run e (ops ++ [.newTag])).recs r).size = 0) := by
  have hp := h.pinv.run ops ho
  rw [run_append]
  exact ⟨startTimeStep_fields hp, startTimeStep_size hp⟩

/-- C18 for the threaded runtime.  Threads make any calls of `lf_set_present` in any interleaving of
their memory accesses; when all are finished, every flag they were to set is set, no other flag is,
and starting a new tag makes everything absent. -/
theorem C18_threaded (e : Env) (h : Initial e) (calls : List (List Port))
    (ho : ∀ l ∈ calls, ∀ p ∈ l, Registered e (.set p)) (s : TState)
    (hs : TSteps ⟨e, calls.map fun l => ⟨l, .idle⟩⟩ s) (hend : ∀ t ∈ s.thr, t.todo = [] ∧ t.pc = .idle) :
    (∀ f, s.env.fields f = true ↔ ∃ l ∈ calls, ∃ p ∈ l, p.hasSource = true ∧ p.field = f) ∧
    (∀ f, (lf_start_time_step s.env).fields f = false) ∧
    (∀ r, ((lf_start_time_step s.env).recs r).size = 0) := by
  have hF : FInv e calls.flatten ⟨e, calls.map fun l => ⟨l, .idle⟩⟩ := by
    refine ⟨⟨rfl, rfl⟩, h.alloc, ?_, ⟨[], by simp [h.empty], by simp, ?_, ?_, ?_, by simp⟩, ?_⟩
    · intro t ht p hp
      obtain ⟨l, hl, rfl⟩ := List.mem_map.mp ht
      exact List.mem_flatten.mpr ⟨l, hl, hp⟩
    · intro f hf; rw [h.absent] at hf; cases hf
    · intro t ht p hp
      obtain ⟨l, hl, rfl⟩ := List.mem_map.mp ht
      simp at hp
    · rintro i p k ⟨t, ht, hpc⟩
      obtain ⟨l, hl, rfl⟩ := List.mem_map.mp (List.mem_of_getElem? ht)
      simp at hpc
    · intro p hp _
      right
      obtain ⟨l, hl, hpl⟩ := List.mem_flatten.mp hp
      obtain ⟨i, hi, hil⟩ := List.getElem_of_mem hl
      exact ⟨i, ⟨l, .idle⟩, by simp [List.getElem?_eq_getElem hi, hil], Or.inl hpl⟩
  have hZ : ZInv e ⟨e, calls.map fun l => ⟨l, .idle⟩⟩ := by
    refine ⟨rfl, fun r hr => absurd (h.sizes r) hr, ?_, ?_⟩
    · intro t ht p hp r hr
      obtain ⟨l, hl, rfl⟩ := List.mem_map.mp ht
      exact (ho l hl p (by simpa [current] using hp)).2 r hr
    · intro t ht p r n hp
      obtain ⟨l, hl, rfl⟩ := List.mem_map.mp ht
      simp at hp
  have hF := hF.steps hs
  have hZ := hZ.steps hs
  obtain ⟨hconst, halloc, _, ⟨alog, a, b, c, d, f, g⟩, hall⟩ := hF
  have noSlot : ∀ i p k, ¬ AtSlot s.thr i p k := by
    rintro i p k ⟨t, ht, hpc⟩
    rw [(hend t (List.mem_of_getElem? ht)).2] at hpc; cases hpc
  have hP : PInv s.env := by
    refine ⟨halloc, ?_, ?_, ?_⟩
    · intro x hx
      obtain ⟨p, hp, _, hpf⟩ := b x (c x hx)
      obtain ⟨l, hl, hpl⟩ := List.mem_flatten.mp hp
      rw [hconst.1, ← hpf]; exact (ho l hl p hpl).1
    · intro hle x hx
      obtain ⟨k, hk, hkx⟩ := List.getElem_of_mem (c x hx)
      rcases g k hk (by omega) with hg | ⟨i, p, hi⟩
      · rw [List.getElem?_eq_getElem hk, hkx] at hg
        rw [a]
        exact List.mem_of_getElem? (i := k) (by rw [List.getElem?_take, if_pos hk]; exact hg)
      · exact absurd hi (noSlot i p k)
    · intro r hr; rw [hZ.regs]; exact hZ.size r hr
  refine ⟨?_, startTimeStep_fields hP, startTimeStep_size hP⟩
  intro x
  constructor
  · intro hx
    obtain ⟨p, hp, hps, hpf⟩ := b x (c x hx)
    obtain ⟨l, hl, hpl⟩ := List.mem_flatten.mp hp
    exact ⟨l, hl, p, hpl, hps, hpf⟩
  · rintro ⟨l, hl, p, hpl, hps, rfl⟩
    rcases hall p (List.mem_flatten.mpr ⟨l, hl, hpl⟩) hps with hx | ⟨i, t, ht, hpend⟩
    · exact hx
    · obtain ⟨h1, h2⟩ := hend t (List.mem_of_getElem? ht)
      rcases hpend with hp | ⟨k, hp⟩ | hp
      · rw [h1] at hp; simp at hp
      · rw [h2] at hp; simp at hp
      · rw [h2] at hp; simp at hp

/-! ## C19 -/

/-- C19.  The loop over an iterator visits at most one sequence of channels, so "visits" below is
exact. -/
theorem C19_iteration_deterministic (e : Env) (ports : List Port) (w : Int) (a b : List Nat)
    (ha : Iterates e ports w a) (hb : Iterates e ports w b) : a = b := by
  obtain ⟨e1, i1, h1, v1⟩ := ha
  obtain ⟨e2, i2, h2, v2⟩ := hb
  rw [h1] at h2
  simp only [Option.some.injEq, Prod.mk.injEq] at h2
  obtain ⟨rfl, rfl⟩ := h2
  exact visits_functional v1 v2

/-- C19.  Without a sparse record, or when it has overflowed, iteration visits exactly the present
channels, each once and in ascending order, for every width and every combination of flags. -/
theorem C19_dense_iteration (e : Env) (ports : List Port)
    (hc : ∀ p ∈ ports, ∀ r, p.record = some r → (e.recs r).size < 0) :
    Iterates e ports ports.length (presentChannels e ports) :=
  iterates_classic e ports fun p0 hp0 => hc p0 (List.mem_of_getElem? hp0)

/-- C19, with a sparse record: at the start of a tag nothing is present; then any operations happen
in which each channel of the multiport is set at most once.  Iteration visits exactly the present
channels, each once and in ascending order, for every capacity (overflowing or not).
Missing for the full property: channels set more than once, see
`C19_all_and_only_present_channels` and `C19_channel_set_twice_is_visited_twice`. -/
theorem C19_sparse_iteration_partial (e : Env) (ports : List Port) (r : Nat) (hm : IsSparseMultiport ports r)
    (h0 : ∀ f, e.fields f = false) (hz : (e.recs r).size = 0) (ops : List Op)
    (ho : ∀ o ∈ ops, Separate ports r o) (honce : (setChannels ports ops).Nodup) :
    Iterates (run e ops) ports ports.length (presentChannels (run e ops) ports) := by
  by_cases hne : ports = []
  · subst hne
    exact iterates_classic _ _ (by simp)
  have hlen : (setChannels ports ops).length ≤ ports.length := by
    have hsub : (setChannels ports ops) ⊆ List.range ports.length := fun c hc =>
      List.mem_range.mpr (setChannels_lt ports r hm ops c hc)
    have := (List.subperm_of_subset honce hsub).length_le
    simpa using this
  have hi := iterates_after_sets e ports r hm h0 hz ops ho hne (fun _ => hlen)
  split at hi
  · have heq : (setChannels ports ops).mergeSort (fun a b => decide (a ≤ b)) = presentChannels (run e ops) ports := by
      refine List.Perm.eq_of_pairwise (le := fun a b => a ≤ b) ?_ ?_ ?_ ?_
      · intro a b _ _ h1 h2; omega
      · have := List.pairwise_mergeSort (le := fun a b : Nat => decide (a ≤ b))
          (by intro a b c; simp only [decide_eq_true_eq]; omega)
          (by intro a b; simp only [Bool.or_eq_true, decide_eq_true_eq]; omega) (setChannels ports ops)
        exact this.imp (by simp)
      · rw [presentChannels_eq]
        exact (List.pairwise_le_range).filter _
      · refine (List.mergeSort_perm _ _).trans ?_
        rw [List.perm_ext_iff_of_nodup honce (by rw [presentChannels_eq]; exact List.nodup_range.filter _)]
        intro c
        rw [mem_presentChannels, run_fields e ports r hm ops ho h0]
    rwa [heq] at hi
  · exact hi

/-- C19, with repetition: however often each channel is set, iteration visits every present channel,
only present channels, and in ascending (not necessarily strictly ascending) order. -/
theorem C19_all_and_only_present_channels (e : Env) (ports : List Port) (r : Nat) (hm : IsSparseMultiport ports r)
    (h0 : ∀ f, e.fields f = false) (hz : (e.recs r).size = 0) (hcap : (e.recs r).chans.length ≤ ports.length)
    (ops : List Op) (ho : ∀ o ∈ ops, Separate ports r o) :
    ∃ cs, Iterates (run e ops) ports ports.length cs ∧ cs.Pairwise (· ≤ ·) ∧
      ∀ c, c ∈ cs ↔ c ∈ presentChannels (run e ops) ports := by
  by_cases hne : ports = []
  · subst hne
    exact ⟨[], iterates_classic _ _ (by simp), List.Pairwise.nil, by simp [presentChannels]⟩
  refine ⟨_, iterates_after_sets e ports r hm h0 hz ops ho hne (fun h => by omega), ?_, ?_⟩
  · split
    · have := List.pairwise_mergeSort (le := fun a b : Nat => decide (a ≤ b))
          (by intro a b c; simp only [decide_eq_true_eq]; omega)
          (by intro a b; simp only [Bool.or_eq_true, decide_eq_true_eq]; omega) (setChannels ports ops)
      exact this.imp (by simp)
    · rw [presentChannels_eq]
      exact (List.pairwise_le_range).filter _
  · intro c
    split
    · rw [List.mem_mergeSort, mem_presentChannels, run_fields e ports r hm ops ho h0]
    · rfl

/-! A concrete multiport of width 3 whose record has capacity 2. -/

def demoPorts : List Port := [⟨true, 10, some 0, 0⟩, ⟨true, 11, some 0, 1⟩, ⟨true, 12, some 0, 2⟩]

def demoEnv : Env :=
  { fields := fun _ => false
    all := [10, 11, 12, 13]
    abbr := [0, 0, 0, 0]
    abbrSize := 0
    recs := fun _ => ⟨0, [0, 0]⟩
    regs := [0] }

def demoPort (c : Nat) : Port := ⟨true, 10 + c, some 0, c⟩

theorem demo_multiport : IsSparseMultiport demoPorts 0 := by
  refine ⟨by decide, by decide, ?_, ?_⟩
  · intro c p hp
    match c, hp with
    | 0, hp => simp [demoPorts] at hp; subst hp; rfl
    | 1, hp => simp [demoPorts] at hp; subst hp; rfl
    | 2, hp => simp [demoPorts] at hp; subst hp; rfl
    | c + 3, hp => simp [demoPorts] at hp
  · intro c d p q hp hq hf
    match c, d, hp, hq with
    | 0, 0, hp, hq => rfl
    | 1, 1, hp, hq => rfl
    | 2, 2, hp, hq => rfl
    | 0, 1, hp, hq => simp [demoPorts] at hp hq; subst hp hq; simp at hf
    | 0, 2, hp, hq => simp [demoPorts] at hp hq; subst hp hq; simp at hf
    | 1, 0, hp, hq => simp [demoPorts] at hp hq; subst hp hq; simp at hf
    | 1, 2, hp, hq => simp [demoPorts] at hp hq; subst hp hq; simp at hf
    | 2, 0, hp, hq => simp [demoPorts] at hp hq; subst hp hq; simp at hf
    | 2, 1, hp, hq => simp [demoPorts] at hp hq; subst hp hq; simp at hf
    | c + 3, _, hp, hq => simp [demoPorts] at hp
    | _, d + 3, hp, hq => simp [demoPorts] at hq

/-- The hypotheses of the C18 theorems are met: four flags, five markings (more than the abbreviated
list holds), then a new tag. -/
example : Initial demoEnv ∧ (∀ o ∈ [Op.set (demoPort 2), .trigger 13, .set (demoPort 0), .set (demoPort 1), .set (demoPort 2)],
    Registered demoEnv o) := by
  refine ⟨⟨fun _ => rfl, rfl, rfl, fun _ => rfl⟩, ?_⟩
  intro o ho
  simp only [List.mem_cons, List.not_mem_nil, or_false] at ho
  rcases ho with rfl | rfl | rfl | rfl | rfl <;> simp [Registered, demoEnv, demoPort]

/-- The hypotheses of `C19_sparse_iteration_partial` are met by setting channels 2 and then 0. -/
example : (∀ o ∈ [Op.set (demoPort 2), .set (demoPort 0)], Separate demoPorts 0 o) ∧
    setChannels demoPorts [Op.set (demoPort 2), .set (demoPort 0)] = [2, 0] ∧
    presentChannels (run demoEnv [Op.set (demoPort 2), .set (demoPort 0)]) demoPorts = [0, 2] := by
  refine ⟨?_, by decide, by decide⟩
  intro o ho
  simp only [List.mem_cons, List.not_mem_nil, or_false] at ho
  rcases ho with rfl | rfl <;> exact Or.inl (by decide)

/-- The full C19 fails: a channel of a sparse multiport that is set twice in a tag (the second value
replacing the first) is visited twice. -/
theorem C19_channel_set_twice_is_visited_twice :
    Iterates (run demoEnv [.set (demoPort 1), .set (demoPort 1)]) demoPorts 3 [1, 1] ∧
    presentChannels (run demoEnv [.set (demoPort 1), .set (demoPort 1)]) demoPorts = [1] := by
  constructor
  · have := iterates_after_sets demoEnv demoPorts 0 demo_multiport (fun _ => rfl) rfl
      [.set (demoPort 1), .set (demoPort 1)]
      (by intro o ho
          simp only [List.mem_cons, List.not_mem_nil, or_false, or_self] at ho
          subst ho; exact Or.inl (by decide)) (by decide) (by decide)
    have h2 : setChannels demoPorts [.set (demoPort 1), .set (demoPort 1)] = [1, 1] := by decide
    rw [h2, if_pos (by decide)] at this
    have h3 : ([1, 1] : List Nat).mergeSort (fun a b => decide (a ≤ b)) = [1, 1] :=
      List.mergeSort_of_pairwise (by decide)
    rw [h3] at this
    exact this
  · decide

/-! ## C20 -/

/-- C20.  Threads set ports in any interleaving of their memory accesses, starting from an empty
record `r` (other ports and other records may be involved as well).  When all threads are finished,
either the record is marked overflowed, or it holds exactly the channels they set, each as often as
it was set. -/
theorem C20_no_channel_lost (e : Env) (r : Nat) (hz : (e.recs r).size = 0) (calls : List (List Port)) (s : TState)
    (hs : TSteps ⟨e, calls.map fun l => ⟨l, .idle⟩⟩ s) (hend : ∀ t ∈ s.thr, t.todo = [] ∧ t.pc = .idle) :
    (s.env.recs r).size = -1 ∨
    ∃ n : Nat, (s.env.recs r).size = n ∧ n ≤ (s.env.recs r).chans.length ∧
      ((s.env.recs r).chans.take n).Perm
        ((calls.flatten.filter fun p => p.hasSource && p.record == some r && decide (p.chan ≥ 0)).map
          fun p => p.chan.toNat) := by
  have hinit : TInv r (calls.flatten.filterMap (chanOf r)) ⟨e, calls.map fun l => ⟨l, .idle⟩⟩ := by
    refine ⟨?_, Or.inr ⟨[], by simp [hz], by simp, ?_, ?_, by simp⟩⟩
    · intro t ht
      obtain ⟨l, hl, rfl⟩ := List.mem_map.mp ht
      trivial
    · simp only [List.nil_append, List.flatMap_map, rem, current]
      clear hs
      induction calls with
      | nil => simp
      | cons a l ih => simpa [List.flatMap_cons, List.filterMap_append] using List.Perm.append_left _ ih
    · rintro i p n ⟨t, ht, hpc⟩
      obtain ⟨l, hl, rfl⟩ := List.mem_map.mp (List.mem_of_getElem? ht)
      simp at hpc
  have hfil : ∀ l : List Port, (l.filter fun p => p.hasSource && p.record == some r && decide (p.chan ≥ 0)).map
      (fun p => p.chan.toNat) = l.filterMap (chanOf r) := by
    intro l
    induction l with
    | nil => rfl
    | cons p l ih =>
      by_cases hp : p.hasSource = true ∧ p.record = some r ∧ p.chan ≥ 0
      · have h1 : (p.hasSource && p.record == some r && decide (p.chan ≥ 0)) = true := by
          simp [hp.1, hp.2.1, hp.2.2]
        have h2 : chanOf r p = some p.chan.toNat := if_pos hp
        rw [List.filter_cons, h1, if_pos rfl, List.map_cons, ih, List.filterMap_cons, h2]
      · have h1 : ¬ (p.hasSource && p.record == some r && decide (p.chan ≥ 0)) = true := by
          simp only [Bool.and_eq_true, beq_iff_eq, decide_eq_true_eq]; tauto
        have h2 : chanOf r p = none := if_neg hp
        rw [List.filter_cons, if_neg h1, ih, List.filterMap_cons, h2]
  rw [hfil]
  have noAt : ∀ i p n, ¬ At s.thr i p r n := by
    rintro i p n ⟨t, ht, hpc⟩
    rw [(hend t (List.mem_of_getElem? ht)).2] at hpc; cases hpc
  rcases (hinit.steps hs).main with (h | ⟨i, p, n, h, _⟩) | ⟨slog, a, b, c, d, f⟩
  · exact Or.inl h
  · exact absurd h (noAt i p n)
  · right
    refine ⟨slog.length, a, b, ?_⟩
    have hrem : s.thr.flatMap (rem r) = [] := by
      rw [List.flatMap_eq_nil_iff]
      intro t ht
      simp [rem, current, (hend t ht).1, (hend t ht).2]
    rw [hrem, List.append_nil] at c
    refine List.Perm.trans (List.Perm.of_eq ?_) c
    refine List.ext_getElem? fun k => ?_
    rw [List.getElem?_take]
    split
    · rename_i hk
      rcases f k hk with h | ⟨i, p, h⟩
      · exact h
      · exact absurd h (noAt i p k)
    · rename_i hk
      rw [List.getElem?_eq_none (by omega)]

/-- C20, what the user sees: after any interleaving in which every channel of the multiport is set
at most once, iteration visits exactly the channels that were set, each once, in ascending order. -/
theorem C20_iteration_after_concurrent_sets (e : Env) (he : Initial e) (ports : List Port) (r : Nat)
    (hm : IsSparseMultiport ports r) (calls : List (List Port))
    (hreg : ∀ l ∈ calls, ∀ p ∈ l, Registered e (.set p))
    (hsep : ∀ l ∈ calls, ∀ p ∈ l, p ∈ ports ∨ (p.record ≠ some r ∧ ∀ q ∈ ports, q.field ≠ p.field))
    (honce : ((calls.flatten.filter fun p => decide (p ∈ ports)).map fun p => p.chan).Nodup) (s : TState)
    (hs : TSteps ⟨e, calls.map fun l => ⟨l, .idle⟩⟩ s) (hend : ∀ t ∈ s.thr, t.todo = [] ∧ t.pc = .idle) :
    ∃ cs, Iterates s.env ports ports.length cs ∧ cs.Pairwise (· < ·) ∧
      ∀ c, c ∈ cs ↔ ∃ l ∈ calls, ∃ p ∈ l, p ∈ ports ∧ p.chan = c := by
  have hflags := (C18_threaded e he calls hreg s hs hend).1
  -- the channels present are the ones that were set
  have hpres : ∀ c, c ∈ presentChannels s.env ports ↔ ∃ l ∈ calls, ∃ p ∈ l, p ∈ ports ∧ p.chan = c := by
    intro c
    rw [mem_presentChannels]
    constructor
    · intro hc
      simp only [pres] at hc
      cases hq : ports[c]? with
      | none => rw [hq] at hc; cases hc
      | some q =>
        rw [hq] at hc
        obtain ⟨l, hl, p, hp, hps, hpf⟩ := (hflags _).1 hc
        have hqm := List.mem_of_getElem? hq
        rcases hsep l hl p hp with hin | ⟨_, hne⟩
        · obtain ⟨d, hd, hdp⟩ := List.getElem_of_mem hin
          have hd' : ports[d]? = some p := by rw [← hdp]; exact List.getElem?_eq_getElem hd
          have : d = c := hm.distinct d c p q hd' hq hpf
          exact ⟨l, hl, p, hp, hin, by rw [hm.chan d p hd', this]⟩
        · exact absurd hpf.symm (hne q hqm)
    · rintro ⟨l, hl, p, hp, hin, hpc⟩
      obtain ⟨d, hd, hdp⟩ := List.getElem_of_mem hin
      have hd' : ports[d]? = some p := by rw [← hdp]; exact List.getElem?_eq_getElem hd
      have hdc : d = c := by have := hm.chan d p hd'; omega
      subst hdc
      simp only [pres, hd']
      exact (hflags _).2 ⟨l, hl, p, hp, hm.source p hin, rfl⟩
  have hstrict : (presentChannels s.env ports).Pairwise (· < ·) := by
    rw [presentChannels_eq]; exact (List.pairwise_lt_range).filter _
  rcases C20_no_channel_lost e r (he.sizes r) calls s hs hend with hover | ⟨n, hsz, hn, hperm⟩
  · refine ⟨_, C19_dense_iteration s.env ports ?_, hstrict, hpres⟩
    intro p hp r' hr'
    have := hm.record p hp
    rw [this] at hr'; cases hr'; omega
  · by_cases hne : ports = []
    · subst hne
      exact ⟨_, C19_dense_iteration s.env [] (by simp), hstrict, hpres⟩
    -- the calls that reach the record are those on ports of the multiport
    have hsame : (calls.flatten.filter fun p => p.hasSource && p.record == some r && decide (p.chan ≥ 0)) =
        calls.flatten.filter fun p => decide (p ∈ ports) := by
      apply List.filter_congr
      intro p hp
      obtain ⟨l, hl, hpl⟩ := List.mem_flatten.mp hp
      rcases hsep l hl p hpl with hin | ⟨hrec, hne⟩
      · obtain ⟨d, hd, hdp⟩ := List.getElem_of_mem hin
        have hd' : ports[d]? = some p := by rw [← hdp]; exact List.getElem?_eq_getElem hd
        simp [hin, hm.source p hin, hm.record p hin, hm.chan d p hd']
      · have hnot : p ∉ ports := fun hin => hrec (hm.record p hin)
        simp [hnot, hrec]
    rw [hsame] at hperm
    have hnd : ((s.env.recs r).chans.take n).Nodup := by
      rw [hperm.nodup_iff]
      have hmap : ((calls.flatten.filter fun p => decide (p ∈ ports)).map fun p => p.chan.toNat) =
          ((calls.flatten.filter fun p => decide (p ∈ ports)).map fun p => p.chan).map Int.toNat := by
        rw [List.map_map]; rfl
      rw [hmap]
      refine List.Nodup.map_on ?_ honce
      intro a ha b hb hab
      obtain ⟨p, hp, rfl⟩ := List.mem_map.mp ha
      obtain ⟨q, hq, rfl⟩ := List.mem_map.mp hb
      have nonneg : ∀ p : Port, p ∈ ports → 0 ≤ p.chan := by
        intro p hin
        obtain ⟨d, hd, hdp⟩ := List.getElem_of_mem hin
        have hd' : ports[d]? = some p := by rw [← hdp]; exact List.getElem?_eq_getElem hd
        rw [hm.chan d p hd']; omega
      have h1 := nonneg p (by simpa using (List.mem_filter.mp hp).2)
      have h2 := nonneg q (by simpa using (List.mem_filter.mp hq).2)
      omega
    have hmem : ∀ c, c ∈ (s.env.recs r).chans.take n ↔ ∃ l ∈ calls, ∃ p ∈ l, p ∈ ports ∧ p.chan = c := by
      intro c
      rw [hperm.mem_iff, List.mem_map]
      constructor
      · rintro ⟨p, hp, rfl⟩
        obtain ⟨hp1, hp2⟩ := List.mem_filter.mp hp
        obtain ⟨l, hl, hpl⟩ := List.mem_flatten.mp hp1
        have hin : p ∈ ports := by simpa using hp2
        obtain ⟨d, hd, hdp⟩ := List.getElem_of_mem hin
        have hd' : ports[d]? = some p := by rw [← hdp]; exact List.getElem?_eq_getElem hd
        exact ⟨l, hl, p, hpl, hin, by rw [hm.chan d p hd']; omega⟩
      · rintro ⟨l, hl, p, hpl, hin, hpc⟩
        exact ⟨p, List.mem_filter.mpr ⟨List.mem_flatten.mpr ⟨l, hl, hpl⟩, by simpa using hin⟩, by omega⟩
    have hlen : n ≤ ports.length := by
      have hsub : ((s.env.recs r).chans.take n) ⊆ List.range ports.length := by
        intro c hc
        obtain ⟨l, hl, p, hpl, hin, hpc⟩ := (hmem c).1 hc
        obtain ⟨d, hd, hdp⟩ := List.getElem_of_mem hin
        have hd' : ports[d]? = some p := by rw [← hdp]; exact List.getElem?_eq_getElem hd
        have := hm.chan d p hd'
        rw [List.mem_range]; omega
      have := (List.subperm_of_subset hnd hsub).length_le
      simp only [List.length_take, List.length_range] at this
      omega
    refine ⟨_, iterates_sparse s.env ports r hm.record hne n hsz hn hlen, ?_, ?_⟩
    · have hle := List.pairwise_mergeSort (le := fun a b : Nat => decide (a ≤ b))
          (by intro a b c; simp only [decide_eq_true_eq]; omega)
          (by intro a b; simp only [Bool.or_eq_true, decide_eq_true_eq]; omega) ((s.env.recs r).chans.take n)
      have hnd2 : (((s.env.recs r).chans.take n).mergeSort (fun a b => decide (a ≤ b))).Nodup :=
        (List.mergeSort_perm _ _).nodup_iff.2 hnd
      refine (hle.and hnd2).imp ?_
      intro a b hab
      simp only [decide_eq_true_eq] at hab
      omega
    · intro c
      rw [List.mem_mergeSort]; exact hmem c

/-- The C20 hypotheses are met: two threads, one setting channel 2 and the other channels 0 and 1, which
overflows the record of capacity 2 or fits, depending on nothing but the number of sets; here the
interleaving in which the first thread runs to completion first. -/
example : ∃ s, TSteps ⟨demoEnv, [[demoPort 2], [demoPort 0]].map fun l => ⟨l, .idle⟩⟩ s ∧
    (∀ t ∈ s.thr, t.todo = [] ∧ t.pc = .idle) ∧ (s.env.recs 0).size = 2 ∧ (s.env.recs 0).chans = [2, 0] := by
  let st : TState → Nat → TState := fun s i =>
    match s.thr[i]? with
    | none => s
    | some t => match thrStep s.env t with
      | none => s
      | some (e', t') => ⟨e', s.thr.set i t'⟩
  have hst : ∀ s u i, TSteps s u → TSteps s (st u i) := by
    intro s u i h
    simp only [st]
    split
    · exact h
    · rename_i t ht
      split
      · exact h
      · rename_i e' t' hs
        exact .tail h (.mk u i t e' t' ht hs)
  refine ⟨[0, 1, 0, 0, 1, 1, 0, 1, 0, 0, 1, 1].foldl st ⟨demoEnv, [[demoPort 2], [demoPort 0]].map fun l => ⟨l, .idle⟩⟩,
    ?_, ?_, by decide, by decide⟩
  · have gen : ∀ (l : List Nat) (u : TState),
        TSteps ⟨demoEnv, [[demoPort 2], [demoPort 0]].map fun l => ⟨l, .idle⟩⟩ u →
        TSteps ⟨demoEnv, [[demoPort 2], [demoPort 0]].map fun l => ⟨l, .idle⟩⟩ (l.foldl st u) := by
      intro l
      induction l with
      | nil => intro u h; exact h
      | cons a l ih => intro u h; exact ih _ (hst _ _ a h)
    exact gen _ _ (.refl _)
  · decide

end ReactorC.Port
