import Verif.Python.Lemmas

/-!
# C83: ports in Python

A Python reaction that reads `port.value` gets the object that the port was set to; that object is alive as long as it can
be read, and it is freed when neither the program nor a port refers to it any more; `port.is_present` tells whether the port
was set at the current tag; indexing and iterating over a multiport give its channels in order.
-/

namespace ReactorC.Python

/-- **C83.** Whatever a program does with its ports and objects, no freed object is used, if the program is careful: it reads
port objects only as long as the port has not been set again, indexes multiports with integers in range, and the code that
calls reactions never gives up the arguments.  Missing: programs that are not careful in this sense, see below. -/
theorem C83_no_freed_object_is_used_partial (n : Nat) (ops : List Op)
    (h : Follows (fun s o => Legal s o ∧ Careful s o) (start n) ops) : (run (start n) ops).fault = false :=
  (run_inv (start_inv n) h).ok

/-- **C83.** In such a program the reference count of every object is the number of references that the program has, plus
the number of ports whose value it is, plus the number of times it was scheduled. -/
theorem C83_reference_counts_partial (n : Nat) (ops : List Op)
    (h : Follows (fun s o => Legal s o ∧ Careful s o) (start n) ops) (v : Nat) :
    (run (start n) ops).rc v = (run (start n) ops).held v + (portsWith (run (start n) ops) v).length +
      (run (start n) ops).scheduled v := by
  have hI := run_inv (start_inv n) h
  rw [hI.rc v, countVal_eq]
  rfl

/-- **C83.** So an object that was never scheduled is freed exactly when neither the program nor a port refers to it: nothing is
freed early and nothing is kept for longer. -/
theorem C83_freed_when_unused_partial (n : Nat) (ops : List Op)
    (h : Follows (fun s o => Legal s o ∧ Careful s o) (start n) ops) (v : Nat)
    (hv : (run (start n) ops).scheduled v = 0) :
    (run (start n) ops).rc v = 0 ↔
      (run (start n) ops).held v = 0 ∧ ∀ p < (run (start n) ops).n, ((run (start n) ops).port p).value ≠ some v := by
  have h1 := C83_reference_counts_partial n ops h v
  rw [hv] at h1
  constructor
  · intro h0
    have hl : (portsWith (run (start n) ops) v).length = 0 := by omega
    refine ⟨by omega, fun p hp hx => ?_⟩
    have hm : p ∈ portsWith (run (start n) ops) v := by
      unfold portsWith
      rw [List.mem_filter]
      exact ⟨List.mem_range.2 hp, by simpa using hx⟩
    rw [List.length_eq_zero_iff.1 hl] at hm
    cases hm
  · rintro ⟨h2, h3⟩
    have hl : portsWith (run (start n) ops) v = [] := by
      unfold portsWith
      rw [List.filter_eq_nil_iff]
      intro p hp
      simpa using h3 p (List.mem_range.1 hp)
    rw [h2, hl] at h1
    simpa using h1

/-- **C83.** What such a program reads is the value that the port was set to last, or `None`. -/
theorem C83_reads_what_was_set_partial (n : Nat) (ops : List Op) (c p : Nat)
    (h : Follows (fun s o => Legal s o ∧ Careful s o) (start n) ops) (hc : c < (run (start n) ops).nCap)
    (ht : ((run (start n) ops).cap c).target = .single p) (hr : Careful (run (start n) ops) (.read c)) :
    (exec (run (start n) ops) (.read c)).2 = .value (lastSet (run (start n) ops).log p) := by
  have hI := run_inv (start_inv n) h
  show Res.value _ = _
  rw [(hI.cap c hc).now p ht (hr p ht), hI.val p]

/-- **C83.** A reaction is told that a port is present exactly if the port was set at the current tag. -/
theorem C83_present_if_set_now (n : Nat) (ops : List Op) (p : Nat)
    (h : Follows (fun s o => Legal s o ∧ Careful s o) (start n) ops) :
    (exec (exec (run (start n) ops) (.convert (.single p))).1 (.isPresent (run (start n) ops).nCap)).2 =
      .bool (setNow (run (start n) ops).log p) := by
  have hI := run_inv (start_inv n) h
  have e : (convert (run (start n) ops) (.single p)).cap (run (start n) ops).nCap =
      ⟨1, .single p, ((run (start n) ops).port p).value, ((run (start n) ops).port p).present, 0, true,
        setCount (run (start n) ops).log p⟩ := upd_same _ _ _
  show Res.bool ((convert (run (start n) ops) (.single p)).cap (run (start n) ops).nCap).present = _
  rw [e]
  exact congrArg _ (hI.pres p)

/-- **C83.** `port[i]` is the channel `i` of a multiport. -/
theorem C83_index (s : State) (c : Nat) (l : List Nat) (ht : (s.cap c).target = .multi l) (hl : l.length < 2 ^ 31)
    (i : Nat) (hi : i < l.length) : (exec s (.getItem c (some i))).2 = .capsule s.nCap ∧
      ((exec s (.getItem c (some i))).1.cap s.nCap).target = .single l[i] ∧
      ((exec s (.getItem c (some i))).1.cap s.nCap).value = (s.port l[i]).value ∧
      ((exec s (.getItem c (some i))).1.cap s.nCap).present = (s.port l[i]).present := by
  have ha : asLong (i : Int) = i := by
    unfold asLong
    rw [if_pos]
    have : ((2 : Int) ^ 31) ≤ 2 ^ 63 := by decide
    have : ((l.length : Int)) < 2 ^ 31 := by exact_mod_cast hl
    omega
  have e : exec s (.getItem c (some i)) = (item s l[i], .capsule s.nCap) := by
    show getItem s c (some i) = _
    unfold getItem
    rw [ht]
    dsimp only
    rw [ha, if_neg (by omega), if_pos (by omega), Int.toNat_natCast, List.getElem?_eq_getElem hi]
  rw [e]
  have e2 : (item s l[i]).cap s.nCap =
      ⟨2, .single l[i], (s.port l[i]).value, (s.port l[i]).present, 0, false, setCount s.log l[i]⟩ := upd_same _ _ _
  refine ⟨rfl, ?_, ?_, ?_⟩ <;> (dsimp only; rw [e2])

/-- `next` does not change what a port object stands for, and counts. -/
theorem nexts_cap (s : State) (c : Nat) (l : List Nat) (hc : c < s.nCap) (ht : (s.cap c).target = .multi l) (h0 : (s.cap c).index = 0) :
    ∀ k, k ≤ l.length → c < (nexts s c k).nCap ∧ ((nexts s c k).cap c).target = .multi l ∧ ((nexts s c k).cap c).index = k
  | 0, _ => ⟨hc, ht, h0⟩
  | k + 1, hk => by
    obtain ⟨h1, h2, h3⟩ := nexts_cap s c l hc ht h0 k (by omega)
    show c < (iterNext (nexts s c k) c).1.nCap ∧ ((iterNext (nexts s c k) c).1.cap c).target = _ ∧
      ((iterNext (nexts s c k) c).1.cap c).index = _
    unfold iterNext
    rw [h2]
    cases l with
    | nil => exact absurd hk (by simp)
    | cons q qs =>
      dsimp only
      rw [h3, List.getElem?_eq_getElem (Nat.lt_of_succ_le hk)]
      refine ⟨Nat.lt_succ_of_lt h1, ?_, ?_⟩
      · dsimp only
        rw [upd_same]
        exact h2
      · dsimp only
        rw [upd_same]

/-- **C83.** `for p in port` visits the channels of a multiport with at least one channel in order, each once, whatever happened
before. -/
theorem C83_iteration_visits_all_channels (s : State) (c : Nat) (l : List Nat) (hc : c < s.nCap)
    (ht : (s.cap c).target = .multi l) (hl : l ≠ []) :
    let s' := (exec s (.iter c)).1
    (∀ k (hk : k < l.length), (iterNext (nexts s' c k) c).2 = .capsule (nexts s' c k).nCap ∧
      ((iterNext (nexts s' c k) c).1.cap (nexts s' c k).nCap).target = .single l[k]) ∧
    (iterNext (nexts s' c l.length) c).2 = .stop := by
  intro s'
  have hc' : c < s'.nCap := hc
  have ht' : (s'.cap c).target = .multi l := by
    show (upd s.cap c _ c).target = _
    rw [upd_same]
    exact ht
  have h0 : (s'.cap c).index = 0 := by
    show (upd s.cap c _ c).index = _
    rw [upd_same]
  refine ⟨fun k hk => ?_, ?_⟩
  · obtain ⟨h1, h2, h3⟩ := nexts_cap s' c l hc' ht' h0 k (by omega)
    unfold iterNext
    rw [h2]
    cases l with
    | nil => exact absurd rfl hl
    | cons q qs =>
      dsimp only
      rw [h3, List.getElem?_eq_getElem hk]
      refine ⟨rfl, ?_⟩
      dsimp only
      rw [upd_ne _ _ (Nat.ne_of_gt h1)]
      show Capsule.target (upd _ _ _ _) = _
      rw [upd_same]
  · obtain ⟨h1, h2, h3⟩ := nexts_cap s' c l hc' ht' h0 l.length (Nat.le_refl _)
    unfold iterNext
    rw [h2]
    cases l with
    | nil => exact absurd rfl hl
    | cons q qs =>
      dsimp only
      rw [h3, List.getElem?_eq_none (Nat.le_refl _)]

/-- **C83.** A value that was scheduled with an action is alive when the action occurs, whenever that is: it is never freed. -/
theorem C83_scheduled_values_are_alive_partial (n : Nat) (ops : List Op)
    (h : Follows (fun s o => Legal s o ∧ Careful s o) (start n) ops) (v : Nat)
    (hv : 0 < (run (start n) ops).scheduled v) : 0 < (run (start n) ops).rc v := by
  have := (run_inv (start_inv n) h).rc v
  omega

/-! ## A program -/

/-- Port 0 is an output that is set to an object (0) at the first tag and to another (1) at the second; a second reaction reads
it at both tags; the references of the program are given up at once. -/
def demo : List Op :=
  [.convert (.single 0), .new, .set 0 (some 0), .drop 0, .convert (.single 0), .read 1, .drop 0, .newTag,
   .convert (.single 0), .new, .set 2 (some 1), .drop 1, .convert (.single 0), .read 3]

/-- The hypotheses of the theorems hold for it. -/
theorem demo_follows : Follows (fun s o => Legal s o ∧ Careful s o) (start 1) demo := by
  simp [demo, Follows, Legal, Careful, exec, convert, addCap, start, Target.inRange, set, setToken, incref, decref, read, upd,
    setCount, emptyCapsule]

example : (run (start 1) demo).rc 0 = 0 ∧ (run (start 1) demo).rc 1 = 2 ∧ (run (start 1) demo).fault = false ∧
    lastSet (run (start 1) demo).log 0 = some 1 ∧ setNow (run (start 1) demo).log 0 = true := by decide +kernel

/-- A multiport with three channels is iterated over. -/
example : ((convert (start 3) (.multi [2, 0, 1])).cap 0).target = .multi [2, 0, 1] ∧ 0 < (convert (start 3) (.multi [2, 0, 1])).nCap := by
  decide +kernel

/-! ## What fails -/

/-- Only what every Python program does. -/
def legalOnly (s : State) (o : Op) : Prop := Legal s o

/-- **C83 fails for port objects that are kept.** A reaction takes the same channel twice, sets it through one of the objects, and reads the
other after the next set: the value that it reads is freed. -/
theorem C83_not_second_port_object_is_up_to_date : ∃ ops, Follows legalOnly (start 1) ops ∧ (run (start 1) ops).fault = true :=
  ⟨[.convert (.multi [0]), .getItem 0 (some 0), .new, .set 1 (some 0), .drop 0, .getItem 0 (some 0), .new, .set 1 (some 1), .read 2], by
    simp [Follows, legalOnly, Legal, exec, convert, addCap, start, Target.inRange, set, setToken, incref, decref, upd,
      setCount, emptyCapsule, getItem, item, asLong], by decide +kernel⟩

/-- **C83 fails for port objects that are stored.** A reaction stores its argument (an attribute of the reactor), and reads it at the
next tag, after the port was set again. -/
theorem C83_not_stored_port_objects_are_valid : ∃ ops, Follows legalOnly (start 1) ops ∧ (run (start 1) ops).fault = true ∧
    Op.newTag ∈ ops :=
  ⟨[.convert (.single 0), .new, .set 0 (some 0), .drop 0, .convert (.single 0), .newTag, .convert (.single 0), .new, .set 2 (some 1),
    .read 1], by
    simp [Follows, legalOnly, Legal, exec, convert, addCap, start, Target.inRange, set, setToken, incref, decref, upd,
      setCount, emptyCapsule], by decide +kernel, by simp⟩

/-- **C83 fails for `port[0]` of a port that is not a multiport.** The port returns itself without counting the reference; when the reference is given
up the port object is freed, and with it the value that the port still has; the next reaction reads a freed object. -/
theorem C83_not_index_of_a_single_port : ∃ ops, Follows legalOnly (start 1) ops ∧ (run (start 1) ops).fault = true :=
  ⟨[.convert (.single 0), .new, .set 0 (some 0), .drop 0, .convert (.single 0), .getItem 1 (some 0), .dropCap 1, .convert (.single 0),
    .read 2], by
    simp [Follows, legalOnly, Legal, exec, convert, addCap, start, Target.inRange, set, setToken, incref, decref, upd,
      setCount, emptyCapsule, getItem, dropCap], by decide +kernel⟩

/-- **C83 fails if arguments are given up.** A value is freed while its port still has it when the code that calls a reaction gives up its
reference to the argument: the port object has not counted the value that it releases. -/
theorem C83_not_arguments_may_be_released : ∃ ops, Follows legalOnly (start 1) ops ∧ (run (start 1) ops).fault = true :=
  ⟨[.convert (.single 0), .new, .set 0 (some 0), .drop 0, .dropCap 0, .convert (.single 0), .read 1], by
    simp [Follows, legalOnly, Legal, exec, convert, addCap, start, Target.inRange, set, setToken, incref, decref, upd,
      setCount, emptyCapsule, dropCap], by decide +kernel⟩

/-- **C83 fails for indices out of range.** An index is not compared with the width: memory that belongs to no port is used, for
every negative index but -3, and every index from the width on. -/
theorem C83_not_indices_are_checked (s : State) (c : Nat) (l : List Nat) (ht : (s.cap c).target = .multi l) (k : Int)
    (h3 : k ≠ -3) (hk : k < 0 ∨ (l.length : Int) ≤ k) : (exec s (.getItem c (some k))).1.fault = true := by
  show (getItem s c (some k)).1.fault = true
  unfold getItem
  rw [ht]
  dsimp only
  have h3' : asLong k ≠ -3 := by
    unfold asLong
    split
    · exact h3
    · decide
  rw [if_neg h3']
  split
  · rename_i h0
    have hk' : asLong k = k := by
      unfold asLong at h0 ⊢
      split at h0
      · rename_i h
        rw [if_pos h]
      · omega
    rw [hk'] at h0 ⊢
    rw [List.getElem?_eq_none (by omega)]
  · rfl

/-- **C83 fails for absent ports.** The value of a port that is absent is not `None` but the value of an earlier tag. -/
theorem C83_not_absent_ports_are_none : ∃ ops, Follows (fun s o => Legal s o ∧ Careful s o) (start 1) ops ∧
    (exec (run (start 1) ops) (.isPresent 1)).2 = .bool false ∧ (exec (run (start 1) ops) (.read 1)).2 = .value (some 0) ∧
    Legal (run (start 1) ops) (.read 1) ∧ Careful (run (start 1) ops) (.read 1) := by
  refine ⟨[.convert (.single 0), .new, .set 0 (some 0), .newTag, .convert (.single 0)], ?_, by decide +kernel, by decide +kernel, ?_, ?_⟩ <;>
    simp [Follows, Legal, Careful, exec, convert, addCap, start, Target.inRange, set, setToken, incref, decref, upd, run,
      setCount, emptyCapsule]

/-- **C83 fails for a multiport without channels.** Iterating over it is an error. -/
theorem C83_not_empty_multiports_can_be_iterated (s : State) (c : Nat) (ht : (s.cap c).target = .multi []) :
    (exec s (.iterNext c)).2 = .raises := by
  show (iterNext s c).2 = _
  unfold iterNext
  rw [ht]

/-- One round of the outer of two nested loops: `next` for the outer loop, then the whole inner loop, which is `iter` and `next` until it
ends. -/
def round (s : State) (c w : Nat) : State :=
  nexts (exec (iterNext s c).1 (.iter c)).1 c (w + 1)

def rounds (s : State) (c w : Nat) : Nat → State
  | 0 => s
  | k + 1 => round (rounds s c w k) c w

theorem nexts_end (s : State) (c : Nat) (l : List Nat) (hl : l ≠ []) (hc : c < s.nCap) (ht : (s.cap c).target = .multi l) (h0 : (s.cap c).index = 0) :
    c < (nexts s c (l.length + 1)).nCap ∧ ((nexts s c (l.length + 1)).cap c).target = .multi l ∧
      ((nexts s c (l.length + 1)).cap c).index = 0 := by
  obtain ⟨h1, h2, h3⟩ := nexts_cap s c l hc ht h0 l.length (Nat.le_refl _)
  show c < (iterNext (nexts s c l.length) c).1.nCap ∧ ((iterNext (nexts s c l.length) c).1.cap c).target = _ ∧
    ((iterNext (nexts s c l.length) c).1.cap c).index = _
  unfold iterNext
  rw [h2]
  cases l with
  | nil => exact absurd rfl hl
  | cons q qs =>
    dsimp only
    rw [h3, List.getElem?_eq_none (Nat.le_refl _)]
    refine ⟨Nat.lt_succ_of_lt h1, ?_, ?_⟩
    · dsimp only
      rw [upd_same]
      exact h2
    · dsimp only
      rw [upd_same]

/-- **C83 fails for nested loops.** `for a in port: for b in port: ...` never ends: a port object is its own iterator, and after every round of the
outer loop it is at the first channel again. -/
theorem C83_not_nested_loops_end (s : State) (c : Nat) (l : List Nat) (hl : l ≠ []) (hc : c < s.nCap)
    (ht : (s.cap c).target = .multi l) (h0 : (s.cap c).index = 0) (k : Nat) :
    (iterNext (rounds s c l.length k) c).2 = .capsule (rounds s c l.length k).nCap ∧
      ((iterNext (rounds s c l.length k) c).1.cap (rounds s c l.length k).nCap).target = .single (l.head hl) := by
  have key : ∀ k, c < (rounds s c l.length k).nCap ∧ ((rounds s c l.length k).cap c).target = .multi l ∧
      ((rounds s c l.length k).cap c).index = 0 := by
    intro k
    induction k with
    | zero => exact ⟨hc, ht, h0⟩
    | succ k ih =>
      obtain ⟨h1, h2, h3⟩ := ih
      obtain ⟨g1, g2, -⟩ := nexts_cap (rounds s c l.length k) c l h1 h2 h3 1 (List.length_pos_iff.2 hl)
      have g1' : c < (iterNext (rounds s c l.length k) c).1.nCap := g1
      have g2' : ((iterNext (rounds s c l.length k) c).1.cap c).target = .multi l := g2
      refine nexts_end _ c l hl g1' ?_ ?_
      · show Capsule.target (upd _ c _ c) = _
        rw [upd_same]
        exact g2'
      · show Capsule.index (upd _ c _ c) = _
        rw [upd_same]
  obtain ⟨h1, h2, h3⟩ := key k
  unfold iterNext
  rw [h2]
  cases l with
  | nil => exact absurd rfl hl
  | cons q qs =>
    dsimp only
    rw [h3]
    refine ⟨rfl, ?_⟩
    dsimp only [List.getElem?_cons_zero]
    rw [upd_ne _ _ (Nat.ne_of_gt h1)]
    show Capsule.target (upd _ _ _ _) = _
    rw [upd_same]
    rfl

/-- **C83 fails for scheduled values.** A value that was scheduled is never freed, although nothing refers to it any more. -/
theorem C83_not_scheduled_values_are_freed : ∃ ops, Follows (fun s o => Legal s o ∧ Careful s o) (start 0) ops ∧
    (run (start 0) ops).held 0 = 0 ∧ ∀ more, Follows (fun s o => Legal s o ∧ Careful s o) (run (start 0) ops) more →
      0 < (run (run (start 0) ops) more).rc 0 := by
  have hsch : ∀ (s : State) (o : Op) (v : Nat), s.scheduled v ≤ (exec s o).1.scheduled v := by
    intro s o v
    cases o with
    | new => exact Nat.le_refl _
    | dup w => exact Nat.le_refl _
    | drop w => exact Nat.le_refl _
    | convert t => cases t <;> exact Nat.le_refl _
    | getItem c k =>
      show _ ≤ (getItem s c k).1.scheduled v
      unfold getItem
      split
      · exact Nat.le_refl _
      · split
        · exact Nat.le_refl _
        · split
          · exact Nat.le_refl _
          · split
            · split <;> exact Nat.le_refl _
            · exact Nat.le_refl _
    | iter c => exact Nat.le_refl _
    | iterNext c =>
      show _ ≤ (iterNext s c).1.scheduled v
      unfold iterNext
      split
      · exact Nat.le_refl _
      · exact Nat.le_refl _
      · split <;> exact Nat.le_refl _
    | set c x =>
      show _ ≤ (set s c x).1.scheduled v
      unfold set setToken incref decref
      split
      · exact Nat.le_refl _
      · cases x <;> dsimp only <;> split <;> exact Nat.le_refl _
    | read c =>
      show _ ≤ (read s c).1.scheduled v
      unfold read incref
      cases (s.cap c).value <;> exact Nat.le_refl _
    | isPresent c => exact Nat.le_refl _
    | dropCap c =>
      show _ ≤ (dropCap s c).1.scheduled v
      unfold dropCap decref
      dsimp only
      split
      · split <;> exact Nat.le_refl _
      · exact Nat.le_refl _
    | schedule w =>
      show _ ≤ upd s.scheduled w _ v
      by_cases hv : v = w
      · subst hv
        rw [upd_same]
        omega
      · rw [upd_ne _ _ hv]
    | newTag => exact Nat.le_refl _
  have hrun : ∀ (ops : List Op) (s : State) (v : Nat), s.scheduled v ≤ (run s ops).scheduled v := by
    intro ops
    induction ops with
    | nil => exact fun _ _ => Nat.le_refl _
    | cons o os ih => exact fun s v => Nat.le_trans (hsch s o v) (ih _ v)
  have hf : Follows (fun s o => Legal s o ∧ Careful s o) (start 0) [.new, .schedule 0, .drop 0] := by
    simp [Follows, Legal, Careful, exec, start, incref, decref, upd]
  refine ⟨_, hf, by decide +kernel, fun more hm => ?_⟩
  have hI := run_inv (run_inv (start_inv 0) hf) hm
  have h1 := hrun more (run (start 0) [.new, .schedule 0, .drop 0]) 0
  have h2 : (run (start 0) [.new, .schedule 0, .drop 0]).scheduled 0 = 1 := by decide +kernel
  have := hI.rc 0
  omega

end ReactorC.Python
