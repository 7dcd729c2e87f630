import Verif.Trace.Model
import Mathlib.Tactic.Common

/-! # C49: tracing -/

namespace ReactorC.Trace

variable {Rec : Type}

/-! ## Specification -/

/-- The records in the file that come from slot `k`, in order. -/
def recordsOf (k : Nat) (content : List (Chunk Rec)) : List Rec :=
  ((content.filter (fun c => c.slot == k)).map (·.records)).flatten

theorem recordsOf_append (k : Nat) (content : List (Chunk Rec)) (c : Chunk Rec) :
    recordsOf k (content ++ [c]) = recordsOf k content ++ (if c.slot = k then c.records else []) := by
  unfold recordsOf
  by_cases h : c.slot = k <;> simp [h]

structure Inv (cap : Nat) (s : State Rec) : Prop where
  kept : ∀ k, recordsOf k s.content ++ s.buffer k = s.written k
  stopped : s.stopped = false → s.open_ = true
  small : s.stopped = false → ∀ k, (s.buffer k).length ≤ cap
  ready : s.stopped = false → ∀ k r, s.pc k = .ready r → (s.buffer k).length < cap
  chunks : ∀ c ∈ s.content, 0 < c.records.length ∧ c.records.length ≤ cap

theorem put_same {α : Type} (f : Nat → α) (k : Nat) (a : α) : put f k a k = a := by simp [put]
theorem put_other {α : Type} (f : Nat → α) {j k : Nat} (a : α) (h : j ≠ k) : put f k a j = f j := by simp [put, h]

/-- Flushing, when the file is open and writing succeeds. -/
theorem inv_flush {cap : Nat} {s : State Rec} (h : Inv cap s) (k : Nat) : Inv cap (flush_trace_locked k true s) ∧
    (s.stopped = false → (flush_trace_locked k true s).buffer k = []) := by
  unfold flush_trace_locked
  split
  · rename_i hc
    refine ⟨⟨?_, ?_, ?_, ?_, ?_⟩, ?_⟩
    · intro j
      simp only [if_true]
      rw [recordsOf_append]
      by_cases hj : j = k
      · subst hj; rw [put_same, if_pos rfl, List.append_nil]; exact h.kept j
      · rw [put_other _ _ hj, if_neg (Ne.symm hj), List.append_nil]; exact h.kept j
    · exact h.stopped
    · intro hs j
      simp only [if_true]
      by_cases hj : j = k
      · subst hj; rw [put_same]; simp
      · rw [put_other _ _ hj]; exact h.small hs j
    · intro hs j r hr
      simp only [if_true] at hr ⊢
      by_cases hj : j = k
      · subst hj
        rw [put_same]
        have := h.ready hs j r hr
        simp; omega
      · rw [put_other _ _ hj]; exact h.ready hs j r hr
    · intro c hcm
      simp only [if_true, List.mem_append, List.mem_singleton] at hcm
      rcases hcm with hcm | hcm
      · exact h.chunks c hcm
      · subst hcm; exact ⟨hc.2.2, h.small hc.1 k⟩
    · intro _; simp [put_same]
  · rename_i hc
    refine ⟨h, ?_⟩
    intro hs
    have := h.stopped hs
    by_contra hne
    exact hc ⟨hs, this, List.length_pos_iff.2 hne⟩

theorem flush_fields (k : Nat) (ok : Bool) (s : State Rec) :
    (flush_trace_locked k ok s).pc = s.pc ∧ (flush_trace_locked k ok s).stopped = s.stopped ∧
    (flush_trace_locked k ok s).written = s.written ∧ (flush_trace_locked k ok s).number = s.number ∧
    (flush_trace_locked k ok s).fault = s.fault := by
  unfold flush_trace_locked
  split
  · split <;> simp
  · simp

theorem flush_other (k j : Nat) (ok : Bool) (s : State Rec) (h : j ≠ k) :
    (flush_trace_locked k ok s).buffer j = s.buffer j := by
  unfold flush_trace_locked
  split
  · split <;> simp [put, h]
  · rfl

theorem flush_nil (k j : Nat) (ok : Bool) (s : State Rec) (h : s.buffer j = []) :
    (flush_trace_locked k ok s).buffer j = [] := by
  by_cases hj : j = k
  · subst hj
    unfold flush_trace_locked
    split
    · split <;> simp [put]
    · exact h
  · rw [flush_other _ _ _ _ hj]; exact h

theorem inv_flushAll {cap : Nat} {ok : Nat → Bool} (hok : ∀ k, ok k = true) (n : Nat) {s : State Rec} (h : Inv cap s)
    (hs : s.stopped = false) :
    Inv cap (flushAll ok n s) ∧ (flushAll ok n s).stopped = false ∧ (∀ k < n, (flushAll ok n s).buffer k = []) ∧
    (flushAll ok n s).pc = s.pc ∧ (flushAll ok n s).written = s.written ∧ (flushAll ok n s).fault = s.fault ∧
    (flushAll ok n s).number = s.number ∧ (∀ k, n ≤ k → (flushAll ok n s).buffer k = s.buffer k) := by
  induction n with
  | zero => exact ⟨h, hs, by simp, rfl, rfl, rfl, rfl, fun _ _ => rfl⟩
  | succ n ih =>
    obtain ⟨h1, h2, h3, h4, h5, h6, h7, h8⟩ := ih
    have hstep : flushAll ok (n + 1) s = if 0 < ((flushAll ok n s).buffer n).length then
        flush_trace_locked n (ok n) (flushAll ok n s) else flushAll ok n s := rfl
    rw [hstep]
    generalize flushAll ok n s = t at *
    split
    · obtain ⟨g1, g2, g3, g4, g5⟩ := flush_fields n (ok n) t
      rw [hok n] at *
      obtain ⟨g6, g7⟩ := inv_flush h1 n
      refine ⟨g6, g2.trans h2, ?_, g1.trans h4, g3.trans h5, g5.trans h6, g4.trans h7, ?_⟩
      · intro k hk
        by_cases hkn : k = n
        · subst hkn; exact g7 h2
        · exact flush_nil _ _ _ _ (h3 k (by omega))
      · intro k hk
        rw [flush_other _ _ _ _ (by omega)]; exact h8 k (by omega)
    · rename_i hc
      refine ⟨h1, h2, ?_, h4, h5, h6, h7, fun k hk => h8 k (by omega)⟩
      intro k hk
      by_cases hkn : k = n
      · subst hkn
        exact List.eq_nil_of_length_eq_zero (by omega)
      · exact h3 k (by omega)

theorem inv_step {cap : Nat} (hcap : 0 < cap) {s t : State Rec} (h : Inv cap s) (st : Step cap True s t) :
    Inv cap t := by
  cases st with
  | call _ k r hk hc =>
    unfold call at hc
    split at hc
    · simp at hc
    · simp at hc; subst hc
      refine ⟨h.kept, h.stopped, h.small, ?_, h.chunks⟩
      intro hs j r' hr
      by_cases hj : j = k
      · subst hj; simp [put_same] at hr
      · simp only [put_other _ _ hj] at hr; exact h.ready hs j r' hr
  | flush k r ok hk hok =>
    have := hok trivial
    subst this
    unfold flushIfFull
    obtain ⟨g1, g2⟩ := inv_flush h k
    obtain ⟨g3, g4, _⟩ := flush_fields k true s
    split
    · refine ⟨g1.kept, g1.stopped, g1.small, ?_, g1.chunks⟩
      intro hs j r' hr
      by_cases hj : j = k
      · subst hj
        have : (flush_trace_locked j true s).buffer j = [] := g2 (by rw [← g4]; exact hs)
        show ((flush_trace_locked j true s).buffer j).length < cap
        rw [this]; exact hcap
      · simp only [put_other _ _ hj] at hr
        exact g1.ready hs j r' (by rw [g3]; exact hr)
    · refine ⟨h.kept, h.stopped, h.small, ?_, h.chunks⟩
      intro hs j r' hr
      by_cases hj : j = k
      · subst hj; dsimp only; omega
      · simp only [put_other _ _ hj] at hr; exact h.ready hs j r' hr
  | append k r hk =>
    refine ⟨?_, h.stopped, ?_, ?_, h.chunks⟩
    · intro j
      simp only [append]
      by_cases hj : j = k
      · subst hj; rw [put_same, put_same, ← List.append_assoc, h.kept j]
      · rw [put_other _ _ hj, put_other _ _ hj]; exact h.kept j
    · intro hs j
      simp only [append]
      by_cases hj : j = k
      · subst hj; rw [put_same]
        have := h.ready hs j r hk
        simp; omega
      · rw [put_other _ _ hj]; exact h.small hs j
    · intro hs j r' hr
      simp only [append] at hr ⊢
      by_cases hj : j = k
      · subst hj; simp [put_same] at hr
      · rw [put_other _ _ hj] at hr ⊢; exact h.ready hs j r' hr
  | stop ok hi hok =>
    unfold stop
    split
    · exact h
    · rename_i hs
      have := inv_flushAll (hok trivial) (s.number + 1) h (by simpa using hs)
      exact ⟨this.1.kept, by simp, by simp, by simp, this.1.chunks⟩

theorem inv_reach {cap : Nat} (hcap : 0 < cap) {number : Nat} {s : State Rec}
    (r : Reach cap True number true s) : Inv cap s := by
  induction r with
  | start =>
    refine ⟨?_, fun _ => rfl, by simp [start], by simp [start], by simp [start]⟩
    intro k; simp [start, recordsOf]
  | step _ st ih => exact inv_step hcap ih st

/-! ## Properties -/

/-- C49.  With an open trace file that can be written, the records of each thread are never lost, duplicated or
reordered: at any time, the records in the file that come from it followed by those in its buffer are exactly the
records it wrote, in order. -/
theorem C49_nothing_lost {cap : Nat} (hcap : 0 < cap) {number : Nat} {s : State Rec}
    (r : Reach cap True number true s) (k : Nat) : recordsOf k s.content ++ s.buffer k = s.written k :=
  (inv_reach hcap r).kept k

/-- C49.  Ending the trace writes everything: afterwards the file contains, for each thread with a buffer, exactly
the records it wrote, in order. -/
theorem C49_complete_after_stop {cap : Nat} (hcap : 0 < cap) {number : Nat} {s : State Rec}
    (r : Reach cap True number true s) (running : s.stopped = false) (ok : Nat → Bool) (hok : ∀ k, ok k = true)
    (k : Nat) (hk : k ≤ s.number) :
    recordsOf k (stop ok s).content = s.written k ∧ (stop ok s).open_ = false ∧ (stop ok s).stopped = true := by
  have h := inv_flushAll hok (s.number + 1) (inv_reach hcap r) running
  have hst : stop ok s = { flushAll ok (s.number + 1) s with stopped := true, open_ := false } := by
    unfold stop; simp [running]
  rw [hst]
  refine ⟨?_, rfl, rfl⟩
  have h1 := h.1.kept k
  rw [h.2.2.1 k (by omega), List.append_nil, h.2.2.2.2.1] at h1
  exact h1

/-- C49.  While tracing with an open file, nothing is written outside a buffer, as long as the thread identifiers are
less than the number of buffers. -/
theorem C49_no_overrun {cap : Nat} {number : Nat} {s : State Rec} (hcap : 0 < cap)
    (r : Reach cap True number true s) (running : s.stopped = false) (k : Nat) (rec : Rec) (hk : s.pc k = .ready rec)
    (hn : k ≤ s.number) (hf : s.fault = false) : (append cap k rec s).fault = false := by
  have := (inv_reach hcap r).ready running k rec hk
  simp [append, hf]
  omega

/-- C49.  Every chunk in the file is non-empty and no longer than a buffer. -/
theorem C49_chunks {cap : Nat} {number : Nat} {s : State Rec} (hcap : 0 < cap) (r : Reach cap True number true s)
    (c : Chunk Rec) (hc : c ∈ s.content) : 0 < c.records.length ∧ c.records.length ≤ cap :=
  (inv_reach hcap r).chunks c hc

/-- A tracepoint executed from beginning to end by one thread. -/
def tracepoint (cap k : Nat) (ok : Bool) (r : Rec) (s : State Rec) : State Rec :=
  append cap k r (flushIfFull cap k r ok { s with pc := put s.pc k (.called r) })

theorem tracepoint_reach {cap : Nat} {rel : Prop} {number : Nat} {opened : Bool} {s : State Rec}
    (r : Reach cap rel number opened s) (k : Nat) (ok : Bool) (rec : Rec) (hidle : s.pc k = .idle)
    (hk : k ≤ s.number + 1) (hok : rel → ok = true) : Reach cap rel number opened (tracepoint cap k ok rec s) := by
  have r1 := r.step (.call s _ k rec hidle (by unfold call; rw [if_neg (by omega)]))
  have r2 := r1.step (.flush _ k rec ok (by simp [put]) hok)
  refine r2.step (.append _ k rec ?_)
  unfold flushIfFull
  split <;> simp [put]

/-- Two threads with buffers of capacity 2: thread 0 writes 1, 2, 3 and thread 1 writes 7. -/
def demo : State Nat :=
  tracepoint 2 1 true 3 (tracepoint 2 2 true 7 (tracepoint 2 1 true 2 (tracepoint 2 1 true 1 (start 2 true))))

theorem demo_reach : Reach 2 True 2 true demo := by
  unfold demo
  have hi : ∀ (c k : Nat) (r : Nat) (s : State Nat), (tracepoint c k true r s).pc k = .idle := by
    intro c k r s; simp [tracepoint, append, put]
  refine tracepoint_reach (tracepoint_reach (tracepoint_reach (tracepoint_reach .start _ _ _ ?_ ?_ ?_) _ _ _ ?_ ?_ ?_)
    _ _ _ ?_ ?_ ?_) _ _ _ ?_ ?_ ?_ <;> first | rfl | decide | simp

example : demo.buffer 1 = [3] ∧ recordsOf 1 demo.content = [1, 2] ∧ demo.buffer 2 = [7] ∧ demo.stopped = false ∧
    recordsOf 1 (stop (fun _ => true) demo).content = [1, 2, 3] ∧
    recordsOf 2 (stop (fun _ => true) demo).content = [7] := by decide +kernel

/-- A thread about to write. -/
example : ∃ s : State Nat, Reach 2 True 2 true s ∧ s.pc 1 = .ready 4 ∧ s.stopped = false ∧ 1 ≤ s.number ∧
    s.fault = false := by
  have r1 := demo_reach.step (.call demo _ 1 4 rfl (by unfold call; rw [if_neg (by decide)]))
  have r2 := r1.step (.flush _ 1 4 true (by simp [put]) (fun _ => rfl))
  exact ⟨_, r2, by rfl, by decide +kernel, by decide +kernel, by decide +kernel⟩

/-- C49.  Without an open trace file (it could not be opened, writing to it failed, or tracing has been stopped), the
buffers are never emptied, and a thread's tracepoint after filling its buffer writes outside it. -/
theorem C49_overrun_without_file (cap : Nat) (r : Rec) (s : State Rec) (closed : s.open_ = false)
    (full : cap ≤ (s.buffer 1).length) (ok : Bool) : (tracepoint cap 1 ok r s).fault = true := by
  unfold tracepoint flushIfFull flush_trace_locked
  simp [closed, full, append]

/-- That this happens in every program that makes enough tracepoints without a trace file. -/
theorem C49_overrun_without_file_reachable (cap : Nat) (r : Rec) :
    ∃ s : State Rec, Reach cap True 2 false s ∧ s.fault = true := by
  have key : ∀ n, ∃ s : State Rec, Reach cap True 2 false s ∧ s.open_ = false ∧ (s.buffer 1).length = n ∧
      s.pc 1 = .idle ∧ s.number = 2 := by
    intro n
    induction n with
    | zero => exact ⟨start 2 false, .start, rfl, rfl, rfl, rfl⟩
    | succ n ih =>
      obtain ⟨s, h1, h2, h3, h4, h5⟩ := ih
      refine ⟨_, tracepoint_reach h1 1 true r h4 (by omega) (fun _ => rfl), ?_, ?_, ?_, ?_⟩
      all_goals
        unfold tracepoint flushIfFull flush_trace_locked
        simp [h2]
        simp [append, put, h2, h3, h5]
  obtain ⟨s, h1, h2, h3, h4, h5⟩ := key cap
  exact ⟨_, tracepoint_reach h1 1 true r h4 (by omega) (fun _ => rfl), C49_overrun_without_file cap r s h2 (by omega) true⟩

/-- C49.  The test of the thread identifier is off by one: the identifier equal to the number of buffers, here 2, is
accepted and its record is written outside the array of buffers. -/
theorem C49_thread_identifier_test_off_by_one (cap : Nat) (r : Rec) :
    ∃ s : State Rec, Reach cap True 2 true s ∧ s.fault = true := by
  refine ⟨_, tracepoint_reach .start 3 true r rfl (by simp [start]) (fun _ => rfl), ?_⟩
  unfold tracepoint flushIfFull flush_trace_locked
  simp [start, append]

/-- C49.  The table of object descriptions keeps the first descriptions registered, in order, and never grows beyond
its size. -/
theorem C49_object_table {α : Type} (size : Nat) (ds : List α) :
    ds.foldl (register size) [] = ds.take size ∧ (ds.foldl (register size) []).length ≤ size := by
  have key : ∀ (ds t : List α), t.length ≤ size → ds.foldl (register size) t = t ++ ds.take (size - t.length) := by
    intro ds
    induction ds with
    | nil => intro t _; simp
    | cons d ds ih =>
      intro t ht
      simp only [List.foldl_cons]
      by_cases h : size ≤ t.length
      · have : register size t d = t := by simp [register, h]
        rw [this, ih t ht]
        have : size - t.length = 0 := by omega
        rw [this]; simp
      · have : register size t d = t ++ [d] := by simp [register, h]
        rw [this, ih _ (by simp; omega)]
        have : size - t.length = (size - (t ++ [d]).length) + 1 := by simp; omega
        rw [this, List.take_succ_cons]
        simp
  have := key ds [] (by simp)
  simp at this
  exact ⟨this, by rw [this]; simp; omega⟩

example : [1, 2, 3, 4].foldl (register 3) [] = [1, 2, 3] := by decide

end ReactorC.Trace
