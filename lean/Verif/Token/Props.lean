import Verif.Token.Overflow
import Verif.Token.Tight

/-!
# C21, C22, C57: reference-counted payloads

The operations are those of `Op`; `Follows C (start n) ops` says that `ops` is a history, from program
start, in which every operation is allowed (`Allowed`) and satisfies `C` at the time it is executed.
-/

namespace ReactorC.Token

/-- The content of the payload of token `k`, if it has one that is allocated. -/
def content (s : State) (k : Nat) : Option Nat := (s.tok k).val.bind s.pay

/-- **C21** In every history in which the recycling bin never overflows while copies are released, no
freed token is accessed, no payload is freed twice, and every token that is referred to from anywhere is
in use, not in the recycling bin, with an allocated payload if it has one. `_partial`: the condition on
the bin is needed, see `C21_copy_release_reads_freed_token`. -/
theorem C21_no_dangling_reference_partial (n : Nat) (ops : List Op) (h : Follows BinHasRoom (start n) ops) :
    ∃ s, s = run (start n) ops ∧ s.fault = false ∧
      ∀ k, Held s k → (s.tok k).st = .live ∧ k ∉ s.bin ∧ ∀ p, (s.tok k).val = some p → s.pay p ≠ none := by
  refine ⟨_, rfl, ?_⟩
  obtain ⟨L, hi⟩ := run_inv (start_inv n) ops h
  refine ⟨hi.mem.ok, fun k hk => ?_⟩
  have hl := hi.live_of_held hk
  refine ⟨hl, fun hb => ?_, fun p hp => hi.mem.alloc k p hp⟩
  rw [hi.mem.bin k, hl] at hb; cases hb

/-- **C21** A message in the event queue, or at a port or action that the operation does not send to,
keeps its payload: same value, same length, not freed. -/
theorem C21_payload_unchanged (n : Nat) (ops : List Op) (o : Op) (h : Follows BinHasRoom (start n) (ops ++ [o])) :
    ∃ s, s = run (start n) ops ∧ ∃ s', s' = exec s o ∧
      ∀ k, (k ∈ s.queue ∨ ∃ t, target o ≠ some t ∧ tmplTok s t = some k) →
        (s'.tok k).val = (s.tok k).val ∧ (s'.tok k).len = (s.tok k).len ∧ content s' k = content s k := by
  refine ⟨_, rfl, _, rfl, fun k hk => ?_⟩
  have aux : ∀ (s : State) (L : List Nat), Inv s L → Follows BinHasRoom s (ops ++ [o]) →
      ∃ L', Inv (run s ops) L' ∧ Allowed (run s ops) o ∧ BinHasRoom (run s ops) o := by
    clear hk h
    induction ops with
    | nil => intro s L hi hf; exact ⟨L, hi, hf.1, hf.2.1⟩
    | cons a as ih =>
      intro s L hi hf
      obtain ⟨L', g, _⟩ := good_exec hi a hf.1 hf.2.1
      exact ih _ L' g.inv hf.2.2
  obtain ⟨L, hi, ha, hb⟩ := aux _ _ (start_inv n) h
  obtain ⟨L', g, _⟩ := good_exec hi o ha hb
  obtain ⟨h1, h2, h3⟩ := g.keep k hk
  refine ⟨h1, h2, ?_⟩
  simp only [content, h1]
  cases hv : ((run (start n) ops).tok k).val with
  | none => rfl
  | some p => simp only [Option.bind_some]; exact h3 p hv

/-- **C21**, the case that is excluded above: a program that makes 513 writable copies at one tag makes
the runtime read a token it has given back to the C library. Every operation of it is allowed. -/
theorem C21_copy_release_reads_freed_token : ∃ ops, Follows (fun _ _ => True) (start 1) ops ∧
    (run (start 1) ops).fault = true := by
  obtain ⟨L, hl, hc, hf⟩ := copyState_run copyState_start 513
  generalize List.replicate 513 (Op.writableCopy 0 0 ⟨1, false, 2⟩) = copies at hc hf
  refine ⟨[.initTemplate 0 0, .set 0 0 7 1] ++ (copies ++ [.newTag]), ?_, ?_⟩
  · refine follows_append ?_ (follows_append hf (And.intro trivial (And.intro trivial trivial)))
    exact ⟨by simp [Allowed, start], trivial,
      by simp [Allowed, exec, initTemplate, tmplTok, start, setRc, newToken], trivial, trivial⟩
  · have hn : ∀ s, run s [.newTag] = freeCopies (s.nTok + 1) s := fun _ => rfl
    rw [run_append, run_append, hn]
    refine freeCopies_overflow L _ _ hc.inv hc.rc (by rw [hc.bin]; simp) ?_
    rw [hc.bin, hl]; simp [binLimit]

/-- The references to a token, by kind. -/
structure OnlyHolder (s : State) (k t : Nat) : Prop where
  /-- exactly one template, `t`, has it -/
  here : tmplTok s t = some k
  count : s.tmpl.count (some k) = 1
  queue : k ∉ s.queue
  copies : ∀ l, Chain s.nxt s.copies l → k ∉ l
  user : k ∉ s.user

/-- **C22** `lf_writable_copy` on a port with a message returns a token with the same content and length
that is private to the caller. Either it is the message itself, when the port has a single destination and
there is no other reference to the message; or (`size 0`) there is no byte to write; or it is a new token
that nobody referred to, with a payload of its own, and every token in use keeps its payload. -/
theorem C22_writable_copy_private (n : Nat) (ops : List Op) (t pick : Nat) (pt : PortType) (k : Nat)
    (h : Follows BinHasRoom (start n) ops) :
    ∃ s, s = run (start n) ops ∧ (tmplTok s t = some k → content s k ≠ none →
      ∃ s' k', writableCopy s t pick pt = (s', some k') ∧
        content s' k' = content s k ∧ (s'.tok k').len = (s.tok k).len ∧
        ((k' = k ∧ pt.numDestinations = 1 ∧ OnlyHolder s k t) ∨
         (k' = k ∧ pt.hasCopyConstructor = false ∧ pt.elementSize * (s.tok k).len = 0) ∨
         (¬ Held s k' ∧ k' ≠ k ∧ some k' ∉ s'.tmpl ∧ k' ∉ s'.queue ∧ k' ∉ s'.user ∧
           (∀ l, Chain s'.nxt s'.copies l → l.count k' = 1) ∧
           (∀ j, j ≠ k' → (s'.tok j).val ≠ (s'.tok k').val) ∧
           (∀ j, Held s j → s'.tok j = s.tok j ∧ content s' j = content s j)))) := by
  refine ⟨_, rfl, fun ht hct => ?_⟩
  obtain ⟨L, hi⟩ := run_inv (start_inv n) ops h
  generalize run (start n) ops = s at ht hct hi
  rcases writableCopy_spec hi t pick pt with ⟨e, _⟩ | ⟨k1, hk1, hc⟩
  · rw [ht] at e; cases e
  · have hkk : k1 = k := by rw [ht] at hk1; exact (Option.some.inj hk1).symm
    subst hkk
    rcases hc with ⟨h1, h2, e⟩ | ⟨h1, h2, e⟩ | hc
    · refine ⟨_, _, e, rfl, rfl, Or.inl ⟨rfl, h1, ?_⟩⟩
      have hcnt := hi.mem.count k1
      have htm := List.count_pos_iff.mpr (tmplTok_mem ht)
      simp only [hold] at hcnt
      refine ⟨ht, by omega, fun hq => ?_, fun l hl hx => ?_, hi.not_user (hold_pos_tmpl ht)⟩
      · have := List.count_pos_iff.mpr hq; omega
      · rw [hl.functional hi.chain] at hx
        have := List.count_pos_iff.mpr hx; omega
    · exact ⟨_, _, e, rfl, rfl, Or.inr (Or.inl ⟨rfl, h1, h2⟩)⟩
    · obtain ⟨p, hp⟩ : ∃ p, (s.tok k1).val = some p := by
        cases hv : (s.tok k1).val with
        | none => simp [content, hv] at hct
        | some p => exact ⟨p, rfl⟩
      obtain ⟨s', k', e, a1, a2, a3, a4, a5, a6, a7, a8⟩ := hc p hp
      have hlive := hi.mem.live k1 (hold_pos_tmpl ht)
      have hne : k' ≠ k1 := by rintro rfl; exact a1 hlive
      have ho : ∀ j, j ≠ k' → s'.tok j = s.tok j := fun j hj => by rw [a2, upd_other _ _ hj]
      have hk' : s'.tok k' = ⟨.live, 1, some s.nPay, (s.tok k1).len⟩ := by rw [a2, upd_same]
      have hz : hold s L k' = 0 := by
        by_contra hx; exact a1 (hi.mem.live k' (by omega))
      have hnp : ∀ j, (s.tok j).val ≠ some s.nPay := fun j hj => hi.mem.alloc j _ hj (hi.mem.freshPay _ (Nat.le_refl _))
      simp only [hold] at hz
      refine ⟨s', k', e, ?_, by rw [hk'], Or.inr (Or.inr ⟨?_, hne, ?_, ?_, ?_, ?_, ?_, ?_⟩)⟩
      · simp only [content, hk', Option.bind_some, a3, upd_same, hp]
      · intro hh; exact a1 (hi.live_of_held hh)
      · rw [a4]; intro hx; have := List.count_pos_iff.mpr hx; omega
      · rw [a5]; intro hx; have := List.count_pos_iff.mpr hx; omega
      · rw [a6]; intro hx; exact a1 (hi.mem.uncounted k' hx)
      · intro l hl
        rw [hl.functional a7, List.count_cons_self]; omega
      · intro j hj
        rw [ho j hj, hk']; exact hnp j
      · intro j hj
        have hjk : j ≠ k' := by rintro rfl; exact a1 (hi.live_of_held hj)
        refine ⟨ho j hjk, ?_⟩
        simp only [content, ho j hjk, a3]
        cases hv : (s.tok j).val with
        | none => rfl
        | some q =>
          have : q ≠ s.nPay := by rintro rfl; exact hnp j hv
          simp only [Option.bind_some, upd_other _ _ this]

/-- **C57** In every history in which no message is overwritten while it is shared, everything that is
allocated is referred to: each token in use is held by a port, action, event, copy list or reaction, its
count is the number of those references, and each payload belongs to such a token. `_partial`: without
`NotShared` it is false, see the next two theorems. -/
theorem C57_no_leak_partial (n : Nat) (ops : List Op)
    (h : Follows (fun s o => BinHasRoom s o ∧ NotShared s o) (start n) ops) :
    ∃ s, s = run (start n) ops ∧
      (∀ k, (s.tok k).st = .live → Held s k ∧ ∃ l, Chain s.nxt s.copies l ∧
        (s.tok k).rc = s.tmpl.count (some k) + s.queue.count k + l.count k) ∧
      (∀ p, s.pay p ≠ none → ∃ k, Held s k ∧ (s.tok k).val = some p) := by
  refine ⟨_, rfl, ?_⟩
  obtain ⟨L, hi, ht⟩ := tight_run (start_inv n) (tight_start n) ops h
  have hl : ∀ k, ((run (start n) ops).tok k).st = .live → Held (run (start n) ops) k ∧
      ∃ l, Chain (run (start n) ops).nxt (run (start n) ops).copies l ∧
        ((run (start n) ops).tok k).rc = (run (start n) ops).tmpl.count (some k) + (run (start n) ops).queue.count k + l.count k := by
    intro k hk
    have h1 := ht.up k hk
    have h2 := hi.mem.count k
    refine ⟨?_, L, hi.chain, by simp only [hold] at h1 h2; omega⟩
    by_cases hr : ((run (start n) ops).tok k).rc = 0
    · exact Or.inr (Or.inr (Or.inr (ht.zero k hk hr)))
    · simp only [hold] at h1
      by_cases ha : 0 < (run (start n) ops).tmpl.count (some k)
      · exact Or.inl (List.count_pos_iff.mp ha)
      · by_cases hb : 0 < (run (start n) ops).queue.count k
        · exact Or.inr (Or.inl (List.count_pos_iff.mp hb))
        · exact Or.inr (Or.inr (Or.inl ⟨L, hi.chain, List.count_pos_iff.mp (by omega)⟩))
  refine ⟨hl, fun p hp => ?_⟩
  rcases ht.own p hp with hx | ⟨k, hk⟩
  · cases hx
  · refine ⟨k, (hl k ?_).1, hk⟩
    by_contra hx
    rw [hi.dead_val hx] at hk; cases hk

/-- **C57** In particular, once nothing is referred to, nothing is allocated. -/
theorem C57_all_released (n : Nat) (ops : List Op)
    (h : Follows (fun s o => BinHasRoom s o ∧ NotShared s o) (start n) ops) :
    ∃ s, s = run (start n) ops ∧
      ((∀ k, ¬ Held s k) → (∀ k, (s.tok k).st ≠ .live) ∧ ∀ p, s.pay p = none) := by
  obtain ⟨s, hs, h1, h2⟩ := C57_no_leak_partial n ops h
  refine ⟨s, hs, fun hn => ⟨fun k hk => hn k (h1 k hk).1, fun p => ?_⟩⟩
  by_contra hp
  obtain ⟨k, hk, _⟩ := h2 p hp
  exact hn k hk

/-- **C57**, what does not hold: scheduling a value twice on the same action before the first event is
handled leaves a payload allocated that nothing refers to any more, after both events were handled and
the action was cleared. -/
theorem C57_second_scheduled_value_leaks : ∃ ops, Follows BinHasRoom (start 1) ops ∧
    ∃ s, s = run (start 1) ops ∧ s.queue = [] ∧ s.tmpl = [none] ∧ s.user = [] ∧ s.copies = none ∧
      (s.tok 1).st = .live ∧ (s.tok 1).rc = 1 ∧ content s 1 = some 8 := by
  refine ⟨[.initTemplate 0 0, .scheduleValue 0 0 7 1 true, .scheduleValue 0 0 8 1 true,
    .popEvent 0 0, .popEvent 0 1, .popNull 0], ?_, _, rfl, ?_⟩
  · refine ⟨?_, trivial, ?_, trivial, ?_, trivial, ⟨?_, ?_⟩, trivial, ⟨?_, ?_⟩, trivial, ?_, trivial, trivial⟩ <;> (try unfold Allowed) <;> decide
  · decide

/-- **C57**, what does not hold: setting an output whose previous message is still referred to from
elsewhere overwrites the reference without releasing it; the message is never freed. -/
theorem C57_set_on_shared_message_leaks : ∃ ops, Follows BinHasRoom (start 2) ops ∧
    ∃ s, s = run (start 2) ops ∧ s.queue = [] ∧ s.tmpl = [none, none] ∧ s.user = [] ∧ s.copies = none ∧
      (s.tok 0).st = .live ∧ (s.tok 0).rc = 1 ∧ content s 0 = some 7 := by
  refine ⟨[.initTemplate 0 0, .set 0 0 7 1, .setToken 1 0, .set 0 0 8 1, .popNull 0, .popNull 1], ?_, _, rfl, ?_⟩
  · refine ⟨?_, trivial, ?_, trivial, ⟨?_, Or.inl ?_⟩, trivial, ?_, trivial, ?_, trivial, ?_, trivial, trivial⟩ <;> (try unfold Allowed) <;> decide
  · decide

/-! ## A history meeting the hypotheses -/

/-- A reaction creates a token, sends it on port 0 and schedules it; another one takes a writable copy;
the event is handled; the tag ends. -/
def demo : List Op :=
  [.initTemplate 0 0, .initTemplate 1 0, .newToken 0 42 3, .setToken 0 2, .scheduleToken 2 true,
   .writableCopy 0 0 ⟨8, false, 2⟩, .popEvent 1 2, .newTag]

theorem demo_follows : Follows BinHasRoom (start 2) demo := by
  refine ⟨?_, trivial, ?_, trivial, trivial, trivial, ⟨?_, Or.inr (Or.inr (Or.inr ?_))⟩, trivial, Or.inl ?_, trivial,
    ⟨?_, ?_⟩, trivial, ⟨?_, ?_⟩, trivial, trivial, ?_, trivial⟩
  any_goals (first | decide | (unfold Allowed; decide))
  · intro l hl
    have hx : Chain (run (start 2) (demo.take 7)).nxt (run (start 2) (demo.take 7)).copies [0] := by
      have hcp : (run (start 2) (demo.take 7)).copies = some 0 := by decide
      rw [hcp]
      refine .cons ?_
      have hnx : (run (start 2) (demo.take 7)).nxt 0 = none := by decide
      rw [hnx]; exact .nil
    have := hl.functional hx
    subst this
    decide

/-- A history for C57, with a value set and a value scheduled. -/
def demo2 : List Op := [.initTemplate 0 0, .set 0 0 7 1, .scheduleValue 0 0 8 1 true, .popEvent 0 0, .popNull 0]

theorem demo2_follows : Follows (fun s o => BinHasRoom s o ∧ NotShared s o) (start 1) demo2 := by
  refine ⟨?_, ⟨trivial, trivial⟩, ?_, ⟨trivial, ?_⟩, ?_, ⟨trivial, 0, ?_, ?_⟩, ⟨?_, ?_⟩, ⟨trivial, trivial⟩, ?_, ⟨trivial, trivial⟩, trivial⟩
  any_goals (first | decide | (unfold Allowed; decide) | (unfold NotShared; decide))

example : ∃ s, s = run (start 1) demo2 ∧ (s.tok 0).st = .bin ∧ s.pay 0 = none ∧ s.pay 1 = none ∧ s.nPay = 2 := by
  refine ⟨_, rfl, ?_⟩; decide

example : ∃ s, s = run (start 2) demo ∧ s.fault = false ∧
    ∀ k, Held s k → (s.tok k).st = .live ∧ k ∉ s.bin ∧ ∀ p, (s.tok k).val = some p → s.pay p ≠ none :=
  C21_no_dangling_reference_partial 2 demo demo_follows

/-- At the end the message is at both ports, counted twice, and the copy is in the recycling bin. -/
example : ∃ s, s = run (start 2) demo ∧ s.tmpl = [some 2, some 2] ∧ (s.tok 2).rc = 2 ∧ content s 2 = some 42 ∧
    (s.tok 0).st = .bin := by
  refine ⟨_, rfl, ?_⟩; decide

/-- The copy taken in `demo` is the third kind in C22. -/
example : ∃ s, s = run (start 2) (demo.take 5) ∧ tmplTok s 0 = some 2 ∧ content s 2 = some 42 ∧
    (writableCopy s 0 0 ⟨8, false, 2⟩).2 = some 0 ∧ content (writableCopy s 0 0 ⟨8, false, 2⟩).1 0 = some 42 := by
  refine ⟨_, rfl, ?_⟩; decide

end ReactorC.Token
