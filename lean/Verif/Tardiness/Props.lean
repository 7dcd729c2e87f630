import Verif.Tardiness.Inv

/-! # C70: who is told that a message is tardy -/

namespace ReactorC.Tardiness

/-- A worker takes a reaction from the queue. -/
theorem Inv.take {p : Program} {x : Inst} {s : State} {r : Nat} (h : Inv p x [] s) (hr : r ∈ s.queue) (l : List (Nat × Kind))
    (hl : ∀ e ∈ l, Due p x e.1 e.2) :
    Inv p x [r] { s with queue := s.queue.erase r, done := r :: s.done, log := s.log ++ l } := by
  have hme : ∀ q, q ∈ s.queue.erase r ↔ q ∈ s.queue ∧ q ≠ r := fun q => by
    rw [h.once.1.mem_erase_iff]; exact and_comm
  refine ⟨?_, ?_, ?_, ?_, ?_, ?_, ?_⟩
  · intro q hf
    obtain ⟨a, b⟩ := h.mark q hf
    refine ⟨a, ?_⟩
    by_cases hq : q = r
    · exact Or.inr (by rw [hq]; exact List.mem_cons_self)
    · exact Or.inl ((hme q).2 ⟨b.resolve_right (fun h => by cases h), hq⟩)
  · intro q hq ho; exact h.wait q ((hme q).1 hq).1 ho
  · intro e he
    rcases List.mem_append.1 he with he | he
    · exact h.log e he
    · exact hl e he
  · have up : ∀ q, (q ∈ x.popped.map (·.1) ∨ q ∈ x.later ∨ ∃ r ∈ s.done, ∃ k, q ∈ x.prod r k) →
        q ∈ x.popped.map (·.1) ∨ q ∈ x.later ∨ ∃ r' ∈ r :: s.done, ∃ k, q ∈ x.prod r' k := by
      rintro q (h | h | ⟨r, hr, h⟩)
      · exact Or.inl h
      · exact Or.inr (Or.inl h)
      · exact Or.inr (Or.inr ⟨r, List.mem_cons_of_mem _ hr, h⟩)
    rintro q (hq | hq)
    · exact up q (h.src q (Or.inl ((hme q).1 hq).1))
    · rcases List.mem_cons.1 hq with hq | hq
      · rw [hq]; exact up r (h.src r (Or.inl hr))
      · exact up q (h.src q (Or.inr hq))
  · intro q hq
    by_cases hqr : q = r
    · exact Or.inr (by rw [hqr]; exact List.mem_cons_self)
    · rcases h.ev q hq with h1 | h1
      · exact Or.inl ((hme q).2 ⟨h1, hqr⟩)
      · exact Or.inr (List.mem_cons_of_mem _ h1)
  · refine ⟨h.once.1.erase _, fun q hq => ?_⟩
    obtain ⟨h1, h2⟩ := (hme q).1 hq
    rw [List.mem_cons, not_or]
    exact ⟨h2, h.once.2 q h1⟩
  · intro q hq hS k hk hdl
    rw [List.mem_singleton] at hS
    obtain ⟨a, b⟩ := h.all q ((List.mem_cons.1 hq).resolve_left hS) (fun h => by cases h) k hk hdl
    refine ⟨List.mem_append_left _ a, fun d hd => ?_⟩
    by_cases hdr : d = r
    · exact Or.inr (by rw [hdr]; exact List.mem_cons_self)
    · rcases b d hd with h1 | h1
      · exact Or.inl ((hme d).2 ⟨h1, hdr⟩)
      · exact Or.inr (List.mem_cons_of_mem _ h1)

theorem Inv.work {p : Program} {x : Inst} (hs : Simple p x) {n : Nat} (hB : ∀ r, p.level r ≤ n) {s : State} {r : Nat}
    (h : Inv p x [] s) (hr : r ∈ s.queue) : Inv p x [] (work p x n s r) := by
  have hnq : r ∉ s.queue.erase r := by rw [h.once.1.mem_erase_iff]; exact fun h => h.1 rfl
  have hnew : ∀ k d, d ∈ x.prod r k → d ∉ s.queue.erase r ∧ d ∉ r :: s.done := by
    intro k d hd
    have hne : d ≠ r := fun hx => by have := hs.forward r k d hd; rw [hx] at this; omega
    have key : ¬ (d ∈ s.queue ∨ d ∈ s.done) := by
      intro hx
      rcases h.src d hx with hx | hx | ⟨r', hr', k', hx⟩
      · exact (hs.direct r k d hd).1 hx
      · exact (hs.direct r k d hd).2 hx
      · have := hs.one r' k' r k d hx hd
        rw [this] at hr'; exact h.once.2 r hr hr'
    rw [not_or] at key
    refine ⟨fun hx => key.1 (List.mem_of_mem_erase hx), ?_⟩
    rw [List.mem_cons, not_or]; exact ⟨hne, key.2⟩
  have hflag : s.flag r = true ↔ Owed p x r := ⟨fun hf => (h.mark r hf).1, h.wait r hr⟩
  -- after the outputs have been scheduled
  have after : ∀ (k : Kind) (s1 : State), Due p x r k → Inv p x [r] s1 → s1.queue = s.queue.erase r → s1.done = r :: s.done →
      (s1.flag r = true ↔ Marks p x r) → (r, k) ∈ s1.log → Inv p x [] { out p x n s1 r k with flag := set (out p x n s1 r k).flag r false } := by
    intro k s1 hk h1 hq hd hf hl
    have e := out_post hs hB n s1 [r] r k (by omega) h1 List.mem_cons_self (by rw [hd]; exact List.mem_cons_self) hk hf
      (by rw [hq, hd]; exact hnew)
    refine e.inv.finish ?_ ?_
    · intro hx
      rcases e.clear r hx with hx | hx
      · rw [hq] at hx; exact hnq hx
      · omega
    · intro k' hk' _
      have := hk'.kind hk
      subst this
      exact ⟨e.log _ hl, e.en⟩
  unfold Tardiness.work
  dsimp only
  cases hm : x.missed r with
  | true =>
    rw [if_pos rfl]
    have hkd : Due p x r .deadline := Or.inl ⟨hm, rfl⟩
    have hno : ¬ Owed p x r := fun ho => by have := hs.intime r ho; rw [hm] at this; cases this
    have hfr : s.flag r = false := by
      cases hf : s.flag r with
      | false => rfl
      | true => exact absurd (hflag.1 hf) hno
    cases hdh : p.dlHandler r with
    | true =>
      rw [if_pos rfl]
      have h1 := h.take hr [(r, .deadline)] (fun e he => by rw [List.mem_singleton] at he; subst he; exact hkd)
      have e := out_post hs hB n { s with queue := s.queue.erase r, done := r :: s.done, log := s.log ++ [(r, .deadline)] } [r] r .deadline
        (by omega) h1 List.mem_cons_self List.mem_cons_self hkd
        (by show s.flag r = true ↔ _; rw [hflag]; exact ⟨fun ho => absurd ho hno, fun hx => absurd hx.1 hno⟩) hnew
      -- the mark is not cleared, but there is none
      generalize out p x n _ r .deadline = s' at e
      have hf' : s'.flag r = false := by
        cases hf : s'.flag r with
        | false => rfl
        | true => exact absurd (e.inv.mark r hf).1 hno
      have := e.inv.finish (r := r) (S := []) (by
        intro hx
        rcases e.clear r hx with hx | hx
        · exact hnq hx
        · omega) (by
        intro k' hk' _
        have := hk'.kind hkd
        subst this
        exact ⟨e.log _ (List.mem_append_right _ List.mem_cons_self), e.en⟩)
      have hse : set s'.flag r false = s'.flag := by
        funext q
        by_cases hq : q = r
        · rw [hq, set_self, hf']
        · rw [set_other _ _ hq]
      rw [hse] at this
      exact this
    | false =>
      rw [if_neg (by simp)]
      have h1 := h.take hr [] (fun e he => by cases he)
      rw [List.append_nil] at h1
      have := h1.finish (r := r) (S := []) hnq (by
        intro k' hk' hdl
        have := hk'.kind hkd
        subst this
        have := hdl rfl
        rw [hdh] at this; cases this)
      have hse : set s.flag r false = s.flag := by
        funext q
        by_cases hq : q = r
        · rw [hq, set_self, hfr]
        · rw [set_other _ _ hq]
      dsimp only at this
      rw [hse] at this
      exact this
  | false =>
    rw [if_neg (by simp)]
    by_cases hb : (s.flag r && !p.input r && p.handler r) = true
    · rw [if_pos hb]
      simp only [Bool.and_eq_true, Bool.not_eq_true'] at hb
      obtain ⟨⟨b1, b2⟩, b3⟩ := hb
      have hkd : Due p x r .stp := Or.inr (Or.inl ⟨hm, hflag.1 b1, b3, b2, rfl⟩)
      have h1 := h.take hr [(r, .stp)] (fun e he => by rw [List.mem_singleton] at he; subst he; exact hkd)
      refine after .stp _ hkd ?_ rfl rfl ?_ (List.mem_append_right _ List.mem_cons_self)
      · refine ⟨fun q hq => ?_, fun q hq ho => ?_, h1.log, h1.src, h1.ev, h1.once, h1.all⟩
        · by_cases hqr : q = r
          · rw [hqr] at hq
            replace hq : set s.flag r false r = true := hq
            rw [set_self] at hq; cases hq
          · replace hq : set s.flag r false q = true := hq
            rw [set_other _ _ hqr] at hq
            exact h1.mark q hq
        · show set s.flag r false q = true
          rw [set_other _ _ (fun hx => by rw [hx] at hq; exact hnq hq)]
          exact h1.wait q hq ho
      · show set s.flag r false r = true ↔ _
        rw [set_self]
        refine ⟨fun h => (by cases h), fun hx => ?_⟩
        have := hx.body hs hkd
        cases this
    · rw [if_neg hb]
      have hnb : ¬ (Owed p x r ∧ p.handler r = true ∧ p.input r = false) := by
        rintro ⟨a, b, c⟩
        apply hb
        rw [hflag.2 a, b, c]; rfl
      have hkd : Due p x r .body := Or.inr (Or.inr ⟨hm, hnb, rfl⟩)
      have h1 := h.take hr [(r, .body)] (fun e he => by rw [List.mem_singleton] at he; subst he; exact hkd)
      refine after .body _ hkd h1 rfl rfl ?_ (List.mem_append_right _ List.mem_cons_self)
      show s.flag r = true ↔ _
      rw [hflag]
      refine ⟨fun ho => ⟨ho, ?_⟩, fun h => h.1⟩
      cases hh : p.handler r with
      | false => exact Or.inl rfl
      | true =>
        cases hi : p.input r with
        | true => exact Or.inr rfl
        | false => exact absurd ⟨ho, hh, hi⟩ hnb

/-- The events of a tag, one after the other. -/
theorem popped_all (l : List (Nat × Bool)) : ∀ (s : State), (l.map (·.1)).Nodup → s.queue.Nodup →
    (∀ e ∈ l, e.1 ∉ s.queue) →
    (∀ r, (l.foldl pop s).flag r = true ↔ s.flag r = true ∨ (r, true) ∈ l) ∧
    (∀ q, q ∈ (l.foldl pop s).queue ↔ q ∈ s.queue ∨ q ∈ l.map (·.1)) ∧ (l.foldl pop s).queue.Nodup ∧
    (l.foldl pop s).done = s.done ∧ (l.foldl pop s).log = s.log := by
  induction l with
  | nil => intro s _ hn _; exact ⟨fun r => by simp, fun q => by simp, hn, rfl, rfl⟩
  | cons e l ih =>
    intro s hnd hn hq
    rw [List.map_cons, List.nodup_cons] at hnd
    have he := hq e List.mem_cons_self
    have hpop : pop s e = { s with flag := if e.2 then set s.flag e.1 true else s.flag, queue := s.queue ++ [e.1] } := by
      unfold pop; rw [if_neg he]
    have hn' : (s.queue ++ [e.1]).Nodup := List.nodup_append.2 ⟨hn, List.nodup_singleton _, fun a ha b hb => by
      rw [List.mem_singleton] at hb; rw [hb]; rintro rfl; exact he ha⟩
    rw [List.foldl_cons, hpop]
    obtain ⟨i1, i2, i3, i4, i5⟩ := ih { s with flag := if e.2 then set s.flag e.1 true else s.flag, queue := s.queue ++ [e.1] }
      hnd.2 hn' (by
        intro f hf hx
        rcases List.mem_append.1 hx with hx | hx
        · exact hq f (List.mem_cons_of_mem _ hf) hx
        · rw [List.mem_singleton] at hx
          exact hnd.1 (by rw [← hx]; exact List.mem_map_of_mem hf))
    refine ⟨fun r => ?_, fun q => ?_, i3, i4, i5⟩
    · rw [i1 r, List.mem_cons]
      dsimp only
      obtain ⟨a, b⟩ := e
      cases b with
      | false => simp
      | true =>
        simp only [if_true, Prod.mk.injEq, and_true]
        by_cases hra : r = a
        · subst hra; rw [set_self]; simp
        · rw [set_other _ _ hra]; simp [hra]
    · rw [i2 q, List.map_cons]
      simp [or_assoc]

theorem Inv.begin {p : Program} {x : Inst} (hs : Simple p x) {s : State} (hf : ∀ r, s.flag r = false) :
    Inv p x [] (begin x s) := by
  have hnd := List.nodup_append.1 hs.events
  obtain ⟨a1, a2, a3, a4, a5⟩ := popped_all x.popped { s with queue := [], done := [], log := [] } hnd.1 List.nodup_nil
    (fun _ _ h => by cases h)
  unfold Tardiness.begin
  generalize x.popped.foldl pop { s with queue := [], done := [], log := [] } = s' at *
  dsimp only at a1 a2 a4 a5
  have hq : ∀ q, q ∈ s'.queue ↔ q ∈ x.popped.map (·.1) := fun q => by rw [a2 q]; simp
  have hfl : ∀ r, s'.flag r = true ↔ (r, true) ∈ x.popped := fun r => by rw [a1 r, hf r]; simp
  refine ⟨?_, ?_, ?_, ?_, ?_, ?_, ?_⟩
  · intro r hr
    have := (hfl r).1 hr
    exact ⟨.direct this, Or.inl ((hq r).2 (List.mem_map.2 ⟨_, this, rfl⟩))⟩
  · intro r hr ho
    cases ho with
    | direct h => exact (hfl r).2 h
    | via _ _ h => exact absurd ((hq r).1 hr) (hs.direct _ _ _ h).1
  · rw [a5]; intro e he; cases he
  · intro q hx
    rw [a4] at hx
    rcases hx with hx | hx
    · exact Or.inl ((hq q).1 hx)
    · cases hx
  · intro q hx; exact Or.inl ((hq q).2 hx)
  · rw [a4]; exact ⟨a3, fun _ _ h => by cases h⟩
  · rw [a4]; intro r hr; cases hr

theorem reach_inv {p : Program} {n : Nat} (hB : ∀ r, p.level r ≤ n) {x : Inst} {s : State}
    (h : Reach p n (Simple p) x s) : Simple p x ∧ Inv p x [] s := by
  induction h with
  | first hx => exact ⟨hx, Inv.begin hx (fun _ => rfl)⟩
  | @step x s s' _ st ih =>
    refine ⟨ih.1, ?_⟩
    cases st with
    | work hr _ => exact ih.2.work ih.1 hB hr
    | @insert r hr hq hd =>
      have hs := ih.1
      have h := ih.2
      have hno : ¬ Owed p x r := by
        intro ho
        cases ho with
        | direct ho => exact (List.nodup_append.1 hs.events).2.2 r (List.mem_map.2 ⟨_, ho, rfl⟩) r hr rfl
        | via _ _ ho => exact (hs.direct _ _ _ ho).2 hr
      refine ⟨?_, ?_, h.log, ?_, ?_, ?_, ?_⟩
      · intro q hf
        by_cases hqr : q = r
        · rw [hqr] at hf
          replace hf : set s.flag r false r = true := hf
          rw [set_self] at hf; cases hf
        · replace hf : set s.flag r false q = true := hf
          rw [set_other _ _ hqr] at hf
          obtain ⟨a, b⟩ := h.mark q hf
          exact ⟨a, b.imp_left (List.mem_append_left _)⟩
      · intro q hm ho
        have hqr : q ≠ r := fun hx => hno (by rw [← hx]; exact ho)
        show set s.flag r false q = true
        rw [set_other _ _ hqr]
        rcases List.mem_append.1 hm with hm | hm
        · exact h.wait q hm ho
        · exact absurd (List.mem_singleton.1 hm) hqr
      · rintro q (hm | hm)
        · rcases List.mem_append.1 hm with hm | hm
          · exact h.src q (Or.inl hm)
          · rw [List.mem_singleton.1 hm]; exact Or.inr (Or.inl hr)
        · exact h.src q (Or.inr hm)
      · intro q hm; exact (h.ev q hm).imp_left (List.mem_append_left _)
      · refine ⟨List.nodup_append.2 ⟨h.once.1, List.nodup_singleton _, fun a ha b hb => ?_⟩, fun q hm => ?_⟩
        · rw [List.mem_singleton] at hb; rw [hb]; rintro rfl; exact hq ha
        · rcases List.mem_append.1 hm with hm | hm
          · exact h.once.2 q hm
          · rw [List.mem_singleton.1 hm]; exact hd
      · intro q hm hS k hk hdl
        obtain ⟨a, b⟩ := h.all q hm hS k hk hdl
        exact ⟨a, fun d hd => (b d hd).imp_left (List.mem_append_left _)⟩
  | @next x y s _ hq hy ih =>
    refine ⟨hy, Inv.begin hy fun r => ?_⟩
    cases hf : s.flag r with
    | false => rfl
    | true =>
      obtain ⟨_, h1 | h1⟩ := ih.2.mark r hf
      · rw [hq] at h1; cases h1
      · cases h1

/-! ## The property -/

/-- **C70** (part) At every tag, what is invoked for a reaction is what is due: the tardiness handler exactly for the reactions
to which a tardy message matters, directly or passed on by reactions without a handler; otherwise the body (or the handler of a
missed deadline). Restricted to simple programs; see the theorems below for what happens in others. -/
theorem C70_invoked_as_due_partial (p : Program) (n : Nat) (hB : ∀ r, p.level r ≤ n) (x : Inst) (s : State)
    (h : Reach p n (Simple p) x s) (r : Nat) (k : Kind) (hl : (r, k) ∈ s.log) : Due p x r k :=
  (reach_inv hB h).2.log _ hl

/-- **C70** (part) At the end of a tag, what is due has been invoked for every reaction that was triggered. -/
theorem C70_all_invoked_partial (p : Program) (n : Nat) (hB : ∀ r, p.level r ≤ n) (x : Inst) (s : State)
    (h : Reach p n (Simple p) x s) (hq : s.queue = []) (r : Nat) (ht : Triggered p x r) (k : Kind) (hk : Due p x r k)
    (hd : k = .deadline → p.dlHandler r = true) : (r, k) ∈ s.log := by
  obtain ⟨_, hi⟩ := reach_inv hB h
  have key : ∀ r, Triggered p x r → r ∈ s.done := by
    intro r ht
    induction ht with
    | @event r b he =>
      rcases hi.ev r (List.mem_map.2 ⟨_, he, rfl⟩) with h1 | h1
      · rw [hq] at h1; cases h1
      · exact h1
    | @enabled r d k _ hk hdl hd' ih =>
      rcases (hi.all r ih (fun h => by cases h) k hk hdl).2 d hd' with h1 | h1
      · rw [hq] at h1; cases h1
      · exact h1
  exact (hi.all r (key r ht) (fun h => by cases h) k hk hd).1

/-! ### Without restrictions -/

theorem fan_unmarked (p : Program) (r : Nat) (ds : List Nat) : ∀ (s : State) (cand : Option Nat) (num : Nat),
    (∀ q, s.flag q = false) →
    (∀ q, (fan p r false ds s cand num).1.flag q = false) ∧ (fan p r false ds s cand num).1.log = s.log := by
  induction ds with
  | nil => intro s cand num h; exact ⟨h, rfl⟩
  | cons d ds ih =>
    intro s cand num h
    have h1 : ∀ q, set s.flag d false q = false := by
      intro q; unfold set; split
      · rfl
      · exact h q
    unfold fan
    dsimp only
    split
    · exact ih { s with flag := set s.flag d false } cand num h1
    · split
      · exact ih { s with flag := set s.flag d false } (some d) 1 h1
      · obtain ⟨e1, _, e3⟩ := enqueue_same (requeue { s with flag := set s.flag d false } cand) d
        have e4 : (requeue { s with flag := set s.flag d false } cand).flag = set s.flag d false ∧
            (requeue { s with flag := set s.flag d false } cand).log = s.log := by
          cases cand with
          | none => exact ⟨rfl, rfl⟩
          | some c =>
            obtain ⟨a, _, b⟩ := enqueue_same { s with flag := set s.flag d false } c
            exact ⟨a, b⟩
        obtain ⟨i1, i2⟩ := ih (enqueue (requeue { s with flag := set s.flag d false } cand) d) none (num + 1) (by
          rw [e1, e4.1]; exact h1)
        exact ⟨i1, by rw [i2, e3, e4.2]⟩

def Unmarked (s : State) : Prop := (∀ q, s.flag q = false) ∧ ∀ e ∈ s.log, e.2 ≠ .stp

theorem out_unmarked (p : Program) (x : Inst) (n : Nat) : ∀ (s : State) (r : Nat) (k : Kind), Unmarked s →
    Unmarked (out p x n s r k) := by
  induction n with
  | zero =>
    intro s r k h
    unfold out
    rw [h.1 r]
    obtain ⟨a, b⟩ := fan_unmarked p r (x.prod r k) s none 0 h.1
    exact ⟨a, by rw [b]; exact h.2⟩
  | succ n ih =>
    intro s r k h
    obtain ⟨a, b⟩ := fan_unmarked p r (x.prod r k) s none 0 h.1
    unfold out
    rw [h.1 r]
    generalize fan p r false (x.prod r k) s none 0 = F at *
    obtain ⟨s1, cand⟩ := F
    dsimp only at a b
    cases cand with
    | none => exact ⟨a, by dsimp only; rw [b]; exact h.2⟩
    | some d =>
      dsimp only
      simp only [a d, Bool.false_and, Bool.false_eq_true, if_false, Bool.not_false, Bool.true_and]
      have ext : ∀ (s : State) (k : Kind), Unmarked s → k ≠ .stp → Unmarked { s with log := s.log ++ [(d, k)] } := by
        intro s k h hk
        refine ⟨h.1, fun e he => ?_⟩
        rcases List.mem_append.1 he with he | he
        · exact h.2 e he
        · rw [List.mem_singleton] at he; subst he; exact hk
      have h1 : Unmarked { s1 with done := d :: s1.done } := ⟨a, by show ∀ e ∈ s1.log, _; rw [b]; exact h.2⟩
      have clr : ∀ s : State, Unmarked s → Unmarked { s with flag := set s.flag d false } := by
        intro s h
        refine ⟨fun q => ?_, h.2⟩
        show set s.flag d false q = false
        unfold set; split
        · rfl
        · exact h.1 q
      apply clr
      have h2 : Unmarked (if (x.missed d && p.dlHandler d) = true then
          out p x n { s1 with done := d :: s1.done, log := s1.log ++ [(d, .deadline)] } d .deadline
          else { s1 with done := d :: s1.done }) := by
        split
        · exact ih _ _ _ (ext _ _ h1 (by decide))
        · exact h1
      split
      · exact ih _ _ _ (ext _ _ h2 (by decide))
      · exact h2

theorem work_unmarked (p : Program) (x : Inst) (n : Nat) (s : State) (r : Nat) (h : Unmarked s) :
    Unmarked (work p x n s r) := by
  have ext : ∀ (s : State) (k : Kind), Unmarked s → k ≠ .stp → Unmarked { s with log := s.log ++ [(r, k)] } := by
    intro s k h hk
    refine ⟨h.1, fun e he => ?_⟩
    rcases List.mem_append.1 he with he | he
    · exact h.2 e he
    · rw [List.mem_singleton] at he; subst he; exact hk
  have h1 : Unmarked { s with queue := s.queue.erase r, done := r :: s.done } := h
  unfold work
  dsimp only
  split
  · split
    · exact out_unmarked _ _ _ _ _ _ (ext _ _ h1 (by decide))
    · exact h1
  · rw [h.1 r, Bool.false_and, Bool.false_and, if_neg (by simp)]
    have := out_unmarked p x n _ r .body (ext _ .body h1 (by decide))
    refine ⟨fun q => ?_, this.2⟩
    unfold set
    dsimp only
    split
    · rfl
    · exact this.1 q

/-- **C70** If no message is tardy then no tardiness handler is ever invoked, whatever the program. -/
theorem C70_no_tardy_message_no_handler (p : Program) (n : Nat) (x : Inst) (s : State)
    (h : Reach p n (fun y => ∀ e ∈ y.popped, e.2 = false) x s) (r : Nat) : (r, .stp) ∉ s.log := by
  have hb : ∀ (y : Inst) (s : State), (∀ e ∈ y.popped, e.2 = false) → (∀ q, s.flag q = false) → Unmarked (begin y s) := by
    intro y s hy hf
    unfold begin
    have : ∀ (l : List (Nat × Bool)) (s : State), (∀ e ∈ l, e.2 = false) → Unmarked s → Unmarked (l.foldl pop s) := by
      intro l
      induction l with
      | nil => intro s _ h; exact h
      | cons e l ih =>
        intro s hl h
        rw [List.foldl_cons]
        refine ih _ (fun f hf => hl f (List.mem_cons_of_mem _ hf)) ?_
        unfold pop
        split
        · exact h
        · rw [hl e List.mem_cons_self]; exact h
    exact this _ _ hy ⟨hf, fun _ h => by cases h⟩
  have key : Unmarked s := by
    induction h with
    | first hx => exact hb _ _ hx (fun _ => rfl)
    | step _ st ih =>
      cases st with
      | work _ _ => exact work_unmarked _ _ _ _ _ ih
      | @insert r _ _ _ =>
        refine ⟨fun q => ?_, ih.2⟩
        unfold set
        dsimp only
        split
        · rfl
        · exact ih.1 q
    | next _ _ hy ih => exact hb _ _ hy ih.1
  exact fun hm => key.2 _ hm rfl

/-! ### Examples and limits -/

/-- Reactions 0 and 1 receive messages from the network. Reaction 2, of the next level, has a tardiness handler and is enabled
by 0 or 1. Reaction 3 also has one and is enabled by 2. -/
def prog (chain : Bool) : Program where
  level := fun r => if r < 2 then 0 else if r = 2 then 1 else if r = 3 then 2 else 0
  handler := fun r => r = 2 || r = 3
  input := fun r => r < 2
  dlHandler := fun r => r = 2
  last := fun r => if chain ∧ r = 3 then some 2 else none

def enables (one : Bool) (r : Nat) (_ : Kind) : List Nat :=
  if r = 0 then [2] else if r = 1 ∧ !one then [2] else if r = 2 then [3] else []

/-- Take the first, or the given, of the reactions on the queue, one after the other. -/
def go (p : Program) (x : Inst) (n : Nat) (s : State) : List Nat → Option State
  | [] => some s
  | r :: rs => if r ∈ s.queue ∧ ∀ q ∈ s.queue, p.level r ≤ p.level q then go p x n (work p x n s r) rs else none

theorem go_reach {p : Program} {n : Nat} {ok : Inst → Prop} {x : Inst} (rs : List Nat) : ∀ {s s' : State}, Reach p n ok x s →
    go p x n s rs = some s' → Reach p n ok x s' := by
  induction rs with
  | nil => intro s s' h hg; cases hg; exact h
  | cons r rs ih =>
    intro s s' h hg
    unfold go at hg
    split at hg
    · rename_i hc; exact ih (.step h (.work hc.1 hc.2)) hg
    · cases hg

theorem go_obs {α : Type} {p : Program} {n : Nat} {ok : Inst → Prop} {x : Inst} {s : State} (f : State → α) (r : α) (rs : List Nat)
    (h : Reach p n ok x s) (hg : (go p x n s rs).map f = some r) : ∃ s', Reach p n ok x s' ∧ f s' = r := by
  cases hr : go p x n s rs with
  | none => rw [hr] at hg; cases hg
  | some s' => rw [hr] at hg; exact ⟨s', go_reach rs h hr, by simpa using hg⟩

/-- The same for two tags. -/
theorem go_next {α : Type} {p : Program} {n : Nat} {ok : Inst → Prop} {x y : Inst} {s : State} (f : State → α) (r : α)
    (rs rs' : List Nat) (h : Reach p n ok x s) (hy : ok y)
    (hg : ((go p x n s rs).bind fun s => if s.queue = [] then (go p y n (begin y s) rs').map f else none) = some r) :
    ∃ s', Reach p n ok y s' ∧ f s' = r := by
  cases hr : go p x n s rs with
  | none => rw [hr] at hg; cases hg
  | some s' =>
    rw [hr, Option.bind_some] at hg
    split at hg
    · rename_i hq
      exact go_obs f r rs' (.next (go_reach rs h hr) hq hy) hg
    · cases hg

/-- A tag with a tardy message for reaction 0. -/
def tagOne : Inst := { popped := [(0, true)], prod := enables true }

theorem simple_one : Simple (prog false) tagOne where
  events := by decide
  direct := by
    intro r k d hd
    simp only [tagOne, enables] at hd ⊢
    split at hd
    · simp at hd; subst hd; decide
    · split at hd
      · rename_i h; simp at h
      · split at hd
        · simp at hd; subst hd; decide
        · cases hd
  one := by
    intro r k r' k' d hd hd'
    simp only [tagOne, enables] at hd hd'
    split at hd <;> split at hd' <;> simp_all
  forward := by
    intro r k d hd
    simp only [tagOne, enables] at hd
    split at hd
    · simp at hd; subst hd; rename_i h; subst h; decide
    · split at hd
      · rename_i h; simp at h
      · split at hd
        · simp at hd; subst hd; rename_i h; subst h; decide
        · cases hd
  intime := fun _ _ => rfl
  unchained := fun d _ => by simp [prog]
  network := by
    intro r k d hd
    simp only [tagOne, enables] at hd
    split at hd
    · simp at hd; subst hd; decide
    · split at hd
      · rename_i h; simp at h
      · split at hd
        · simp at hd; subst hd; decide
        · cases hd

/-- The receiving reaction is executed, the handler of reaction 2 is invoked, and reaction 3 is not concerned. -/
example : ∃ s, Reach (prog false) 4 (Simple (prog false)) tagOne s ∧ (s.log, s.queue) = ([(0, .body), (2, .stp), (3, .body)], []) :=
  go_obs _ _ [0, 2, 3] (.first simple_one) (by decide)

example : ∀ r, (prog false).level r ≤ 4 := by
  intro r
  unfold prog
  dsimp only
  split
  · omega
  · split
    · omega
    · split <;> omega

example : Triggered (prog false) tagOne 2 ∧ Due (prog false) tagOne 2 .stp := by
  have ho : Owed (prog false) tagOne 0 := .direct (by decide)
  have h0 : Due (prog false) tagOne 0 .body := Or.inr (Or.inr ⟨rfl, fun h => (by cases h.2.2), rfl⟩)
  exact ⟨.enabled (.event (b := true) (by decide)) h0 (fun h => by cases h) (by decide),
    Or.inr (Or.inl ⟨rfl, .via ho (Or.inr rfl) (by decide), rfl, rfl, rfl⟩)⟩

/-- Two messages at one tag, for reactions 0 and 1. Only the first one is tardy. -/
def tagTwo : Inst := { popped := [(0, true), (1, false)], prod := enables false }

/-- **C70** (limit) A reaction enabled by a tardy message and by one that is not is told about it only if the receiving
reactions, which are of one level, happen to be executed in one order: the mark is overwritten. Here it is not told ... -/
theorem C70_second_message_hides_tardiness : ∃ s, Reach (prog false) 4 (fun x => x = tagTwo) tagTwo s ∧ s.queue = [] ∧
    Owed (prog false) tagTwo 2 ∧ (2, .body) ∈ s.log ∧ (2, .stp) ∉ s.log := by
  obtain ⟨s, h, ho⟩ := go_obs (p := prog false) (n := 4) (fun s => (s.log, s.queue)) ([(0, .body), (1, .body), (2, .body), (3, .body)], [])
    [0, 1, 2, 3] (.first (ok := fun x => x = tagTwo) rfl) (by decide)
  simp only [Prod.mk.injEq] at ho
  refine ⟨s, h, ho.2, .via (.direct (r := 0) (by decide)) (Or.inr rfl) (by decide), ?_, ?_⟩ <;> rw [ho.1] <;> decide

/-- ... and here it is. -/
theorem C70_order_decides : ∃ s, Reach (prog false) 4 (fun x => x = tagTwo) tagTwo s ∧ s.queue = [] ∧ (2, .stp) ∈ s.log := by
  obtain ⟨s, h, ho⟩ := go_obs (p := prog false) (n := 4) (fun s => (s.log, s.queue)) ([(1, .body), (0, .body), (2, .stp), (3, .body)], [])
    [1, 0, 2, 3] (.first (ok := fun x => x = tagTwo) rfl) (by decide)
  simp only [Prod.mk.injEq] at ho
  exact ⟨s, h, ho.2, by rw [ho.1]; decide⟩

/-- A program in which reaction 2 is always executed in a chain after reaction 0. -/
def progChain : Program := { prog true with last := fun r => if r = 2 then some 0 else none }

/-- **C70** (limit) When a reaction is executed in a chain, its handler deals with the tardy message, but the mark is passed on
nevertheless: the handler of the reaction after it is invoked, too. -/
theorem C70_chain_passes_on_what_is_handled : ∃ s, Reach progChain 4 (fun x => x = tagOne) tagOne s ∧ s.queue = [] ∧
    (2, .stp) ∈ s.log ∧ (3, .stp) ∈ s.log := by
  obtain ⟨s, h, ho⟩ := go_obs (p := progChain) (n := 4) (fun s => (s.log, s.queue)) ([(0, .body), (2, .stp), (3, .stp)], [])
    [0, 3] (.first (ok := fun x => x = tagOne) rfl) (by decide)
  simp only [Prod.mk.injEq] at ho
  exact ⟨s, h, ho.2, by rw [ho.1]; decide, by rw [ho.1]; decide⟩

/-- A tardy message for reaction 0, and the deadline of reaction 2 is missed. -/
def tagMiss : Inst := { popped := [(0, true)], prod := enables true, missed := fun r => r = 2 }

/-- A timer triggers reaction 2, and there is no message. -/
def tagTimer : Inst := { popped := [(2, false)], prod := enables true }

/-- **C70** (limit) When the deadline of a marked reaction is missed the mark is not cleared: at a later tag, without any
message, the tardiness handler is invoked instead of the body. -/
theorem C70_missed_deadline_leaves_the_mark : ∃ s, Reach (prog false) 4 (fun x => x = tagMiss ∨ x = tagTimer) tagTimer s ∧
    s.queue = [] ∧ ¬ Owed (prog false) tagTimer 2 ∧ (2, .stp) ∈ s.log := by
  obtain ⟨s, h, ho⟩ := go_next (p := prog false) (n := 4) (ok := fun x => x = tagMiss ∨ x = tagTimer) (x := tagMiss) (y := tagTimer)
    (fun s => (s.log, s.queue)) ([(2, .stp), (3, .body)], []) [0, 2, 3] [2, 3] (.first (Or.inl rfl)) (Or.inr rfl) (by decide)
  simp only [Prod.mk.injEq] at ho
  refine ⟨s, h, ho.2, ?_, by rw [ho.1]; decide⟩
  intro hO
  have hnone : ∀ r, ¬ Owed (prog false) tagTimer r := by
    intro r hr
    induction hr with
    | @direct r h => simp [tagTimer] at h
    | via _ _ _ ih => exact ih
  exact hnone 2 hO

end ReactorC.Tardiness
