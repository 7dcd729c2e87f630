import Verif.Tardiness.Spec

/-! # Marks are passed on as specified -/

namespace ReactorC.Tardiness

theorem set_self (f : Nat → Bool) (i : Nat) (b : Bool) : set f i b i = b := by unfold set; rw [if_pos rfl]

theorem set_other (f : Nat → Bool) {i j : Nat} (b : Bool) (h : j ≠ i) : set f i b j = f j := by unfold set; rw [if_neg h]

theorem enqueue_queue (s : State) (d q : Nat) : q ∈ (enqueue s d).queue ↔ q ∈ s.queue ∨ q = d := by
  unfold enqueue
  split
  · rename_i h
    constructor
    · exact Or.inl
    · rintro (h' | rfl)
      · exact h'
      · exact h
  · simp

theorem enqueue_nodup (s : State) (d : Nat) (h : s.queue.Nodup) : (enqueue s d).queue.Nodup := by
  unfold enqueue
  split
  · exact h
  · rename_i hd
    exact List.nodup_append.2 ⟨h, List.nodup_singleton _, fun a ha b hb => by
      rw [List.mem_singleton] at hb; subst hb; rintro rfl; exact hd ha⟩

theorem enqueue_same (s : State) (d : Nat) :
    (enqueue s d).flag = s.flag ∧ (enqueue s d).done = s.done ∧ (enqueue s d).log = s.log := by
  unfold enqueue; split <;> exact ⟨rfl, rfl, rfl⟩

/-- The loop over what is enabled. -/
theorem fan_gen (p : Program) (r : Nat) (inh : Bool) (ds : List Nat) : ∀ (s : State) (cand : Option Nat) (num : Nat),
    (cand ≠ none → num ≠ 0) →
    (∀ q, (fan p r inh ds s cand num).1.flag q = if q ∈ ds then inh else s.flag q) ∧
    (fan p r inh ds s cand num).1.done = s.done ∧ (fan p r inh ds s cand num).1.log = s.log ∧
    (((fan p r inh ds s cand num).2 = none ∧
      (∀ q, q ∈ (fan p r inh ds s cand num).1.queue ↔ q ∈ s.queue ∨ q ∈ ds ∨ cand = some q) ∧
      (s.queue.Nodup → (fan p r inh ds s cand num).1.queue.Nodup)) ∨
    (∃ d, (fan p r inh ds s cand num).2 = some d ∧ (fan p r inh ds s cand num).1.queue = s.queue ∧
      ((cand = some d ∧ ∀ e ∈ ds, e = d) ∨ (cand = none ∧ num = 0 ∧ d ∈ ds ∧ p.last d = some r ∧ ∀ e ∈ ds, e = d)))) := by
  induction ds with
  | nil =>
    intro s cand num hc
    unfold fan
    refine ⟨fun q => by simp, rfl, rfl, ?_⟩
    cases cand with
    | none => left; exact ⟨rfl, fun q => by simp, fun h => h⟩
    | some d => right; exact ⟨d, rfl, rfl, Or.inl ⟨rfl, fun _ h => (by cases h)⟩⟩
  | cons d ds ih =>
    intro s cand num hc
    have hflag : ∀ q, (if q ∈ ds then inh else set s.flag d inh q) = if q ∈ d :: ds then inh else s.flag q := by
      intro q
      by_cases h1 : q ∈ ds
      · rw [if_pos h1, if_pos (List.mem_cons_of_mem _ h1)]
      · rw [if_neg h1]
        by_cases h2 : q = d
        · rw [h2, set_self, if_pos List.mem_cons_self]
        · rw [set_other _ _ h2, if_neg (by rw [List.mem_cons, not_or]; exact ⟨h2, h1⟩)]
    unfold fan
    dsimp only
    by_cases h1 : cand = some d
    · rw [if_pos h1]
      obtain ⟨i1, i2, i3, i4⟩ := ih { s with flag := set s.flag d inh } cand num hc
      refine ⟨fun q => by rw [i1 q]; exact hflag q, i2, i3, ?_⟩
      rcases i4 with ⟨j1, j2, j3⟩ | ⟨e, j1, j2, j3⟩
      · left
        refine ⟨j1, fun q => ?_, j3⟩
        rw [j2 q, List.mem_cons, h1]
        simp only [Option.some.injEq]
        constructor
        · rintro (h | h | h)
          · exact Or.inl h
          · exact Or.inr (Or.inl (Or.inr h))
          · exact Or.inr (Or.inr h)
        · rintro (h | (h | h) | h)
          · exact Or.inl h
          · exact Or.inr (Or.inr h.symm)
          · exact Or.inr (Or.inl h)
          · exact Or.inr (Or.inr h)
      · right
        refine ⟨e, j1, j2, ?_⟩
        rcases j3 with ⟨k1, k2⟩ | ⟨k1, _⟩
        · left
          refine ⟨k1, fun f hf => ?_⟩
          rcases List.mem_cons.1 hf with hf | hf
          · rw [h1] at k1; rw [hf]; exact Option.some.inj k1
          · exact k2 f hf
        · rw [h1] at k1; cases k1
    · rw [if_neg h1]
      by_cases h2 : num = 0 ∧ p.last d = some r
      · rw [if_pos h2]
        have hcn : cand = none := by
          by_contra hne
          exact hc hne h2.1
        obtain ⟨i1, i2, i3, i4⟩ := ih { s with flag := set s.flag d inh } (some d) 1 (fun _ => by decide)
        refine ⟨fun q => by rw [i1 q]; exact hflag q, i2, i3, ?_⟩
        rcases i4 with ⟨j1, j2, j3⟩ | ⟨e, j1, j2, j3⟩
        · left
          refine ⟨j1, fun q => ?_, j3⟩
          rw [j2 q, List.mem_cons, hcn]
          simp only [Option.some.injEq, reduceCtorEq, or_false]
          constructor
          · rintro (h | h | h)
            · exact Or.inl h
            · exact Or.inr (Or.inr h)
            · exact Or.inr (Or.inl h.symm)
          · rintro (h | h | h)
            · exact Or.inl h
            · exact Or.inr (Or.inr h.symm)
            · exact Or.inr (Or.inl h)
        · right
          refine ⟨e, j1, j2, Or.inr ⟨hcn, h2.1, ?_⟩⟩
          rcases j3 with ⟨k1, k2⟩ | ⟨k1, _⟩
          · have hde : d = e := Option.some.inj k1
            refine ⟨by rw [hde]; exact List.mem_cons_self, by rw [← hde]; exact h2.2, fun f hf => ?_⟩
            rcases List.mem_cons.1 hf with hf | hf
            · rw [hf, hde]
            · exact k2 f hf
          · cases k1
      · rw [if_neg h2]
        -- what is put on the queue
        obtain ⟨s1, hs1, hq1, hn1, hf1, hd1, hl1⟩ : ∃ s1 : State,
            requeue { s with flag := set s.flag d inh } cand = s1 ∧
            (∀ q, q ∈ s1.queue ↔ q ∈ s.queue ∨ cand = some q) ∧ (s.queue.Nodup → s1.queue.Nodup) ∧
            s1.flag = set s.flag d inh ∧ s1.done = s.done ∧ s1.log = s.log := by
          cases cand with
          | none => exact ⟨{ s with flag := set s.flag d inh }, rfl, fun q => by simp, fun h => h, rfl, rfl, rfl⟩
          | some c =>
            refine ⟨enqueue { s with flag := set s.flag d inh } c, rfl, fun q => ?_, fun h => enqueue_nodup _ _ h, (enqueue_same _ _).1, (enqueue_same _ _).2.1, (enqueue_same _ _).2.2⟩
            rw [enqueue_queue]
            simp only [Option.some.injEq]
            constructor
            · rintro (h | h)
              · exact Or.inl h
              · exact Or.inr h.symm
            · rintro (h | h)
              · exact Or.inl h
              · exact Or.inr h.symm
        rw [hs1]
        obtain ⟨i1, i2, i3, i4⟩ := ih (enqueue s1 d) none (num + 1) (fun h => absurd rfl h)
        obtain ⟨e1, e2, e3⟩ := enqueue_same s1 d
        refine ⟨fun q => ?_, by rw [i2, e2, hd1], by rw [i3, e3, hl1], ?_⟩
        · rw [i1 q, e1, hf1]; exact hflag q
        · rcases i4 with ⟨j1, j2, j3⟩ | ⟨e, j1, j2, j3⟩
          · left
            refine ⟨j1, fun q => ?_, fun h => j3 (enqueue_nodup _ _ (hn1 h))⟩
            rw [j2 q, enqueue_queue, hq1, List.mem_cons]
            simp only [reduceCtorEq, or_false]
            constructor
            · rintro (((h | h) | h) | h)
              · exact Or.inl h
              · exact Or.inr (Or.inr h)
              · exact Or.inr (Or.inl (Or.inl h))
              · exact Or.inr (Or.inl (Or.inr h))
            · rintro (h | (h | h) | h)
              · exact Or.inl (Or.inl (Or.inl h))
              · exact Or.inl (Or.inr h)
              · exact Or.inr h
              · exact Or.inl (Or.inl (Or.inr h))
          · rcases j3 with ⟨k, _⟩ | ⟨_, k, _⟩
            · cases k
            · exact absurd k (by omega)

theorem Due.kind {p : Program} {x : Inst} {r : Nat} {k k' : Kind} (h : Due p x r k) (h' : Due p x r k') : k = k' := by
  rcases h with ⟨a, rfl⟩ | ⟨a, b, c, d, rfl⟩ | ⟨a, b, rfl⟩ <;> rcases h' with ⟨a', rfl⟩ | ⟨a', b', c', d', rfl⟩ | ⟨a', b', rfl⟩
  · rfl
  · rw [a] at a'; cases a'
  · rw [a] at a'; cases a'
  · rw [a] at a'; cases a'
  · rfl
  · exact absurd ⟨b, c, d⟩ b'
  · rw [a] at a'; cases a'
  · exact absurd ⟨b', c', d'⟩ b
  · rfl

/-- The mark of a reaction while its outputs are scheduled. -/
def Marks (p : Program) (x : Inst) (r : Nat) : Prop := Owed p x r ∧ (p.handler r = false ∨ p.input r = true)

theorem Marks.body {p : Program} {x : Inst} (hs : Simple p x) {r : Nat} {k : Kind} (h : Marks p x r) (hd : Due p x r k) :
    k = .body := by
  rcases hd with ⟨a, rfl⟩ | ⟨a, b, c, d, rfl⟩ | ⟨a, b, rfl⟩
  · rw [hs.intime r h.1] at a; cases a
  · rcases h.2 with h | h
    · rw [h] at c; cases c
    · rw [h] at d; cases d
  · rfl

/-- What is enabled by a reaction is marked if the reaction is. -/
theorem owed_iff {p : Program} {x : Inst} (hs : Simple p x) {r d : Nat} {k : Kind} (hk : Due p x r k) (hd : d ∈ x.prod r k) :
    Owed p x d ↔ Marks p x r := by
  constructor
  · intro h
    cases h with
    | direct h => exact absurd (List.mem_map.2 ⟨_, h, rfl⟩) (hs.direct r k d hd).1
    | @via r' _ h1 h2 h3 =>
      have := hs.one r k r' .body d hd h3
      subst this
      exact ⟨h1, h2⟩
  · intro h
    have := h.body hs hk
    subst this
    exact .via h.1 h.2 hd

/-- The state while the reactions in `S` are being executed. -/
structure Inv (p : Program) (x : Inst) (S : List Nat) (s : State) : Prop where
  mark : ∀ r, s.flag r = true → Owed p x r ∧ (r ∈ s.queue ∨ r ∈ S)
  wait : ∀ r ∈ s.queue, Owed p x r → s.flag r = true
  log : ∀ e ∈ s.log, Due p x e.1 e.2
  src : ∀ q, q ∈ s.queue ∨ q ∈ s.done → q ∈ x.popped.map (·.1) ∨ q ∈ x.later ∨ ∃ r ∈ s.done, ∃ k, q ∈ x.prod r k
  ev : ∀ q, q ∈ x.popped.map (·.1) → q ∈ s.queue ∨ q ∈ s.done
  once : s.queue.Nodup ∧ ∀ q ∈ s.queue, q ∉ s.done
  all : ∀ r ∈ s.done, r ∉ S → ∀ k, Due p x r k → (k = .deadline → p.dlHandler r = true) → (r, k) ∈ s.log ∧
    ∀ d ∈ x.prod r k, d ∈ s.queue ∨ d ∈ s.done

/-- A reaction has been executed: its mark is cleared. -/
theorem Inv.finish {p : Program} {x : Inst} {S : List Nat} {s : State} {r : Nat} (h : Inv p x (r :: S) s)
    (hq : r ∉ s.queue)
    (hr : ∀ k, Due p x r k → (k = .deadline → p.dlHandler r = true) → (r, k) ∈ s.log ∧
      ∀ d ∈ x.prod r k, d ∈ s.queue ∨ d ∈ s.done) : Inv p x S { s with flag := set s.flag r false } := by
  refine ⟨?_, ?_, h.log, h.src, h.ev, h.once, ?_⟩
  · intro q hf
    by_cases hqr : q = r
    · rw [hqr] at hf
      replace hf : set s.flag r false r = true := hf
      rw [set_self] at hf; cases hf
    · replace hf : set s.flag r false q = true := hf
      rw [set_other _ _ hqr] at hf
      obtain ⟨a, b⟩ := h.mark q hf
      refine ⟨a, ?_⟩
      rcases b with b | b
      · exact Or.inl b
      · exact Or.inr ((List.mem_cons.1 b).resolve_left hqr)
  · intro q hm ho
    show set s.flag r false q = true
    rw [set_other _ _ (fun e => hq (by rw [← e]; exact hm))]
    exact h.wait q hm ho
  · intro q hd hS k hk hdl
    by_cases hqr : q = r
    · subst hqr; exact hr k hk hdl
    · exact h.all q hd (by rw [List.mem_cons, not_or]; exact ⟨hqr, hS⟩) k hk hdl

theorem Inv.dedup {p : Program} {x : Inst} {S : List Nat} {s : State} {d : Nat} (h : Inv p x (d :: d :: S) s) :
    Inv p x (d :: S) s := by
  have hm : ∀ q, q ∈ d :: d :: S ↔ q ∈ d :: S := by intro q; simp
  refine ⟨fun q hq => ?_, h.wait, h.log, h.src, h.ev, h.once, fun q hq hS => h.all q hq (by rw [hm]; exact hS)⟩
  have := h.mark q hq
  rw [hm] at this
  exact this

/-- A reaction that has been enabled begins to be executed. -/
theorem Inv.enter {p : Program} {x : Inst} {S : List Nat} {s : State} {d : Nat} {k : Kind} (h : Inv p x S s) (hk : Due p x d k)
    (hd : d ∉ s.queue) (hsrc : d ∈ x.popped.map (·.1) ∨ d ∈ x.later ∨ ∃ r ∈ s.done, ∃ k, d ∈ x.prod r k) :
    Inv p x (d :: S) { s with done := d :: s.done, log := s.log ++ [(d, k)] } := by
  refine ⟨?_, h.wait, ?_, ?_, ?_, ?_, ?_⟩
  · intro q hf
    obtain ⟨a, b⟩ := h.mark q hf
    exact ⟨a, b.imp_right (List.mem_cons_of_mem _)⟩
  · intro e he
    rcases List.mem_append.1 he with he | he
    · exact h.log e he
    · rw [List.mem_singleton] at he; subst he; exact hk
  · have up : ∀ q, (q ∈ x.popped.map (·.1) ∨ q ∈ x.later ∨ ∃ r ∈ s.done, ∃ k, q ∈ x.prod r k) →
        q ∈ x.popped.map (·.1) ∨ q ∈ x.later ∨ ∃ r ∈ d :: s.done, ∃ k, q ∈ x.prod r k := by
      rintro q (h | h | ⟨r, hr, h⟩)
      · exact Or.inl h
      · exact Or.inr (Or.inl h)
      · exact Or.inr (Or.inr ⟨r, List.mem_cons_of_mem _ hr, h⟩)
    rintro q (hq | hq)
    · exact up q (h.src q (Or.inl hq))
    · rcases List.mem_cons.1 hq with rfl | hq
      · exact up q hsrc
      · exact up q (h.src q (Or.inr hq))
  · intro q hq
    exact (h.ev q hq).imp_right (List.mem_cons_of_mem _)
  · refine ⟨h.once.1, fun q hq => ?_⟩
    rw [List.mem_cons, not_or]
    exact ⟨fun e => hd (by rw [← e]; exact hq), h.once.2 q hq⟩
  · intro q hq hS k' hk' hdl
    rw [List.mem_cons, not_or] at hS
    obtain ⟨a, b⟩ := h.all q ((List.mem_cons.1 hq).resolve_left hS.1) hS.2 k' hk' hdl
    exact ⟨List.mem_append_left _ a, fun e he => (b e he).imp_right (List.mem_cons_of_mem _)⟩

/-- What `schedule_output_reactions` leaves behind. -/
structure Post (p : Program) (x : Inst) (S : List Nat) (r : Nat) (k : Kind) (s s' : State) : Prop where
  inv : Inv p x S s'
  log : ∀ e ∈ s.log, e ∈ s'.log
  done : ∀ q ∈ s.done, q ∈ s'.done
  queue : ∀ q ∈ s.queue, q ∈ s'.queue
  en : ∀ d ∈ x.prod r k, d ∈ s'.queue ∨ d ∈ s'.done
  clear : ∀ q ∈ s'.queue, q ∈ s.queue ∨ p.level r < p.level q

theorem out_post {p : Program} {x : Inst} (hs : Simple p x) {B : Nat} (hB : ∀ r, p.level r ≤ B) (n : Nat) :
    ∀ (s : State) (S : List Nat) (r : Nat) (k : Kind), B ≤ p.level r + n → Inv p x S s → r ∈ S → r ∈ s.done → Due p x r k →
      (s.flag r = true ↔ Marks p x r) → (∀ k' d, d ∈ x.prod r k' → d ∉ s.queue ∧ d ∉ s.done) →
      Post p x S r k s (out p x n s r k) := by
  induction n with
  | zero =>
    intro s S r k hn h _ _ _ _ _
    have he : x.prod r k = [] := by
      rw [List.eq_nil_iff_forall_not_mem]
      intro d hd
      have := hs.forward r k d hd
      have := hB d
      omega
    unfold out
    rw [he]
    exact ⟨h, fun _ h => h, fun _ h => h, fun _ h => h, fun d hd => (by rw [he] at hd; cases hd), fun _ h => Or.inl h⟩
  | succ n ih =>
    intro s S r k hn h hrS hrd hk hm hnew
    obtain ⟨f1, f2, f3, f4⟩ := fan_gen p r (s.flag r) (x.prod r k) s none 0 (fun h => absurd rfl h)
    have hmark : ∀ d ∈ x.prod r k, (s.flag r = true ↔ Owed p x d) := fun d hd => by rw [hm, owed_iff hs hk hd]
    unfold out
    generalize fan p r (s.flag r) (x.prod r k) s none 0 = F at *
    obtain ⟨s1, cand⟩ := F
    dsimp only at f1 f2 f3 f4 ⊢
    have hlt : ∀ d ∈ x.prod r k, p.level r < p.level d := fun d hd => hs.forward r k d hd
    rcases f4 with ⟨rfl, f5, f6⟩ | ⟨d, rfl, f5, ⟨hc, _⟩ | ⟨_, _, hd, hlast, hall⟩⟩
    · -- all on the queue
      dsimp only
      simp only [reduceCtorEq, or_false] at f5
      refine ⟨⟨?_, ?_, ?_, ?_, ?_, ?_, ?_⟩, ?_, ?_, ?_, ?_, ?_⟩
      · intro q hq
        rw [f1 q] at hq
        by_cases hqd : q ∈ x.prod r k
        · rw [if_pos hqd] at hq
          exact ⟨(hmark q hqd).1 hq, Or.inl ((f5 q).2 (Or.inr hqd))⟩
        · rw [if_neg hqd] at hq
          obtain ⟨a, b⟩ := h.mark q hq
          exact ⟨a, b.imp_left fun b => (f5 q).2 (Or.inl b)⟩
      · intro q hq ho
        rw [f1 q]
        by_cases hqd : q ∈ x.prod r k
        · rw [if_pos hqd]; exact (hmark q hqd).2 ho
        · rw [if_neg hqd]; exact h.wait q (((f5 q).1 hq).resolve_right hqd) ho
      · rw [f3]; exact h.log
      · intro q hq
        rw [f2] at hq ⊢
        rcases hq with hq | hq
        · rcases (f5 q).1 hq with hq | hq
          · exact h.src q (Or.inl hq)
          · exact Or.inr (Or.inr ⟨r, hrd, k, hq⟩)
        · exact h.src q (Or.inr hq)
      · intro q hq
        rw [f2]
        exact (h.ev q hq).imp_left fun b => (f5 q).2 (Or.inl b)
      · refine ⟨f6 h.once.1, fun q hq => ?_⟩
        rw [f2]
        rcases (f5 q).1 hq with hq | hq
        · exact h.once.2 q hq
        · exact (hnew k q hq).2
      · intro q hq hS k' hk' hdl
        rw [f2] at hq ⊢
        rw [f3]
        obtain ⟨a, b⟩ := h.all q hq hS k' hk' hdl
        exact ⟨a, fun e he => (b e he).imp_left fun b => (f5 e).2 (Or.inl b)⟩
      · rw [f3]; exact fun _ h => h
      · rw [f2]; exact fun _ h => h
      · exact fun q hq => (f5 q).2 (Or.inl hq)
      · exact fun d hd => Or.inl ((f5 d).2 (Or.inr hd))
      · intro q hq
        rcases (f5 q).1 hq with hq | hq
        · exact Or.inl hq
        · exact Or.inr (hlt q hq)
    · cases hc
    · -- a chain
      obtain ⟨hdq, hdd⟩ := hnew k d hd
      have hh : p.handler d = false := by
        cases hx : p.handler d with
        | false => rfl
        | true => rw [hs.unchained d hx] at hlast; cases hlast
      have hin := hs.network r k d hd
      have hld := hlt d hd
      -- the state before the execution
      have hflag : ∀ q, s1.flag q = if q = d then s.flag r else s.flag q := by
        intro q
        rw [f1 q]
        by_cases hq : q = d
        · rw [if_pos hq, if_pos (by rw [hq]; exact hd)]
        · rw [if_neg hq, if_neg (fun hx => hq (hall q hx))]
      have hfd : s1.flag d = true ↔ Owed p x d := by
        rw [hflag d, if_pos rfl]; exact hmark d hd
      have h1 : Inv p x (d :: S) s1 := by
        refine ⟨?_, ?_, by rw [f3]; exact h.log, by rw [f5, f2]; exact h.src, by rw [f5, f2]; exact h.ev,
          by rw [f5, f2]; exact h.once, ?_⟩
        · intro q hq
          by_cases hqd : q = d
          · rw [hqd] at hq ⊢
            exact ⟨hfd.1 hq, Or.inr List.mem_cons_self⟩
          · rw [hflag q, if_neg hqd] at hq
            obtain ⟨a, b⟩ := h.mark q hq
            rw [f5]
            exact ⟨a, b.imp_right (List.mem_cons_of_mem _)⟩
        · rw [f5]
          intro q hq ho
          rw [hflag q, if_neg (fun e => hdq (by rw [← e]; exact hq))]
          exact h.wait q hq ho
        · rw [f2, f3, f5]
          intro q hq hS
          exact h.all q hq (fun hx => hS (List.mem_cons_of_mem _ hx))
      have hsrc : d ∈ x.popped.map (·.1) ∨ d ∈ x.later ∨ ∃ r ∈ s1.done, ∃ k, d ∈ x.prod r k := by
        rw [f2]; exact Or.inr (Or.inr ⟨r, hrd, k, hd⟩)
      have hnew' : ∀ k' e, e ∈ x.prod d k' → e ∉ s1.queue ∧ e ∉ d :: s1.done := by
        intro k' e he
        rw [f5, f2]
        have hne : e ≠ d := fun hx => by have := hs.forward d k' e he; rw [hx] at this; omega
        have key : ¬ (e ∈ s.queue ∨ e ∈ s.done) := by
          intro hx
          rcases h.src e hx with hx | hx | ⟨r', hr', k'', hx⟩
          · exact (hs.direct d k' e he).1 hx
          · exact (hs.direct d k' e he).2 hx
          · have := hs.one r' k'' d k' e hx he
            rw [this] at hr'; exact hdd hr'
        rw [not_or] at key
        refine ⟨key.1, ?_⟩
        rw [List.mem_cons, not_or]; exact ⟨hne, key.2⟩
      have hdq1 : d ∉ s1.queue := by rw [f5]; exact hdq
      have hmd : s1.flag d = true ↔ Marks p x d := by
        rw [hfd]; exact ⟨fun h => ⟨h, Or.inl hh⟩, fun h => h.1⟩
      dsimp only
      simp only [hh, Bool.and_false, Bool.false_eq_true, if_false, Bool.not_false, Bool.true_and]
      cases hmi : x.missed d with
      | true =>
        have hkd : Due p x d .deadline := Or.inl ⟨hmi, rfl⟩
        simp only [Bool.true_and, Bool.not_true, Bool.false_eq_true, if_false]
        cases hdh : p.dlHandler d with
        | true =>
          rw [if_pos rfl]
          have e1 := h1.enter hkd hdq1 hsrc
          have e2 := ih { s1 with done := d :: s1.done, log := s1.log ++ [(d, .deadline)] } (d :: S) d .deadline (by omega)
            e1.dedup
            List.mem_cons_self List.mem_cons_self hkd hmd hnew'
          have hq' : d ∉ (out p x n { s1 with done := d :: s1.done, log := s1.log ++ [(d, .deadline)] } d .deadline).queue := by
            intro hx
            rcases e2.clear d hx with hx | hx
            · exact hdq1 hx
            · omega
          refine ⟨e2.inv.finish hq' ?_, ?_, ?_, ?_, ?_, ?_⟩
          · intro k' hk' _
            have := hk'.kind hkd
            subst this
            exact ⟨e2.log _ (List.mem_append_right _ (List.mem_cons_self)), e2.en⟩
          · intro e he; exact e2.log e (List.mem_append_left _ (by rw [f3]; exact he))
          · intro q hq; exact e2.done q (List.mem_cons_of_mem _ (by rw [f2]; exact hq))
          · intro q hq; exact e2.queue q (by show q ∈ s1.queue; rw [f5]; exact hq)
          · intro e he; rw [hall e he]; exact Or.inr (e2.done d List.mem_cons_self)
          · intro q hq
            rcases e2.clear q hq with hx | hx
            · left; rw [← f5]; exact hx
            · right; omega
        | false =>
          rw [if_neg (by simp)]
          have e1 := h1.enter hkd hdq1 hsrc
          -- nothing is invoked
          have e3 : Inv p x (d :: S) { s1 with done := d :: s1.done } := by
            refine ⟨fun q hq => ?_, e1.wait, h1.log, e1.src, e1.ev, e1.once, fun q hq hS k' hk' hdl => ?_⟩
            · obtain ⟨a, b⟩ := h1.mark q hq
              exact ⟨a, b⟩
            · rw [List.mem_cons, not_or] at hS
              obtain ⟨a, b⟩ := h1.all q ((List.mem_cons.1 hq).resolve_left hS.1) (by
                rw [List.mem_cons, not_or]; exact hS) k' hk' hdl
              exact ⟨a, fun e he => (b e he).imp_right (List.mem_cons_of_mem _)⟩
          refine ⟨e3.finish hdq1 ?_, ?_, ?_, ?_, ?_, ?_⟩
          · intro k' hk' hdl
            have := hk'.kind hkd
            subst this
            rw [hdh] at hdl
            exact absurd (hdl rfl) (by simp)
          · intro e he; show e ∈ s1.log; rw [f3]; exact he
          · intro q hq; exact List.mem_cons_of_mem _ (by rw [f2]; exact hq)
          · intro q hq; show q ∈ s1.queue; rw [f5]; exact hq
          · intro e he; rw [hall e he]; exact Or.inr List.mem_cons_self
          · intro q hq; left; rw [← f5]; exact hq
      | false =>
        have hkd : Due p x d .body := Or.inr (Or.inr ⟨hmi, fun hx => (by rw [hh] at hx; cases hx.2.1), rfl⟩)
        simp only [Bool.false_and, Bool.not_false, Bool.false_eq_true, if_false, if_true]
        have e1 := h1.enter hkd hdq1 hsrc
        have e2 := ih { s1 with done := d :: s1.done, log := s1.log ++ [(d, .body)] } (d :: S) d .body (by omega)
          e1.dedup
          List.mem_cons_self List.mem_cons_self hkd hmd hnew'
        have hq' : d ∉ (out p x n { s1 with done := d :: s1.done, log := s1.log ++ [(d, .body)] } d .body).queue := by
          intro hx
          rcases e2.clear d hx with hx | hx
          · exact hdq1 hx
          · omega
        refine ⟨e2.inv.finish hq' ?_, ?_, ?_, ?_, ?_, ?_⟩
        · intro k' hk' _
          have := hk'.kind hkd
          subst this
          exact ⟨e2.log _ (List.mem_append_right _ (List.mem_cons_self)), e2.en⟩
        · intro e he; exact e2.log e (List.mem_append_left _ (by rw [f3]; exact he))
        · intro q hq; exact e2.done q (List.mem_cons_of_mem _ (by rw [f2]; exact hq))
        · intro q hq; exact e2.queue q (by show q ∈ s1.queue; rw [f5]; exact hq)
        · intro e he; rw [hall e he]; exact Or.inr (e2.done d List.mem_cons_self)
        · intro q hq
          rcases e2.clear q hq with hx | hx
          · left; rw [← f5]; exact hx
          · right; omega

end ReactorC.Tardiness
