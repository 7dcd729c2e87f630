import Verif.Det.Log
import Verif.Det.Schedulers
import Verif.Np.Props

/-!
# The results of a program do not depend on how it is scheduled (C62)

`Run S P s m` says that the program `P`, executed by the scheduler `S`, can be in the state `s` with the memory `m`; `m.ends` are
the memories at the end of the tags that have been completed.  `P.results n` is what the program computes during its first
`n` tags if its reactions are executed one after the other (Verif.Det.Spec).
-/

set_option linter.unusedVariables false

namespace ReactorC.Det

open Np (Ev put)

variable {Cell Val : Type} [DecidableEq Cell] {σ τ : Type}

/-- Whatever the scheduler, as long as it executes triggered reactions once and in the order of their dependencies: the memory
at the end of each tag is that of the reactions executed one after the other. -/
theorem C62_results_do_not_depend_on_the_schedule {S : Sys σ} {P : Program Cell Val} {first : Nat → Nat → Prop}
    {reads writes : Nat → Cell → Prop} (hS : S.Sound first) (hP : P.Contract first reads writes) {s : σ} {m : Mem Cell Val}
    (h : Run S P s m) : m.ends.reverse = P.results m.ends.length := (h.inv hS hP).ends

/-- With the non-preemptive scheduler, for every number of workers and every interleaving. -/
theorem C62_nonpreemptive_scheduler_is_deterministic {C : Np.Config} (hC : C.Ok) {P : Program Cell Val}
    {reads writes : Nat → Cell → Prop} (hP : P.Contract (fun r r' => C.level r < C.level r') reads writes) {s : Np.State}
    {m : Mem Cell Val} (h : Run (np C) P s m) : m.ends.reverse = P.results m.ends.length :=
  C62_results_do_not_depend_on_the_schedule (np_sound hC) hP h

/-- With the scheduler that follows deadlines. -/
theorem C62_deadline_scheduler_is_deterministic {C : Gedf.Config} (hC : C.Ok) {P : Program Cell Val}
    {reads writes : Nat → Cell → Prop} (hP : P.Contract C.dep reads writes) {s : Gedf.State}
    {m : Mem Cell Val} (h : Run (gedf C) P s m) : m.ends.reverse = P.results m.ends.length :=
  C62_results_do_not_depend_on_the_schedule (gedf_sound hC) hP h

/-- With the adaptive scheduler. -/
theorem C62_adaptive_scheduler_is_deterministic {C : Adaptive.Config} (hC : C.Ok) {P : Program Cell Val}
    {reads writes : Nat → Cell → Prop} (hP : P.Contract (fun r r' => C.level r < C.level r') reads writes) {s : Adaptive.State}
    {m : Mem Cell Val} (h : Run (adaptive C) P s m) : m.ends.reverse = P.results m.ends.length :=
  C62_results_do_not_depend_on_the_schedule (adaptive_sound hC) hP h

/-- Without threads, although some reactions are executed without passing through the queue. -/
theorem C62_runtime_without_threads_is_deterministic {C : Uni.Config} (hC : C.Ok) {P : Program Cell Val}
    {reads writes : Nat → Cell → Prop} (hP : P.Contract C.dep reads writes) {s : Uni.State}
    {m : Mem Cell Val} (h : Run (uni C) P s m) : m.ends.reverse = P.results m.ends.length :=
  C62_results_do_not_depend_on_the_schedule (uni_sound hC) hP h

theorem tags_length (P : Program Cell Val) : ∀ (n : Nat) (m : Cell → Val) (d : List Nat), (P.tags n m d).length = n
  | 0, _, _ => rfl
  | n + 1, m, d => by show _ + 1 = n + 1; rw [tags_length P n]

theorem tags_get (P : Program Cell Val) : ∀ (n k i : Nat) (m : Cell → Val) (d : List Nat), i < n → i < k →
    (P.tags n m d)[i]? = (P.tags k m d)[i]?
  | 0, _, _, _, _, h, _ => absurd h (Nat.not_lt_zero _)
  | _ + 1, 0, _, _, _, _, h => absurd h (Nat.not_lt_zero _)
  | _ + 1, _ + 1, 0, _, _, _, _ => rfl
  | n + 1, k + 1, i + 1, m, d, h1, h2 => by
    have := tags_get P n k i (P.next (P.tag m d)).1 (P.next (P.tag m d)).2 (by omega) (by omega)
    simpa [Program.tags] using this

/-- Two executions of a program, with any two schedulers, any two numbers of workers and any two interleavings, have the same
memory at the end of every tag that both have completed. -/
theorem C62_two_executions_agree {S : Sys σ} {T : Sys τ} {P : Program Cell Val} {first first' : Nat → Nat → Prop}
    {reads writes reads' writes' : Nat → Cell → Prop} (hS : S.Sound first) (hT : T.Sound first')
    (hP : P.Contract first reads writes) (hP' : P.Contract first' reads' writes') {s : σ} {t : τ} {m m' : Mem Cell Val}
    (h : Run S P s m) (h' : Run T P t m') {i : Nat} (hi : i < m.ends.length) (hi' : i < m'.ends.length) :
    m.ends.reverse[i]? = m'.ends.reverse[i]? := by
  rw [C62_results_do_not_depend_on_the_schedule hS hP h, C62_results_do_not_depend_on_the_schedule hT hP' h']
  exact tags_get P _ _ i _ _ hi hi'

/-- The program computes the same with threads and without. -/
theorem C62_threads_do_not_change_the_results {C : Np.Config} {D : Uni.Config} (hC : C.Ok) (hD : D.Ok) {P : Program Cell Val}
    {reads writes reads' writes' : Nat → Cell → Prop} (hP : P.Contract (fun r r' => C.level r < C.level r') reads writes)
    (hP' : P.Contract D.dep reads' writes') {s : Np.State} {t : Uni.State} {m m' : Mem Cell Val}
    (h : Run (np C) P s m) (h' : Run (uni D) P t m') {i : Nat} (hi : i < m.ends.length) (hi' : i < m'.ends.length) :
    m.ends.reverse[i]? = m'.ends.reverse[i]? :=
  C62_two_executions_agree (np_sound hC) (uni_sound hD) hP hP' h h' hi hi'

/-- Meanwhile: when a reaction reads or writes a cell, no other executing reaction has access to it, unless both only read. -/
theorem C62_no_data_races {S : Sys σ} {P : Program Cell Val} {first : Nat → Nat → Prop} {reads writes : Nat → Cell → Prop}
    (hS : S.Sound first) (hP : P.Contract first reads writes) {s : σ} {m : Mem Cell Val} (h : Run S P s m) {q r : Nat}
    (hne : q ≠ r) (hq : m.code q ≠ none) (hr : m.code r ≠ none) (c : Cell) : writes q c → ¬ (reads r c ∨ writes r c) := by
  intro hw ha
  have hi := h.inv hS hP
  by_cases hs : Ev.stop ∈ S.hist s
  · exact hq (hi.idle hs q)
  obtain ⟨l, trig, hL⟩ := hi.live hs
  have g := hS.good s hi.reach
  have kq := hL.runs q hq
  have kr := hL.runs r hr
  have hin : ∀ x, Np.starts x (Np.thisTag (S.hist s)) ≠ 0 → x ∈ P.order :=
    fun x k => hL.known x ((hL.asked x).2 (.inl (g.asked x k)))
  rcases hP.conflict q r c (hin q (by omega)) (hin r (by omega)) hne hw ha with k | k
  · exact running_first g kq (by omega) k
  · exact running_first g kr (by omega) k

/-! ## Examples -/

/-- A way to execute a scheduler. -/
structure Exe (σ α : Type) where
  sys : Sys σ
  exec : σ → α → Option σ
  pop : σ → Bool
  step : ∀ s a s', exec s a = some s' → sys.Step s s'
  popping : ∀ s, sys.Reach s → (pop s = true ↔ sys.popping s)

/-- A step of the scheduler (if it triggers a reaction: for the reaction `q` that executes), or of the reaction `q`. -/
inductive Op (α : Type)
  | sched (a : α) (q : Nat)
  | code (q : Nat)

/-- Executes a step of a program. -/
def Exe.op {α : Type} (E : Exe σ α) (P : Program Cell Val) (x : σ × Mem Cell Val) : Op α → Option (σ × Mem Cell Val)
  | .code q =>
    match x.2.code q with
    | some (.read c k) => some (x.1, { x.2 with code := put x.2.code q (some (k (x.2.cells c))) })
    | some (.write c v k) => some (x.1, { x.2 with cells := set x.2.cells c v, code := put x.2.code q (some k) })
    | _ => none
  | .sched a q =>
    match E.exec x.1 a with
    | none => none
    | some s' =>
      if E.sys.hist s' = E.sys.hist x.1 then
        if E.pop x.1 = true → E.pop s' = true ∨ x.2.due = [] then some (s', x.2) else none
      else match E.sys.hist s' with
        | [] => none
        | e :: h =>
          if h = E.sys.hist x.1 then
            match e with
            | .trigger r =>
              if E.pop x.1 = true ∧ r ∈ x.2.due ∧ (E.pop s' = true ∨ x.2.due.erase r = []) then
                some (s', { x.2 with due := x.2.due.erase r })
              else
                match x.2.code q with
                | some (.trigger r' k) =>
                  if r' = r ∧ (E.pop x.1 = true → E.pop s' = true ∨ x.2.due = []) then
                    some (s', { x.2 with code := put x.2.code q (some k) })
                  else none
                | _ => none
            | .start _ r => some (s', { x.2 with code := put x.2.code r (some (P.body r)) })
            | .finish _ r =>
              match x.2.code r with
              | some .done => some (s', { x.2 with code := put x.2.code r none })
              | _ => none
            | .advance => some (s', { x.2 with
                cells := (P.next x.2.cells).1, due := (P.next x.2.cells).2, ends := x.2.cells :: x.2.ends })
            | .stop => some (s', { x.2 with ends := x.2.cells :: x.2.ends })
          else none

theorem Run.reach {S : Sys σ} {P : Program Cell Val} {s : σ} {m : Mem Cell Val} (h : Run S P s m) : S.Reach s := by
  induction h with
  | init => exact .init
  | quiet _ hs _ _ ih => exact .step ih hs
  | event _ _ hs _ _ _ _ ih => exact .step ih hs
  | trigger _ _ _ _ hs _ _ _ ih => exact .step ih hs
  | start _ _ _ hs _ ih => exact .step ih hs
  | read _ _ _ _ _ ih => exact ih
  | write _ _ _ _ _ _ ih => exact ih
  | finish _ _ _ hs _ _ ih => exact .step ih hs
  | advance _ hs _ ih => exact .step ih hs
  | stop _ hs _ ih => exact .step ih hs

theorem Exe.op_run {α : Type} (E : Exe σ α) {P : Program Cell Val} {s s' : σ} {m m' : Mem Cell Val} {o : Op α}
    (h : Run E.sys P s m) (ho : E.op P (s, m) o = some (s', m')) : Run E.sys P s' m' := by
  cases o with
  | code q =>
    simp only [Exe.op] at ho
    split at ho
    · rename_i c k e; cases ho; exact h.read q c k e
    · rename_i c v k e; cases ho; exact h.write q c v k e
    · cases ho
  | sched a q =>
    simp only [Exe.op] at ho
    split at ho
    · cases ho
    · rename_i s1 e
      have hs := E.step _ _ _ e
      have p1 := E.popping _ h.reach
      have p2 := E.popping _ (.step h.reach hs)
      split at ho
      · rename_i hh
        split at ho
        · rename_i hp
          cases ho
          exact h.quiet hs hh fun k => (hp (p1.2 k)).imp p2.1 id
        · cases ho
      · split at ho
        · cases ho
        · rename_i ev hi hh
          split at ho
          · rename_i heq
            subst heq
            split at ho
            · rename_i r
              split at ho
              · rename_i hp
                cases ho
                exact h.event r hs hh (p1.1 hp.1) hp.2.1 (hp.2.2.imp p2.1 id)
              · split at ho
                · rename_i r' k hq
                  split at ho
                  · rename_i hp
                    cases ho
                    obtain ⟨hr, hp⟩ := hp
                    subst hr
                    exact h.trigger q _ k hs hh (fun k => (hp (p1.2 k)).imp p2.1 id) hq
                  · cases ho
                · cases ho
            · cases ho; exact h.start _ _ hs hh
            · split at ho
              · rename_i hd; cases ho; exact h.finish _ _ hs hh hd
              · cases ho
            · cases ho; exact h.advance hs hh
            · cases ho; exact h.stop hs hh
          · cases ho

def Exe.ops {α : Type} (E : Exe σ α) (P : Program Cell Val) : σ × Mem Cell Val → List (Op α) → Option (σ × Mem Cell Val)
  | x, [] => some x
  | x, o :: l => (E.op P x o).bind fun y => E.ops P y l

theorem Exe.ops_run {α : Type} (E : Exe σ α) {P : Program Cell Val} : ∀ (l : List (Op α)) {x y : σ × Mem Cell Val},
    Run E.sys P x.1 x.2 → E.ops P x l = some y → Run E.sys P y.1 y.2
  | [], x, y, h, e => by cases e; exact h
  | o :: l, x, y, h, e => by
    unfold Exe.ops at e
    cases he : E.op P x o with
    | none => rw [he] at e; cases e
    | some z => rw [he] at e; exact E.ops_run l (E.op_run h he) e

/-- A program executed from its beginning. -/
def Exe.go {α : Type} (E : Exe σ α) (P : Program Cell Val) (l : List (Op α)) : Option (σ × Mem Cell Val) :=
  E.ops P (E.sys.init, ⟨P.memory, fun _ => none, P.first, []⟩) l

theorem Exe.go_run {α : Type} (E : Exe σ α) {P : Program Cell Val} {l : List (Op α)} {y : σ × Mem Cell Val}
    (e : E.go P l = some y) : Run E.sys P y.1 y.2 := E.ops_run l .init e

/-- The non-preemptive scheduler with two workers and three reactions, of which 0 and 1 have level 0 and 2 has level 1. -/
def npExe : Exe Np.State Np.Act where
  sys := np Np.two
  exec s a := if a.okay Np.two s then Np.exec Np.two s a else none
  pop s := (List.range 3).any fun w => (s.pc w).opening
  step s a s' h := by
    split at h
    · rename_i k; exact ⟨a, Np.Act.okay_allowed k, h⟩
    · cases h
  popping s h := by
    have hP := ((np_reach h).inv Np.two_ok).pool
    constructor
    · intro k
      obtain ⟨w, _, hw⟩ := List.any_eq_true.1 k
      exact ⟨w, hw⟩
    · rintro ⟨w, hw⟩
      refine List.any_eq_true.2 ⟨w, List.mem_range.2 (Decidable.byContradiction fun k => ?_), hw⟩
      rw [hP.beyond w (by show 2 < w; omega)] at hw
      cases hw

/-- Three reactions: 0 counts in cell 0, 1 doubles cell 1, and both trigger 2, which puts the sum into cell 2.  Both are due at
every tag. -/
def counter : Program Nat Nat where
  order := [0, 1, 2]
  body
    | 0 => .read 0 fun x => .write 0 (x + 1) (.trigger 2 .done)
    | 1 => .read 1 fun x => .write 1 (2 * x) (.trigger 2 .done)
    | 2 => .read 0 fun x => .read 1 fun y => .write 2 (x + y) .done
    | _ => .done
  memory c := if c = 1 then 1 else 0
  first := [0, 1]
  next m := (m, [0, 1])

theorem counter_contract : counter.Contract (fun r r' => Np.two.level r < Np.two.level r')
    (fun r c => if r = 2 then c = 0 ∨ c = 1 else c = r) (fun r c => c = r) where
  within r := by
    match r with
    | 0 => exact .read rfl fun v => .write rfl (.trigger ⟨by decide, by decide⟩ .done)
    | 1 => exact .read rfl fun v => .write rfl (.trigger ⟨by decide, by decide⟩ .done)
    | 2 => exact .read (.inl rfl) fun v => .read (.inr rfl) fun v => .write rfl .done
    | r + 3 => exact .done
  conflict r r' c h1 h2 hne hw ha := by
    subst hw
    have h1 : c = 0 ∨ c = 1 ∨ c = 2 := by simpa [counter] using h1
    have h2 : r' = 0 ∨ r' = 1 ∨ r' = 2 := by simpa [counter] using h2
    rcases h1 with rfl | rfl | rfl <;> rcases h2 with rfl | rfl | rfl <;> simp [Np.two] at hne ha ⊢
  irrefl r h := Nat.lt_irrefl _ h
  sorted := by
    simp [counter, Np.two]
  start r h := by
    have h : r = 0 ∨ r = 1 := by simpa [counter] using h
    rcases h with rfl | rfl <;> simp [counter]
  later m r h := by
    have h : r = 0 ∨ r = 1 := by simpa [counter] using h
    rcases h with rfl | rfl <;> simp [counter]

/-- Two workers execute 0 and 1 side by side; their accesses alternate. -/
def counterRun : List (Op Np.Act) :=
  (Np.demo.take 17).map (.sched · 0) ++ [.code 1, .code 0, .code 0, .code 1] ++
  [.sched (.trigger 0 2) 1, .sched (.go 0) 0, .sched (.trigger 1 2) 0] ++ ((Np.demo.drop 20).take 22).map (.sched · 0) ++
  [.code 2, .code 2, .code 2] ++ (Np.demo.drop 42).map (.sched · 0) ++ [.sched (.advance 0) 0]

example : (npExe.go counter counterRun).map (fun x => x.2.ends.map fun m => (m 0, m 1, m 2)) = some [(1, 2, 3)] := by decide +kernel

/-- The hypotheses of the theorems are met by an execution that has completed a tag. -/
example : ∃ s m, Run (np Np.two) counter s m ∧ m.ends.length = 1 := by
  have h : (npExe.go counter counterRun).map (fun x => x.2.ends.length) = some 1 := by decide +kernel
  cases hr : npExe.go counter counterRun with
  | none => rw [hr] at h; cases h
  | some y => rw [hr] at h; exact ⟨y.1, y.2, npExe.go_run hr, Option.some.inj h⟩

example : (counter.results 3).map (fun m => (m 0, m 1, m 2)) = [(1, 2, 3), (2, 4, 6), (3, 8, 11)] := by decide +kernel

/-- The same reactions without threads; 2 is executed through the queue because two reactions trigger it. -/
def uniTwo : Uni.Config := ⟨[0, 1, 2], id, fun r r' => r < 2 ∧ r' = 2, fun _ => none⟩

theorem uniTwo_ok : uniTwo.Ok :=
  ⟨fun r r' r'' h1 h2 => ⟨h1.1, h2.2⟩, fun r r' h => by obtain ⟨h1, rfl⟩ := h; exact h1, fun d r h => by cases h⟩

/-- A chain: 0 triggers 1, of which it is the last enabling reaction, and 1 triggers 2 in the same way. -/
def uniChain : Uni.Config :=
  ⟨[0, 1, 2], id, fun r r' => r < r' ∧ r' < 3, fun d => if d = 1 then some 0 else if d = 2 then some 1 else none⟩

theorem uniChain_ok : uniChain.Ok where
  trans r r' r'' h1 h2 := ⟨Nat.lt_trans h1.1 h2.1, h2.2⟩
  index r r' h := h.1
  last d r h q hq := by
    have h : (if d = 1 then some 0 else if d = 2 then some 1 else none) = some r := h
    have hq : q < d ∧ d < 3 := hq
    show q = r ∨ (q < r ∧ r < 3)
    by_cases h1 : d = 1
    · rw [if_pos h1] at h; cases h; omega
    · rw [if_neg h1] at h
      by_cases h2 : d = 2
      · rw [if_pos h2] at h; cases h; omega
      · rw [if_neg h2] at h; cases h

/-- The decidable version of the rules. -/
def uniOkay (C : Uni.Config) [∀ r r', Decidable (C.dep r r')] (s : Uni.State) : Uni.Act → Bool
  | .event r => decide (r ∈ C.reactions) && decide (C.last r = none)
  | .output d => decide (d ∈ C.reactions) && match s.exec with
    | none => true
    | some r => decide (C.dep r d) && (decide (C.last d = none) || decide (C.last d = some r))
  | _ => true

theorem uniOkay_allowed {C : Uni.Config} [∀ r r', Decidable (C.dep r r')] {s : Uni.State} {a : Uni.Act}
    (h : uniOkay C s a = true) : a.allowed C s := by
  cases a with
  | event r => simpa [uniOkay, Uni.Act.allowed] using h
  | output d =>
    simp only [uniOkay, Bool.and_eq_true, decide_eq_true_eq] at h
    refine ⟨h.1, fun r e => ?_⟩
    have := h.2
    simp only [e, Bool.and_eq_true, Bool.or_eq_true, decide_eq_true_eq] at this
    exact this
  | _ => trivial

def uniExe (C : Uni.Config) [∀ r r', Decidable (C.dep r r')] : Exe Uni.State Uni.Act where
  sys := uni C
  exec s a := if uniOkay C s a then Uni.exec C s a else none
  pop s := decide (s.phase = .opening)
  step s a s' h := by
    split at h
    · rename_i k; exact ⟨a, uniOkay_allowed k, h⟩
    · cases h
  popping s _ := by simp [uni]

instance : ∀ r r', Decidable (uniTwo.dep r r') := fun r r' => inferInstanceAs (Decidable (r < 2 ∧ r' = 2))
instance : ∀ r r', Decidable (uniChain.dep r r') := fun r r' => inferInstanceAs (Decidable (r < r' ∧ r' < 3))

/-- The program of the example above without threads, with the same result. -/
example : ((uniExe uniTwo).go counter
    [.sched (.event 0) 0, .sched (.event 1) 0, .sched .opened 0, .sched (.start 0) 0, .code 0, .code 0, .sched (.output 2) 0,
      .sched .finish 0, .sched (.start 1) 0, .code 1, .code 1, .sched (.output 2) 1, .sched .finish 0, .sched (.start 2) 0,
      .code 2, .code 2, .code 2, .sched .finish 0, .sched .close 0, .sched .advance 0]).map
      (fun x => x.2.ends.map fun m => (m 0, m 1, m 2)) = some [(1, 2, 3)] := by decide +kernel

theorem counter_contract_uni : counter.Contract uniTwo.dep
    (fun r c => if r = 2 then c = 0 ∨ c = 1 else c = r) (fun r c => c = r) where
  within r := by
    match r with
    | 0 => exact .read rfl fun v => .write rfl (.trigger ⟨by decide, by decide⟩ .done)
    | 1 => exact .read rfl fun v => .write rfl (.trigger ⟨by decide, by decide⟩ .done)
    | 2 => exact .read (.inl rfl) fun v => .read (.inr rfl) fun v => .write rfl .done
    | r + 3 => exact .done
  conflict r r' c h1 h2 hne hw ha := by
    subst hw
    have h1 : c = 0 ∨ c = 1 ∨ c = 2 := by simpa [counter] using h1
    have h2 : r' = 0 ∨ r' = 1 ∨ r' = 2 := by simpa [counter] using h2
    rcases h1 with rfl | rfl | rfl <;> rcases h2 with rfl | rfl | rfl <;> simp [uniTwo] at hne ha ⊢
  irrefl r h := by have h : r < 2 ∧ r = 2 := h; omega
  sorted := by
    simp [counter, uniTwo]
  start r h := by
    have h : r = 0 ∨ r = 1 := by simpa [counter] using h
    rcases h with rfl | rfl <;> simp [counter]
  later m r h := by
    have h : r = 0 ∨ r = 1 := by simpa [counter] using h
    rcases h with rfl | rfl <;> simp [counter]

/-- A chain of three reactions that pass on a value. -/
def relay : Program Nat Nat where
  order := [0, 1, 2]
  body
    | 0 => .read 0 fun x => .write 0 (x + 1) (.trigger 1 .done)
    | 1 => .read 0 fun x => .write 1 (2 * x) (.trigger 2 .done)
    | 2 => .read 1 fun x => .write 2 (x + 5) .done
    | _ => .done
  memory _ := 0
  first := [0]
  next m := (m, [0])

/-- Only the first reaction of the chain passes through the queue. -/
example : ((uniExe uniChain).go relay
    [.sched (.event 0) 0, .sched .opened 0, .sched (.start 0) 0, .code 0, .code 0, .sched (.output 1) 0, .sched .finish 0,
      .sched .chain 0, .code 1, .code 1, .sched (.output 2) 1, .sched .finish 0, .sched .chain 0, .code 2, .code 2,
      .sched .finish 0, .sched .close 0, .sched .advance 0]).map
      (fun x => x.2.ends.map fun m => (m 0, m 1, m 2)) = some [(1, 2, 7)] := by decide +kernel

/-! ## What the order of dependencies is for -/

/-- Two reactions of the same level that write to the same cell. -/
def racing : Program Nat Nat where
  order := [0, 1]
  body
    | 0 => .write 0 1 .done
    | 1 => .write 0 2 .done
    | _ => .done
  memory _ := 0
  first := [0, 1]
  next m := (m, [0, 1])

/-- Without the order the result depends on the interleaving: the same program, the same scheduler, the same number of
workers, and different memories at the end of the first tag. -/
theorem C62_without_order_the_schedule_matters : ∃ s s' m m', Run (np Np.two) racing s m ∧ Run (np Np.two) racing s' m' ∧
    m.ends.map (fun f => f 0) = [1] ∧ m'.ends.map (fun f => f 0) = [2] := by
  have h : ∀ a b : Nat, ((a = 0 ∧ b = 1) ∨ (a = 1 ∧ b = 0)) →
      (npExe.go racing ((Np.demo.take 17).map (.sched · 0) ++ [.code a, .code b] ++
        [.sched (.finish 1) 0, .sched (.go 1) 0, .sched (.go 1) 0, .sched (.go 1) 0, .sched (.go 1) 0, .sched (.go 1) 0,
         .sched (.finish 0) 0] ++ (List.replicate 10 (.sched (.go 0) 0)) ++ [.sched (.advance 0) 0])).map
        (fun x => x.2.ends.map fun f => f 0) = some [b + 1] := by
    rintro a b (⟨rfl, rfl⟩ | ⟨rfl, rfl⟩) <;> decide +kernel
  have run : ∀ l v, (npExe.go racing l).map (fun x => x.2.ends.map fun f => f 0) = some v →
      ∃ s m, Run (np Np.two) racing s m ∧ m.ends.map (fun f => f 0) = v := by
    intro l v h
    cases hr : npExe.go racing l with
    | none => rw [hr] at h; cases h
    | some y => rw [hr] at h; exact ⟨y.1, y.2, npExe.go_run hr, Option.some.inj h⟩
  obtain ⟨s, m, h1, h2⟩ := run _ _ (h 1 0 (.inr ⟨rfl, rfl⟩))
  obtain ⟨s', m', h3, h4⟩ := run _ _ (h 0 1 (.inl ⟨rfl, rfl⟩))
  exact ⟨s, s', m, m', h1, h3, h2, h4⟩

end ReactorC.Det
