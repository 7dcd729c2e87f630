import Verif.RtiAddr.Model
import Mathlib.Tactic.Tauto

/-! # What a regular expression matches, and that the search finds the leftmost longest match -/

namespace Verif.RtiAddr

/-- The texts an expression matches, with what its groups took: the usual meaning of regular expressions, independent of
the matcher. -/
def Re.L : Re → List Char → Caps → Prop
  | .cls p, w, c => c = [] ∧ ∃ x, p x = true ∧ w = [x]
  | .eps, w, c => w = [] ∧ c = []
  | .seq a b, w, c => ∃ w1 w2 c1 c2, w = w1 ++ w2 ∧ c = c1 ++ c2 ∧ a.L w1 c1 ∧ b.L w2 c2
  | .alt a b, w, c => a.L w c ∨ b.L w c
  | .grp k a, w, c => ∃ c', a.L w c' ∧ c = (k, w) :: c'
  | .rep a lo hi, w, c =>
      c = [] ∧ ∃ ps : List (List Char), (∀ p ∈ ps, ∃ c', a.L p c') ∧ lo ≤ ps.length ∧
        (∀ m, hi = some m → ps.length ≤ m) ∧ w = ps.flatten

theorem pow_iff {f : List Char → List (List Char)} {P : List Char → Prop}
    (hf : ∀ t r, r ∈ f t ↔ ∃ w, t = w ++ r ∧ P w) :
    ∀ n t r, r ∈ pow f n t ↔ ∃ ps : List (List Char), ps.length = n ∧ (∀ p ∈ ps, P p) ∧ t = ps.flatten ++ r := by
  intro n
  induction n with
  | zero =>
      intro t r
      simp only [pow, List.mem_singleton, List.length_eq_zero_iff]
      constructor
      · rintro rfl
        exact ⟨[], rfl, by simp, by simp⟩
      · rintro ⟨ps, rfl, -, h⟩
        simpa using h.symm
  | succ n ih =>
      intro t r
      simp only [pow, List.mem_flatMap, hf, ih]
      constructor
      · rintro ⟨m, ⟨w, rfl, hw⟩, ps, rfl, hps, rfl⟩
        refine ⟨w :: ps, rfl, ?_, by simp⟩
        intro p hp
        rcases List.mem_cons.1 hp with rfl | hp
        · exact hw
        · exact hps p hp
      · rintro ⟨ps, hl, hps, rfl⟩
        cases ps with
        | nil => simp at hl
        | cons w ps =>
            refine ⟨ps.flatten ++ r, ⟨w, by simp, hps w (by simp)⟩, ps, by simpa using hl,
              fun p hp => hps p (by simp [hp]), rfl⟩

/-- A repetition need not use empty pieces beyond its lower bound. -/
theorem fewer {P : List Char → Prop} (ps : List (List Char)) (lo : Nat) (hlo : lo ≤ ps.length)
    (hP : ∀ p ∈ ps, P p) :
    ∃ qs : List (List Char), (∀ p ∈ qs, P p) ∧ lo ≤ qs.length ∧ qs.length ≤ ps.length ∧
      qs.length ≤ lo + ps.flatten.length ∧ qs.flatten = ps.flatten := by
  refine ⟨ps.take lo ++ (ps.drop lo).filter (fun p => !p.isEmpty), ?_, ?_, ?_, ?_, ?_⟩
  · intro p hp
    rcases List.mem_append.1 hp with h | h
    · exact hP p (List.mem_of_mem_take h)
    · exact hP p (List.mem_of_mem_drop (List.mem_filter.1 h).1)
  · simp [hlo]
  · have := List.length_filter_le (fun p : List Char => !p.isEmpty) (ps.drop lo)
    simp only [List.length_append, List.length_take, List.length_drop] at *
    omega
  · have key : ∀ l : List (List Char), (l.filter (fun p => !p.isEmpty)).length ≤ l.flatten.length := by
      intro l
      induction l with
      | nil => simp
      | cons p l ih =>
          cases p with
          | nil => simpa using ih
          | cons x p =>
              simp only [List.filter_cons, List.isEmpty_cons, Bool.not_false, if_true, List.length_cons,
                List.flatten_cons, List.length_append]
              omega
    have h1 := key (ps.drop lo)
    have h2 : (ps.take lo).flatten ++ (ps.drop lo).flatten = ps.flatten := by
      rw [← List.flatten_append, List.take_append_drop]
    have h3 : ps.flatten.length = (ps.take lo).flatten.length + (ps.drop lo).flatten.length := by
      rw [← h2, List.length_append]
    simp only [List.length_append, List.length_take]
    omega
  · have key : ∀ l : List (List Char), (l.filter (fun p => !p.isEmpty)).flatten = l.flatten := by
      intro l
      induction l with
      | nil => simp
      | cons p l ih =>
          cases p with
          | nil => simpa using ih
          | cons x p => simp [ih]
    rw [List.flatten_append, key, ← List.flatten_append, List.take_append_drop]

/-- The matcher finds exactly the matches. -/
theorem ends_iff (e : Re) : ∀ (t r : List Char) (c : Caps),
    (r, c) ∈ e.ends t ↔ ∃ w, t = w ++ r ∧ e.L w c := by
  induction e with
  | cls p =>
      intro t r c
      cases t with
      | nil =>
          simp only [Re.ends, List.not_mem_nil, Re.L, false_iff]
          rintro ⟨w, h, -, x, -, rfl⟩
          simp at h
      | cons x t =>
          simp only [Re.ends, Re.L]
          split
          · rename_i hx
            simp only [List.mem_singleton, Prod.mk.injEq]
            constructor
            · rintro ⟨rfl, rfl⟩
              exact ⟨[x], rfl, rfl, x, hx, rfl⟩
            · rintro ⟨w, h, rfl, y, -, rfl⟩
              simp only [List.singleton_append, List.cons.injEq] at h
              exact ⟨h.2.symm, rfl⟩
          · rename_i hx
            simp only [List.not_mem_nil, false_iff]
            rintro ⟨w, h, -, y, hy, rfl⟩
            simp only [List.singleton_append, List.cons.injEq] at h
            rw [h.1] at hx
            exact hx hy
  | eps =>
      intro t r c
      simp only [Re.ends, List.mem_singleton, Prod.mk.injEq, Re.L]
      constructor
      · rintro ⟨rfl, rfl⟩
        exact ⟨[], rfl, rfl, rfl⟩
      · rintro ⟨w, rfl, rfl, rfl⟩
        exact ⟨rfl, rfl⟩
  | seq a b iha ihb =>
      intro t r c
      simp only [Re.ends, List.mem_flatMap, List.mem_map, Prod.exists, Prod.mk.injEq, Re.L]
      constructor
      · rintro ⟨r1, c1, h1, r2, c2, h2, rfl, rfl⟩
        obtain ⟨w1, rfl, l1⟩ := (iha _ _ _).1 h1
        obtain ⟨w2, rfl, l2⟩ := (ihb _ _ _).1 h2
        exact ⟨w1 ++ w2, by simp, w1, w2, c1, c2, rfl, rfl, l1, l2⟩
      · rintro ⟨w, rfl, w1, w2, c1, c2, rfl, rfl, l1, l2⟩
        exact ⟨w2 ++ r, c1, (iha _ _ _).2 ⟨w1, by simp, l1⟩, r, c2, (ihb _ _ _).2 ⟨w2, rfl, l2⟩, rfl, rfl⟩
  | alt a b iha ihb =>
      intro t r c
      simp only [Re.ends, List.mem_append, iha, ihb, Re.L]
      constructor
      · rintro (⟨w, h, l⟩ | ⟨w, h, l⟩)
        · exact ⟨w, h, .inl l⟩
        · exact ⟨w, h, .inr l⟩
      · rintro ⟨w, h, l | l⟩
        · exact .inl ⟨w, h, l⟩
        · exact .inr ⟨w, h, l⟩
  | grp k a iha =>
      intro t r c
      simp only [Re.ends, List.mem_map, Prod.exists, Prod.mk.injEq, Re.L]
      constructor
      · rintro ⟨r1, c1, h1, rfl, rfl⟩
        obtain ⟨w, rfl, l⟩ := (iha _ _ _).1 h1
        exact ⟨w, rfl, c1, l, by simp⟩
      · rintro ⟨w, rfl, c', l, rfl⟩
        exact ⟨r, c', (iha _ _ _).2 ⟨w, rfl, l⟩, rfl, by simp⟩
  | rep a lo hi iha =>
      intro t r c
      have hf : ∀ t r, r ∈ (fun t => (a.ends t).map Prod.fst) t ↔ ∃ w, t = w ++ r ∧ ∃ c', a.L w c' := by
        intro t r
        simp only [List.mem_map, Prod.exists, exists_and_right, exists_eq_right, iha]
        constructor
        · rintro ⟨c', w, h, l⟩
          exact ⟨w, h, c', l⟩
        · rintro ⟨w, h, c', l⟩
          exact ⟨c', w, h, l⟩
      simp only [Re.ends, List.mem_flatMap, List.mem_map, Prod.mk.injEq, List.mem_range'_1, pow_iff hf, Re.L]
      constructor
      · rintro ⟨n, hn, r', ⟨ps, rfl, hps, rfl⟩, rfl, rfl⟩
        refine ⟨ps.flatten, rfl, rfl, ps, hps, hn.1, ?_, rfl⟩
        rintro m rfl
        simp only [Option.getD_some] at hn
        omega
      · rintro ⟨w, rfl, rfl, ps, hps, h1, h2, rfl⟩
        obtain ⟨qs, q1, q2, q3, q4, q5⟩ := fewer ps lo h1 hps
        refine ⟨qs.length, ⟨q2, ?_⟩, r, ⟨qs, rfl, q1, by rw [q5]⟩, rfl, rfl⟩
        cases hi with
        | none =>
            simp only [Option.getD_none, List.length_append]
            omega
        | some m =>
            have := h2 m rfl
            simp only [Option.getD_some]
            omega

/-- A match of a pattern: the text before it, the matched text, the text behind it. -/
def Pattern.Match (p : Pattern) (pre w post : List Char) (c : Caps) : Prop :=
  ∃ b ∈ p, (b.bol = true → pre = []) ∧ (b.eol = true → post = []) ∧ b.re.L w c

theorem at_iff (p : Pattern) (pre t r : List Char) (c : Caps) :
    (r, c) ∈ p.at pre.isEmpty t ↔ ∃ w, t = w ++ r ∧ p.Match pre w r c := by
  simp only [Pattern.at, List.mem_flatMap, Pattern.Match]
  constructor
  · rintro ⟨b, hb, h⟩
    split at h
    · simp at h
    · rename_i hbol
      simp only [List.mem_filter, ends_iff] at h
      obtain ⟨⟨w, rfl, l⟩, he⟩ := h
      refine ⟨w, rfl, b, hb, ?_, ?_, l⟩
      · intro hb'
        cases pre with
        | nil => rfl
        | cons x pre => simp [hb'] at hbol
      · intro he'
        simpa [he'] using he
  · rintro ⟨w, rfl, b, hb, h1, h2, l⟩
    refine ⟨b, hb, ?_⟩
    rw [if_neg]
    · simp only [List.mem_filter, ends_iff]
      refine ⟨⟨w, rfl, l⟩, ?_⟩
      cases he : b.eol
      · simp
      · simp [h2 he]
    · cases hbo : b.bol
      · simp
      · simp [h1 hbo]

theorem longest_none {l : List (List Char × Caps)} : longest l = none ↔ l = [] := by
  cases l with
  | nil => simp [longest]
  | cons q l =>
      simp only [longest, reduceCtorEq, iff_false]
      split <;> [skip; split] <;> simp

theorem longest_some {l : List (List Char × Caps)} {q : List Char × Caps} (h : longest l = some q) :
    q ∈ l ∧ ∀ q' ∈ l, q.1.length ≤ q'.1.length := by
  induction l generalizing q with
  | nil => simp [longest] at h
  | cons q0 l ih =>
      simp only [longest] at h
      split at h
      · rename_i hn
        rw [longest_none] at hn
        subst hn
        simp only [Option.some.injEq] at h
        subst h
        simp
      · rename_i q1 h1
        obtain ⟨i1, i2⟩ := ih h1
        split at h
        · rename_i hl
          simp only [Option.some.injEq] at h
          subst h
          refine ⟨by simp [i1], ?_⟩
          intro q' hq'
          rcases List.mem_cons.1 hq' with rfl | hq'
          · omega
          · exact i2 q' hq'
        · rename_i hl
          simp only [Option.some.injEq] at h
          subst h
          refine ⟨by simp, ?_⟩
          intro q' hq'
          rcases List.mem_cons.1 hq' with rfl | hq'
          · omega
          · exact Nat.le_trans (Nat.le_of_not_lt hl) (i2 q' hq')

/-- The rule of POSIX: the match begins as early as any match does, and no match that begins there is longer. -/
structure LeftmostLongest (p : Pattern) (s pre w post : List Char) (c : Caps) : Prop where
  text : s = pre ++ w ++ post
  isMatch : p.Match pre w post c
  leftmost : ∀ pre' w' post' c', s = pre' ++ w' ++ post' → p.Match pre' w' post' c' → pre.length ≤ pre'.length
  longest : ∀ w' post' c', s = pre ++ w' ++ post' → p.Match pre w' post' c' → w'.length ≤ w.length

theorem from_spec (p : Pattern) : ∀ (t pre : List Char),
    (∀ pre' w' post' c', pre ++ t = pre' ++ w' ++ post' → p.Match pre' w' post' c' → pre.length ≤ pre'.length) →
    (p.from pre.isEmpty t = none →
      ∀ pre' w' post' c', pre ++ t = pre' ++ w' ++ post' → ¬ p.Match pre' w' post' c') ∧
    (∀ q, p.from pre.isEmpty t = some q →
      ∃ pre' w', LeftmostLongest p (pre ++ t) pre' w' q.1 q.2) := by
  have here : ∀ (t pre : List Char),
      (∀ pre' w' post' c', pre ++ t = pre' ++ w' ++ post' → p.Match pre' w' post' c' → pre.length ≤ pre'.length) →
      ∀ q, longest (p.at pre.isEmpty t) = some q →
        ∃ pre' w', LeftmostLongest p (pre ++ t) pre' w' q.1 q.2 := by
    rintro t pre hp ⟨r, c⟩ hq
    obtain ⟨q1, q2⟩ := longest_some hq
    obtain ⟨w, rfl, m⟩ := (at_iff p pre t r c).1 q1
    refine ⟨pre, w, by simp, m, hp, ?_⟩
    intro w' post' c' h m'
    have h' : w ++ r = w' ++ post' := by
      simpa using h
    have h2 := q2 (post', c') ((at_iff p pre _ post' c').2 ⟨w', h', m'⟩)
    have h3 := congrArg List.length h'
    simp only [List.length_append] at h3
    dsimp only at h2
    omega
  have nothere : ∀ (t pre : List Char), longest (p.at pre.isEmpty t) = none →
      ∀ pre' w' post' c', pre ++ t = pre' ++ w' ++ post' → p.Match pre' w' post' c' →
        pre.length ≠ pre'.length := by
    intro t pre hn pre' w' post' c' h m e
    rw [longest_none] at hn
    have h1 : pre = pre' := (List.append_inj (by simpa using h) e).1
    subst h1
    have h2 : t = w' ++ post' := by simpa using h
    have := (at_iff p pre t post' c').2 ⟨w', h2, m⟩
    rw [hn] at this
    simp at this
  intro t
  induction t with
  | nil =>
      intro pre hp
      refine ⟨?_, ?_⟩
      · intro hn pre' w' post' c' h m
        have h1 := nothere [] pre hn pre' w' post' c' h m
        have h2 := hp pre' w' post' c' h m
        have h3 := congrArg List.length h
        simp only [List.length_append, List.length_nil] at h3
        omega
      · intro q hq
        exact here [] pre hp q hq
  | cons x t ih =>
      intro pre hp
      cases hl : longest (p.at pre.isEmpty (x :: t)) with
      | some q0 =>
          refine ⟨?_, ?_⟩
          · intro hn
            simp [Pattern.from, hl] at hn
          · intro q hq
            simp only [Pattern.from, hl, Option.some.injEq] at hq
            subst hq
            exact here _ _ hp _ hl
      | none =>
          have hne : (pre ++ [x]).isEmpty = false := by
            cases pre <;> rfl
          have hp' : ∀ pre' w' post' c', (pre ++ [x]) ++ t = pre' ++ w' ++ post' → p.Match pre' w' post' c' →
              (pre ++ [x]).length ≤ pre'.length := by
            intro pre' w' post' c' h m
            have h' : pre ++ x :: t = pre' ++ w' ++ post' := by simpa using h
            have h1 := nothere _ pre hl pre' w' post' c' h' m
            have h2 := hp pre' w' post' c' h' m
            simp only [List.length_append, List.length_singleton]
            omega
          have hi := ih (pre ++ [x]) hp'
          rw [hne] at hi
          have e : pre ++ [x] ++ t = pre ++ x :: t := by simp
          rw [e] at hi
          have e2 : p.from pre.isEmpty (x :: t) = p.from false t := by
            simp [Pattern.from, hl]
          rw [e2]
          exact hi

/-- `regexec` finds nothing only when there is no match, and else a match that POSIX allows it to report. -/
theorem regexec_none (p : Pattern) (s : List Char) :
    regexec p s = none ↔ ∀ pre w post c, s = pre ++ w ++ post → ¬ p.Match pre w post c := by
  have h := from_spec p s [] (by simp)
  simp only [List.isEmpty_nil, List.nil_append] at h
  constructor
  · intro hn
    exact h.1 (by simpa [regexec] using hn)
  · intro hn
    cases hq : p.from true s with
    | none => simp [regexec, hq]
    | some q =>
        obtain ⟨pre, w, l⟩ := h.2 q hq
        exact absurd l.isMatch (hn _ _ _ _ l.text)

theorem regexec_some {p : Pattern} {s : List Char} {c : Caps} (hc : regexec p s = some c) :
    ∃ pre w post, LeftmostLongest p s pre w post c := by
  have h := from_spec p s [] (by simp)
  simp only [List.isEmpty_nil, List.nil_append] at h
  cases hq : p.from true s with
  | none => simp [regexec, hq] at hc
  | some q =>
      obtain ⟨pre, w, l⟩ := h.2 q hq
      simp only [regexec, hq, Option.map_some, Option.some.injEq] at hc
      subst hc
      exact ⟨pre, w, q.1, l⟩

theorem matchRegex_iff (p : Pattern) (s : List Char) :
    matchRegex p s = true ↔ ∃ pre w post c, s = pre ++ w ++ post ∧ p.Match pre w post c := by
  have h := regexec_none p s
  unfold matchRegex
  cases hq : regexec p s with
  | none =>
      simp only [Option.isSome_none, Bool.false_eq_true, false_iff]
      rintro ⟨pre, w, post, c, h1, h2⟩
      exact h.1 hq pre w post c h1 h2
  | some c =>
      obtain ⟨pre, w, post, l⟩ := regexec_some hq
      simp only [Option.isSome_some, true_iff]
      exact ⟨pre, w, post, c, l.text, l.isMatch⟩

end Verif.RtiAddr
