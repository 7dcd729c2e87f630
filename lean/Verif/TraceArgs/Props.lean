import Verif.TraceArgs.Model
import Verif.TraceArgs.Spec
import Verif.Args.Props
import Verif.Chrome.Props

/-!
# C99: the command lines of the tools that convert traces
-/

namespace ReactorC.TraceArgs

open ReactorC.Args (Str atoll startsWith scale scale_iff)
open ReactorC.Chrome (rootName rootName_of afterLast afterLast_append afterLast_none)
open Spec

/-! ## Arguments that name trace files -/

/-- An argument that may be taken for a trace file because of what is in front of it: a proper end of `.lft`. -/
def Odd (a : Str) : Prop := a = [] ∨ a = "t".toList ∨ a = "ft".toList ∨ a = "lft".toList

instance (a : Str) : Decidable (Odd a) := inferInstanceAs (Decidable (_ ∨ _))

theorem isTrace_iff (before a : Str) : isTrace before a = true ↔ ".lft".toList <:+ before ++ a := by
  unfold isTrace
  rw [decide_eq_true_eq, List.suffix_iff_eq_drop]
  exact eq_comm

theorem suffix_of {before a : Str} (h : ".lft".toList <:+ before ++ a) (ho : ¬ Odd a) : ".lft".toList <:+ a := by
  by_cases hl : 4 ≤ a.length
  · exact List.suffix_of_suffix_length_le h (List.suffix_append _ _) hl
  · have hs : a <:+ ".lft".toList := List.suffix_of_suffix_length_le (List.suffix_append _ _) h (by
      show a.length ≤ 4; omega)
    exfalso
    rw [List.suffix_iff_eq_drop] at hs
    apply ho
    have e : (".lft".toList : Str).length = 4 := rfl
    rw [e] at hs
    have hc : a.length = 0 ∨ a.length = 1 ∨ a.length = 2 ∨ a.length = 3 := by omega
    rcases hc with k | k | k | k <;> rw [k] at hs
    · exact Or.inl (by rw [hs]; rfl)
    · exact Or.inr (Or.inl (by rw [hs]; rfl))
    · exact Or.inr (Or.inr (Or.inl (by rw [hs]; rfl)))
    · exact Or.inr (Or.inr (Or.inr (by rw [hs]; rfl)))

theorem isTrace_eq (before a : Str) (ho : ¬ Odd a) : isTrace before a = true ↔ ".lft".toList <:+ a := by
  rw [isTrace_iff]
  exact ⟨fun h => suffix_of h ho, fun h => h.trans (List.suffix_append _ _)⟩

/-! ## Times -/

theorem denotes_iff (n u : Str) (t : Int) : Denotes atoll n u t ↔
    ¬ (atoll n = 0 ∧ startsWith n "0".toList = false) ∧ scale (atoll n) u = some t := by
  unfold Denotes
  rw [scale_iff]
  have h0 : startsWith n "0".toList = true ↔ n.head? = some '0' := by
    unfold startsWith
    cases n with
    | nil => decide
    | cons c l =>
      show ('0' == c && ([] : Str).isPrefixOf l) = true ↔ some c = some '0'
      rw [List.isPrefixOf, Bool.and_true, beq_iff_eq, Option.some.injEq]
      exact eq_comm
  have h1 : (∃ p f, (p, f) ∈ units ∧ p <+: u ∧ t = f * atoll n) ↔ ∃ f, Args.Unit u f ∧ t = f * atoll n := by
    unfold Args.Unit
    constructor
    · rintro ⟨p, f, h1, h2, h3⟩
      exact ⟨f, ⟨p, h1, h2⟩, h3⟩
    · rintro ⟨f, ⟨p, h1, h2⟩, h3⟩
      exact ⟨p, f, h1, h2, h3⟩
  rw [h1, ← h0, not_and, Bool.not_eq_false]
  exact and_congr_left' ⟨fun h k => h.resolve_left (fun c => c k), fun h => by
    by_cases k : atoll n = 0
    · exact Or.inr (h k)
    · exact Or.inl k⟩

theorem stringToInstant_of {n u : Str} {t : Int} (h : Denotes atoll n u t) : stringToInstant n u = t := by
  obtain ⟨h1, h2⟩ := (denotes_iff n u t).1 h
  unfold stringToInstant
  rw [if_neg h1, h2]
  rfl

theorem of_stringToInstant {n u : Str} (h : stringToInstant n u ≠ -1) : Denotes atoll n u (stringToInstant n u) := by
  rw [denotes_iff]
  unfold stringToInstant at h ⊢
  by_cases hc : atoll n = 0 ∧ startsWith n "0".toList = false
  · rw [if_pos hc] at h
    exact absurd rfl h
  · rw [if_neg hc] at h ⊢
    refine ⟨hc, ?_⟩
    cases hs : scale (atoll n) u with
    | none => rw [hs] at h; exact absurd rfl h
    | some t => rfl

/-! ## trace_to_csv -/

/-- The request that has been read. -/
def Csv.request (s : Csv) : Request := ⟨s.file, s.start, s.stop⟩

theorem request_init : Csv.init.request = everything := rfl

/-- No time is -1 nanosecond, which cannot be told from an error. -/
def Told (ps : List Part) : Prop := ∀ p ∈ ps, match p with
  | .file _ => True
  | .start n u => ¬ Denotes atoll n u (-1)
  | .stop n u => ¬ Denotes atoll n u (-1)

theorem not_odd_s : ¬ Odd "-s".toList := by decide
theorem not_odd_e : ¬ Odd "-e".toList := by decide
theorem not_trace_s (b : Str) : ¬ isTrace b "-s".toList = true := by
  rw [isTrace_eq _ _ not_odd_s]; decide
theorem not_trace_e (b : Str) : ¬ isTrace b "-e".toList = true := by
  rw [isTrace_eq _ _ not_odd_e]; decide

theorem denotes_unique {n u : Str} {t t' : Int} (h : Denotes atoll n u t) (h' : Denotes atoll n u t') : t = t' := by
  rw [← stringToInstant_of h, stringToInstant_of h']

theorem process_of_means {opens : Str → Bool} (before : Nat → Str) {ps : List Part} {r r' : Request} (h : Means atoll opens ps r r') :
    ∀ s : Csv, s.request = r → Told ps → ∃ s', s'.request = r' ∧ process opens before (ps.flatMap Part.words) s = .done s' := by
  induction h with
  | nil r => intro s hs _; exact ⟨s, hs, by unfold process; rfl⟩
  | file f ps r r' h1 h2 _ ih =>
    intro s hs ht
    obtain ⟨s', e, k⟩ := ih { s with file := some f } (by rw [← hs]; rfl) (fun p hp => ht p (List.mem_cons_of_mem _ hp))
    refine ⟨s', e, ?_⟩
    show process opens before (f :: ps.flatMap Part.words) s = _
    unfold process
    have hc : isTrace (before (ps.flatMap Part.words).length) f = true := (isTrace_iff _ _).2 (h1.trans (List.suffix_append _ _))
    rw [if_pos hc, if_pos h2]
    exact k
  | start n u t ps r r' h1 _ ih =>
    intro s hs ht
    obtain ⟨s', e, k⟩ := ih { s with start := t } (by rw [← hs]; rfl) (fun p hp => ht p (List.mem_cons_of_mem _ hp))
    refine ⟨s', e, ?_⟩
    show process opens before ("-s".toList :: n :: u :: ps.flatMap Part.words) s = _
    have hne : stringToInstant n u ≠ -1 := by
      rw [stringToInstant_of h1]
      rintro rfl
      exact ht (.start n u) List.mem_cons_self h1
    unfold process
    rw [if_neg (not_trace_s _), if_pos rfl]
    dsimp only
    rw [if_neg hne, stringToInstant_of h1]
    exact k
  | stop n u t ps r r' h1 _ ih =>
    intro s hs ht
    obtain ⟨s', e, k⟩ := ih { s with stop := t } (by rw [← hs]; rfl) (fun p hp => ht p (List.mem_cons_of_mem _ hp))
    refine ⟨s', e, ?_⟩
    show process opens before ("-e".toList :: n :: u :: ps.flatMap Part.words) s = _
    have hne : stringToInstant n u ≠ -1 := by
      rw [stringToInstant_of h1]
      rintro rfl
      exact ht (.stop n u) List.mem_cons_self h1
    have hse : ¬ ("-e".toList : Str) = "-s".toList := by decide
    unfold process
    rw [if_neg (not_trace_e _), if_neg hse, if_pos rfl]
    dsimp only
    rw [if_neg hne, stringToInstant_of h1]
    exact k

theorem means_of_process {opens : Str → Bool} (before : Nat → Str) (k : Nat) : ∀ (args : List Str) (s s' : Csv), args.length ≤ k →
    (∀ a ∈ args, ¬ Odd a) → process opens before args s = .done s' →
    ∃ ps, ps.flatMap Part.words = args ∧ Means atoll opens ps s.request s'.request ∧ Told ps := by
  induction k with
  | zero =>
    intro args s s' hl _ h
    obtain rfl : args = [] := List.length_eq_zero_iff.1 (by omega)
    unfold process at h
    injection h with h
    subst h
    exact ⟨[], rfl, .nil _, fun _ h => by cases h⟩
  | succ k ih =>
    intro args s s' hl ho h
    cases args with
    | nil =>
      unfold process at h
      injection h with h
      subst h
      exact ⟨[], rfl, .nil _, fun _ h => by cases h⟩
    | cons a as =>
      have hl' : as.length ≤ k := by simpa using hl
      unfold process at h
      by_cases h1 : isTrace (before as.length) a = true
      · rw [if_pos h1] at h
        by_cases h2 : opens a = true
        · rw [if_pos h2] at h
          obtain ⟨ps, e, m, t⟩ := ih as _ s' hl' (fun b hb => ho b (List.mem_cons_of_mem _ hb)) h
          refine ⟨.file a :: ps, by rw [List.flatMap_cons, e]; rfl,
            .file _ _ _ _ ((isTrace_eq _ _ (ho a List.mem_cons_self)).1 h1) h2 m, fun p hp => ?_⟩
          rcases List.mem_cons.1 hp with rfl | hp
          · trivial
          · exact t p hp
        · rw [if_neg h2] at h
          cases h
      · rw [if_neg h1] at h
        by_cases h2 : a = "-s".toList
        · rw [if_pos h2] at h
          match as, h, ho, hl' with
          | [], h, _, _ => cases h
          | [_], h, _, _ => cases h
          | n :: u :: rest, h, ho, hl' =>
            dsimp only at h
            by_cases h3 : stringToInstant n u = -1
            · rw [if_pos h3] at h; cases h
            · rw [if_neg h3] at h
              obtain ⟨ps, e, m, t⟩ := ih rest _ s' (by simp at hl'; omega)
                (fun b hb => ho b (List.mem_cons_of_mem _ (List.mem_cons_of_mem _ (List.mem_cons_of_mem _ hb)))) h
              refine ⟨.start n u :: ps, by rw [List.flatMap_cons, e, h2]; rfl, .start _ _ _ _ _ _ (of_stringToInstant h3) m, fun p hp => ?_⟩
              rcases List.mem_cons.1 hp with rfl | hp
              · exact fun c => h3 (stringToInstant_of c)
              · exact t p hp
        · rw [if_neg h2] at h
          by_cases h4 : a = "-e".toList
          · rw [if_pos h4] at h
            match as, h, ho, hl' with
            | [], h, _, _ => cases h
            | [_], h, _, _ => cases h
            | n :: u :: rest, h, ho, hl' =>
              dsimp only at h
              by_cases h3 : stringToInstant n u = -1
              · rw [if_pos h3] at h; cases h
              · rw [if_neg h3] at h
                obtain ⟨ps, e, m, t⟩ := ih rest _ s' (by simp at hl'; omega)
                  (fun b hb => ho b (List.mem_cons_of_mem _ (List.mem_cons_of_mem _ (List.mem_cons_of_mem _ hb)))) h
                refine ⟨.stop n u :: ps, by rw [List.flatMap_cons, e, h4]; rfl, .stop _ _ _ _ _ _ (of_stringToInstant h3) m, fun p hp => ?_⟩
                rcases List.mem_cons.1 hp with rfl | hp
                · exact fun c => h3 (stringToInstant_of c)
                · exact t p hp
          · rw [if_neg h4] at h
            cases h

/-- C99.  `trace_to_csv` accepts exactly the command lines that are made of names of trace files, `-s` and `-e` with a numeral and a unit,
in any order, whatever is in memory in front of the arguments; it converts the last file, from the last time given with `-s` on and before
the last one given with `-e`, if it can create the files it writes.  `_partial`: no time is -1 nanosecond, and no argument is a proper end
of `.lft` (see `C99_minus_one_nanosecond_not_accepted` and `C99_end_of_lft_not_safe`). -/
theorem C99_csv_command_line_partial (opens : Str → Bool) (creates : Str → Bool) (before : Nat → Str) (args : List Str)
    (ho : ∀ a ∈ args, ¬ Odd a) (hc : ∀ f, creates f = true) (f : Str) (start stop : Int) :
    (∃ csv summary, csvMain opens creates before args = .convert f csv summary start stop) ↔
    ∃ ps, ps.flatMap Part.words = args ∧ Means atoll opens ps everything ⟨some f, start, stop⟩ ∧ Told ps := by
  constructor
  · rintro ⟨csv, summary, h⟩
    unfold csvMain at h
    cases hp : process opens before args .init with
    | error => rw [hp] at h; cases h
    | usage => rw [hp] at h; cases h
    | noFile => rw [hp] at h; cases h
    | done s =>
      rw [hp] at h
      dsimp only at h
      obtain ⟨ps, e, m, t⟩ := means_of_process before args.length args .init s (Nat.le_refl _) ho hp
      cases hf : s.file with
      | none => rw [hf] at h; cases h
      | some g =>
        rw [hf] at h
        dsimp only at h
        rw [hc, hc] at h
        injection h with h1 _ _ h2 h3
        refine ⟨ps, e, ?_, t⟩
        have : s.request = ⟨some f, start, stop⟩ := by
          unfold Csv.request
          rw [hf, h1, h2, h3]
        rw [← this]
        exact m
  · rintro ⟨ps, rfl, m, t⟩
    obtain ⟨s', e, k⟩ := process_of_means before m .init rfl t
    unfold csvMain
    rw [k]
    have e1 : s'.file = some f := congrArg Request.file e
    have e2 : s'.start = start := congrArg Request.start e
    have e3 : s'.stop = stop := congrArg Request.stop e
    dsimp only
    rw [e1]
    dsimp only
    rw [hc, hc, e2, e3]
    exact ⟨_, _, rfl⟩

/-- Two files and an interval. -/
example : csvMain (fun _ => true) (fun _ => true) (fun _ => []) (["old.lft", "-s", "10", "msec", "logs/fed.1.lft", "-e", "2", "sec"].map String.toList) =
    .convert "logs/fed.1.lft".toList "fed.1.csv".toList "fed.1_summary.csv".toList 10000000 2000000000 := by decide +kernel

/-- C99.  The files that `trace_to_csv` writes have the name of the trace file without the directory and with `.lft` replaced by `.csv` and
`_summary.csv`; they are two files, neither of which has a name like that of a trace file, so that no trace is overwritten. -/
theorem C99_csv_files (opens creates : Str → Bool) (before : Nat → Str) (args : List Str) (ho : ∀ a ∈ args, ¬ Odd a)
    {f csv summary : Str} {start stop : Int} (h : csvMain opens creates before args = .convert f csv summary start stop) :
    f ∈ args ∧ csv ≠ summary ∧ ¬ ".lft".toList <:+ csv ∧ ¬ ".lft".toList <:+ summary ∧
    ∃ dir stem, '/' ∉ stem ∧ (f = stem ++ ".lft".toList ∨ f = dir ++ '/' :: (stem ++ ".lft".toList)) ∧
      csv = stem ++ ".csv".toList ∧ summary = stem ++ "_summary.csv".toList := by
  unfold csvMain at h
  cases hp : process opens before args .init with
  | error => rw [hp] at h; cases h
  | usage => rw [hp] at h; cases h
  | noFile => rw [hp] at h; cases h
  | done s =>
    rw [hp] at h
    dsimp only at h
    obtain ⟨ps, e, m, t⟩ := means_of_process before args.length args .init s (Nat.le_refl _) ho hp
    cases hf : s.file with
    | none => rw [hf] at h; cases h
    | some g =>
      rw [hf] at h
      dsimp only at h
      split at h
      · injection h with h1 h2 h3 _ _
        subst h1 h2 h3
        have key : ∀ (ps : List Part) (r r' : Request), Means atoll opens ps r r' → ∀ g, r'.file = some g →
            r.file = some g ∨ (.file g ∈ ps ∧ ".lft".toList <:+ g) := by
          intro ps r r' hm
          induction hm with
          | nil r => intro g hg; exact Or.inl hg
          | file f ps r r' h1 _ _ ih =>
            intro g hg
            rcases ih g hg with k | k
            · injection k with k
              subst k
              exact Or.inr ⟨List.mem_cons_self, h1⟩
            · exact Or.inr ⟨List.mem_cons_of_mem _ k.1, k.2⟩
          | start n u t ps r r' _ _ ih =>
            intro g hg
            rcases ih g hg with k | k
            · exact Or.inl k
            · exact Or.inr ⟨List.mem_cons_of_mem _ k.1, k.2⟩
          | stop n u t ps r r' _ _ ih =>
            intro g hg
            rcases ih g hg with k | k
            · exact Or.inl k
            · exact Or.inr ⟨List.mem_cons_of_mem _ k.1, k.2⟩
        obtain ⟨hg1, hg2⟩ := (key _ _ _ m g hf).resolve_left (fun c => by cases c)
        obtain ⟨front, rfl⟩ := hg2
        have hend : ∀ (x y : Str), y.length = 4 → y ≠ ".lft".toList → ¬ ".lft".toList <:+ x ++ y := by
          intro x y hy hne hs
          have h1 : ".lft".toList <:+ y := List.suffix_of_suffix_length_le hs (List.suffix_append _ _) (by rw [hy]; decide)
          exact hne (h1.eq_of_length (by rw [hy]; rfl)).symm
        refine ⟨?_, ?_, hend _ _ rfl (by decide), ?_, ?_⟩
        · rw [← e]
          exact List.mem_flatMap.2 ⟨_, hg1, List.mem_cons_self⟩
        · intro c
          have := List.append_cancel_left c
          revert this
          decide
        · have : ("_summary.csv".toList : Str) = "_summary".toList ++ ".csv".toList := by decide
          rw [this, ← List.append_assoc]
          exact hend _ _ rfl (by decide)
        · have he : (".lft".toList : Str) = '.' :: "lft".toList := by decide
          have hx : '/' ∉ (".lft".toList : Str) := by decide
          have hd : '.' ∉ ("lft".toList : Str) := by decide
          by_cases hs : '/' ∈ front
          · obtain ⟨dir, stem, rfl, hn⟩ : ∃ dir stem, front = dir ++ '/' :: stem ∧ '/' ∉ stem := by
              obtain ⟨a, b, h1, h2⟩ := List.eq_append_cons_of_mem (List.mem_reverse.2 hs)
              refine ⟨b.reverse, a.reverse, ?_, fun c => h2 (List.mem_reverse.1 c)⟩
              rw [← List.reverse_reverse front, h1]
              simp
            have hr : rootName ((dir ++ '/' :: stem) ++ ".lft".toList) = stem := by
              rw [List.append_assoc, List.cons_append]
              exact (rootName_of (afterLast_append '/' dir _ (by
                intro c
                rcases List.mem_append.1 c with c | c
                · exact hn c
                · exact hx c))).1 stem "lft".toList (by rw [he]) hd
            exact ⟨dir, stem, hn, Or.inr (by rw [List.append_assoc, List.cons_append]), by rw [hr], by rw [hr]⟩
          · have hr : rootName (front ++ ".lft".toList) = front :=
              (rootName_of (afterLast_none '/' _ (by
                intro c
                rcases List.mem_append.1 c with c | c
                · exact hs c
                · exact hx c))).1 front "lft".toList (by rw [he]) hd
            exact ⟨[], front, hs, Or.inl rfl, by rw [hr], by rw [hr]⟩
      · cases h

/-- C99.  With the command line of `trace_to_csv`, what is in memory in front of the arguments makes no difference, although arguments
that are shorter than four characters, among them every `-s` and `-e`, are compared with it. -/
theorem C99_memory_in_front_is_irrelevant (opens creates : Str → Bool) (before before' : Nat → Str) (args : List Str)
    (ho : ∀ a ∈ args, ¬ Odd a) : csvMain opens creates before args = csvMain opens creates before' args := by
  have key : ∀ (k : Nat) (args : List Str) (s : Csv), args.length ≤ k → (∀ a ∈ args, ¬ Odd a) →
      process opens before args s = process opens before' args s := by
    intro k
    induction k with
    | zero =>
      intro args s hl _
      obtain rfl : args = [] := List.length_eq_zero_iff.1 (by omega)
      unfold process
      rfl
    | succ k ih =>
      intro args s hl ho
      cases args with
      | nil => unfold process; rfl
      | cons a as =>
        have hl' : as.length ≤ k := by simpa using hl
        have ht : isTrace (before as.length) a = isTrace (before' as.length) a := by
          rw [Bool.eq_iff_iff, isTrace_eq _ _ (ho a List.mem_cons_self), isTrace_eq _ _ (ho a List.mem_cons_self)]
        have ho' : ∀ b ∈ as, ¬ Odd b := fun b hb => ho b (List.mem_cons_of_mem _ hb)
        unfold process
        rw [ht, ih as _ hl' ho']
        match as, ho', hl' with
        | [], _, _ => rfl
        | [_], _, _ => rfl
        | n :: u :: rest, ho', hl' =>
          have hr : ∀ b ∈ rest, ¬ Odd b := fun b hb => ho' b (List.mem_cons_of_mem _ (List.mem_cons_of_mem _ hb))
          have hk : rest.length ≤ k := by simp at hl'; omega
          dsimp only
          rw [ih rest _ hk hr, ih rest _ hk hr]
  unfold csvMain
  rw [key args.length args .init (Nat.le_refl _) ho]

/-- The condition on the arguments is met by usual command lines. -/
example : ∀ a ∈ ["-s", "0", "sec", "x.lft"].map String.toList, ¬ Odd a := by decide

/-- C99 does not hold for an argument that is a proper end of `.lft`: with the other end in front of it, it is taken for a trace file. -/
theorem C99_end_of_lft_not_safe (creates : Str → Bool) (hc : ∀ f, creates f = true) :
    csvMain (fun _ => true) creates (fun _ => ".l".toList) ["ft".toList] =
      .convert "ft".toList "ft.csv".toList "ft_summary.csv".toList (- 2 ^ 63) (2 ^ 63 - 1) ∧
    csvMain (fun _ => true) creates (fun _ => []) ["ft".toList] = .exit 0 := by
  constructor
  · have h1 : process (fun _ => true) (fun _ => ".l".toList) ["ft".toList] .init = .done ⟨some "ft".toList, - 2 ^ 63, 2 ^ 63 - 1⟩ := by decide +kernel
    have h2 : rootName "ft".toList = "ft".toList := by decide +kernel
    unfold csvMain
    rw [h1]
    dsimp only
    rw [h2, hc, hc]
    rfl
  · have h1 : process (fun _ => true) (fun _ => []) ["ft".toList] .init = .usage := by decide +kernel
    unfold csvMain
    rw [h1]

/-- C99 does not hold for a time of -1 nanosecond, which is taken for an error. -/
theorem C99_minus_one_nanosecond_not_accepted (opens creates : Str → Bool) (before : Nat → Str) (n u : Str) (rest : List Str)
    (h : Denotes atoll n u (-1)) :
    csvMain opens creates before ("-s".toList :: n :: u :: rest) = .exit (-1) ∧
    csvMain opens creates before ("-e".toList :: n :: u :: rest) = .exit (-1) := by
  have hse : ¬ ("-e".toList : Str) = "-s".toList := by decide
  constructor
  · unfold csvMain process
    rw [if_neg (not_trace_s _), if_pos rfl]
    dsimp only
    rw [if_pos (stringToInstant_of h)]
  · unfold csvMain process
    rw [if_neg (not_trace_e _), if_neg hse, if_pos rfl]
    dsimp only
    rw [if_pos (stringToInstant_of h)]

example : Denotes atoll "-1".toList "nsec".toList (-1) :=
  ⟨Or.inl (by decide), "nsec".toList, 1, by decide, List.prefix_refl _, by decide⟩

/-- C99 does not hold for the long names of the options, which the usage names: the usage is printed, and the status is that of success. -/
theorem C99_long_options_not_accepted (opens creates : Str → Bool) (before : Nat → Str) (rest : List Str) :
    csvMain opens creates before ("--start".toList :: rest) = .exit 0 ∧ csvMain opens creates before ("--end".toList :: rest) = .exit 0 := by
  have h1 : ¬ isTrace (before rest.length) "--start".toList = true := by rw [isTrace_eq _ _ (by decide)]; decide
  have h2 : ¬ isTrace (before rest.length) "--end".toList = true := by rw [isTrace_eq _ _ (by decide)]; decide
  constructor
  · unfold csvMain process
    rw [if_neg h1, if_neg (by decide), if_neg (by decide)]
  · unfold csvMain process
    rw [if_neg h2, if_neg (by decide), if_neg (by decide)]

/-- C99 does not hold for a command line without a trace file: the program uses a pointer that has not been initialized. -/
theorem C99_missing_file_not_handled (opens creates : Str → Bool) (before : Nat → Str) (ps : List Part) {r : Request}
    (hm : Means atoll opens ps everything r) (ht : Told ps) (hf : ∀ f, Part.file f ∉ ps) :
    csvMain opens creates before (ps.flatMap Part.words) = .undefined := by
  obtain ⟨s, e, k⟩ := process_of_means before hm .init rfl ht
  have key : ∀ (ps : List Part) (r r' : Request), Means atoll opens ps r r' → (∀ f, Part.file f ∉ ps) → r'.file = r.file := by
    intro ps r r' hm
    induction hm with
    | nil r => intro _; rfl
    | file f ps r r' _ _ _ _ => intro h; exact absurd List.mem_cons_self (h f)
    | start n u t ps r r' _ _ ih => intro h; exact ih fun f hf => h f (List.mem_cons_of_mem _ hf)
    | stop n u t ps r r' _ _ ih => intro h; exact ih fun f hf => h f (List.mem_cons_of_mem _ hf)
  have e1 : s.file = none := (congrArg Request.file e).trans (key _ _ _ hm hf)
  unfold csvMain
  rw [k]
  dsimp only
  rw [e1]

example : csvMain (fun _ => true) (fun _ => true) (fun _ => []) [] = .undefined := by decide +kernel

/-! ## trace_to_influxdb -/

theorem last_cons (f : Item → Option Str) (i : Item) (items : List Item) : last f (i :: items) = (last f items).or (f i) := by
  unfold last
  rw [List.filterMap_cons]
  cases h : f i with
  | none => simp
  | some v =>
    dsimp only
    rw [List.getLast?_cons]
    cases (items.filterMap f).getLast? <;> rfl

/-- What the items set. -/
def settings (items : List Item) (s : Influx) : Influx where
  token := (last Item.token? items).or s.token
  host := (last Item.host? items).getD s.host
  port := ((last Item.port? items).map atoll).getD s.port
  org := (last Item.org? items).getD s.org
  bucket := (last Item.bucket? items).getD s.bucket
  file := (last Item.file? items).or s.file

theorem not_options {f : Str} (h : f ∉ options) : ¬ (f = "-t".toList ∨ f = "--token".toList) ∧ ¬ (f = "-h".toList ∨ f = "--host".toList) ∧
    ¬ (f = "-p".toList ∨ f = "--port".toList) ∧ ¬ (f = "-o".toList ∨ f = "--org".toList) ∧ ¬ (f = "-b".toList ∨ f = "--bucket".toList) := by
  refine ⟨?_, ?_, ?_, ?_, ?_⟩ <;> rintro (rfl | rfl) <;> exact h (by decide)

theorem influxArgs_words (items : List Item) (h : ∀ i ∈ items, i.Ok) (tail : List Str) (s : Influx) :
    influxArgs (items.flatMap Item.words ++ tail) s = influxArgs tail (settings items s) := by
  induction items generalizing s with
  | nil => rfl
  | cons i items ih =>
    have ih' := ih fun j hj => h j (List.mem_cons_of_mem _ hj)
    have step : influxArgs (i.words ++ (items.flatMap Item.words ++ tail)) s =
        influxArgs (items.flatMap Item.words ++ tail) (settings [i] s) := by
      cases i with
      | token l v => cases l <;> rfl
      | host l v => cases l <;> rfl
      | port l v => cases l <;> rfl
      | org l v => cases l <;> rfl
      | bucket l v => cases l <;> rfl
      | file f =>
        obtain ⟨h1, h2, h3, h4, h5⟩ := not_options (h (.file f) List.mem_cons_self)
        show influxArgs (f :: (items.flatMap Item.words ++ tail)) s = _
        conv => lhs; unfold influxArgs
        rw [if_neg h1, if_neg h2, if_neg h3, if_neg h4, if_neg h5]
        rfl
    have join : settings items (settings [i] s) = settings (i :: items) s := by
      have one : ∀ f : Item → Option Str, last f [i] = f i := fun f => by rw [last_cons]; rfl
      have h1 : ∀ (x y : Option Str) (d : Str), x.getD (y.getD d) = (x.or y).getD d := fun x y d => by cases x <;> rfl
      have h2 : ∀ (x y : Option Str) (d : Int), (x.map atoll).getD ((y.map atoll).getD d) = ((x.or y).map atoll).getD d :=
        fun x y d => by cases x <;> rfl
      unfold settings
      dsimp only
      simp only [last_cons _ i items, one, h1, h2, Option.or_assoc]
    rw [List.flatMap_cons, List.append_assoc, step, ih', join]

/-- Every command line consists of items, with an option without a value at the end or not. -/
theorem read (k : Nat) : ∀ args : List Str, args.length ≤ k → ∃ items : List Item, (∀ i ∈ items, i.Ok) ∧
    (args = items.flatMap Item.words ∨ ∃ o ∈ options, args = items.flatMap Item.words ++ [o]) := by
  induction k with
  | zero =>
    intro args hl
    obtain rfl : args = [] := List.length_eq_zero_iff.1 (by omega)
    exact ⟨[], (fun _ h => by cases h), Or.inl rfl⟩
  | succ k ih =>
    intro args hl
    match args, hl with
    | [], _ => exact ⟨[], (fun _ h => by cases h), Or.inl rfl⟩
    | a :: as, hl =>
      have hl' : as.length ≤ k := by simpa using hl
      have cons : ∀ (i : Item) (rest : List Str), i.Ok → rest.length ≤ k → a :: as = i.words ++ rest → ∃ items : List Item, (∀ i ∈ items, i.Ok) ∧
          (a :: as = items.flatMap Item.words ∨ ∃ o ∈ options, a :: as = items.flatMap Item.words ++ [o]) := by
        intro i rest hi hr e
        obtain ⟨items, h1, h2⟩ := ih rest hr
        refine ⟨i :: items, fun j hj => ?_, ?_⟩
        · rcases List.mem_cons.1 hj with rfl | hj
          · exact hi
          · exact h1 j hj
        · rw [e, List.flatMap_cons]
          rcases h2 with h2 | ⟨o, ho, h2⟩
          · exact Or.inl (by rw [h2])
          · exact Or.inr ⟨o, ho, by rw [h2, List.append_assoc]⟩
      by_cases ho : a ∈ options
      · match as, hl', cons with
        | [], _, _ => exact ⟨[], (fun _ h => by cases h), Or.inr ⟨a, ho, rfl⟩⟩
        | v :: rest, hl', cons =>
          have hr : rest.length ≤ k := by simp at hl'; omega
          simp only [options, List.map_cons, List.map_nil, List.mem_cons, List.not_mem_nil, or_false] at ho
          rcases ho with rfl | rfl | rfl | rfl | rfl | rfl | rfl | rfl | rfl | rfl
          · exact cons (.token false v) rest trivial hr rfl
          · exact cons (.token true v) rest trivial hr rfl
          · exact cons (.host false v) rest trivial hr rfl
          · exact cons (.host true v) rest trivial hr rfl
          · exact cons (.port false v) rest trivial hr rfl
          · exact cons (.port true v) rest trivial hr rfl
          · exact cons (.org false v) rest trivial hr rfl
          · exact cons (.org true v) rest trivial hr rfl
          · exact cons (.bucket false v) rest trivial hr rfl
          · exact cons (.bucket true v) rest trivial hr rfl
      · exact cons (.file a) as ho hl' rfl

/-- C99.  A command line of `trace_to_influxdb` that consists of options with their values and names of files, in any order, leads to an
upload of the last file with the values that are given last, or the defaults; without a token or a file, or with a file that cannot be
opened, the program ends with an error. -/
theorem C99_influx_command_line (opens : Str → Bool) (items : List Item) (hok : ∀ i ∈ items, i.Ok) (hne : items ≠ []) :
    influxMain opens (items.flatMap Item.words) =
      match last Item.token? items, last Item.file? items with
      | some t, some f =>
        if opens f then .upload t ((last Item.host? items).getD "localhost".toList) (((last Item.port? items).map atoll).getD 8086)
          ((last Item.org? items).getD "iCyPhy".toList) ((last Item.bucket? items).getD "test".toList) f
        else .exit 2
      | _, _ => .exit 1 := by
  have h0 : items.flatMap Item.words ≠ [] := by
    obtain ⟨i, items, rfl⟩ := List.exists_cons_of_ne_nil hne
    rw [List.flatMap_cons]
    cases i <;> exact fun c => by cases c
  have h := influxArgs_words items hok [] .init
  rw [List.append_nil] at h
  unfold influxMain
  rw [if_neg h0, h]
  unfold influxArgs settings
  dsimp only
  show (match (last Item.token? items).or none, (last Item.file? items).or none with
    | none, _ => _
    | some _, none => _
    | some t, some f => _) = _
  rw [Option.or_none, Option.or_none]
  cases last Item.token? items <;> cases last Item.file? items <;> rfl

/-- C99.  Any other command line ends in an option without a value, and the program ends with an error. -/
theorem C99_influx_other_command_lines (opens : Str → Bool) (args : List Str) (hne : args ≠ []) :
    (∃ items : List Item, (∀ i ∈ items, i.Ok) ∧ items ≠ [] ∧ args = items.flatMap Item.words) ∨
    ((∃ items : List Item, (∀ i ∈ items, i.Ok) ∧ ∃ o ∈ options, args = items.flatMap Item.words ++ [o]) ∧ influxMain opens args = .exit 1) := by
  obtain ⟨items, h1, h2 | ⟨o, ho, h2⟩⟩ := read args.length args (Nat.le_refl _)
  · refine Or.inl ⟨items, h1, ?_, h2⟩
    rintro rfl
    exact hne h2
  · refine Or.inr ⟨⟨items, h1, o, ho, h2⟩, ?_⟩
    unfold influxMain
    rw [if_neg hne, h2, influxArgs_words items h1 [o] .init]
    have : ∀ s, influxArgs [o] s = none := by
      intro s
      simp only [options, List.map_cons, List.map_nil, List.mem_cons, List.not_mem_nil, or_false] at ho
      rcases ho with rfl | rfl | rfl | rfl | rfl | rfl | rfl | rfl | rfl | rfl <;> rfl
    rw [this]

example : influxMain (fun _ => true) (["a.lft", "--token", "xyz", "-p", "8087", "-o", "mine"].map String.toList) =
    .upload "xyz".toList "localhost".toList 8087 "mine".toList "test".toList "a.lft".toList := by decide +kernel

/-- C99 does not hold for options that do not exist, which are taken for the name of the file. -/
theorem C99_influx_unknown_option_not_rejected (opens : Str → Bool) (items : List Item) (hok : ∀ i ∈ items, i.Ok) (t : Str)
    (ht : last Item.token? items = some t) (a : Str) (ha : a ∉ options) (ho : opens a = false) :
    influxMain opens (items.flatMap Item.words ++ [a]) = .exit 2 := by
  have h := C99_influx_command_line opens (items ++ [Item.file a]) (fun i hi => by
    rcases List.mem_append.1 hi with hi | hi
    · exact hok i hi
    · rw [List.mem_singleton.1 hi]; exact ha) (by simp)
  have e : (items ++ [Item.file a]).flatMap Item.words = items.flatMap Item.words ++ [a] := by rw [List.flatMap_append]; rfl
  have e1 : last Item.token? (items ++ [Item.file a]) = some t := by
    rw [← ht]; unfold last; rw [List.filterMap_append]; simp [Item.token?]
  have e2 : last Item.file? (items ++ [Item.file a]) = some a := by
    unfold last; rw [List.filterMap_append]; simp [Item.file?]
  rw [← e, h, e1, e2]
  dsimp only
  rw [ho]
  rfl

/-- C99 does not hold for a port that is not a number: an error is printed, and port 0 is used. -/
theorem C99_influx_invalid_port_not_rejected (opens : Str → Bool) (t v f : Str) (hv : atoll v = 0) (hf : f ∉ options) (ho : opens f = true) :
    influxMain opens ["-t".toList, t, "-p".toList, v, f] =
      .upload t "localhost".toList 0 "iCyPhy".toList "test".toList f := by
  have h := C99_influx_command_line opens [.token false t, .port false v, .file f] (fun i hi => by
    simp only [List.mem_cons, List.not_mem_nil, or_false] at hi
    rcases hi with rfl | rfl | rfl
    · trivial
    · trivial
    · exact hf) (by simp)
  refine Eq.trans h ?_
  show (if opens f = true then Upload.upload t "localhost".toList (atoll v) "iCyPhy".toList "test".toList f else .exit 2) = _
  rw [if_pos ho, hv]

example : atoll "eight".toList = 0 := by decide

/-- C99 does not hold for the number of records that is reported at the end: it is that of the last batch. -/
theorem C99_reported_number_not_total (batches : List Nat) (h : ∀ b ∈ batches, b ≠ 0) (b : Nat) (hb : b ≠ 0) (more : List Nat) :
    reported (batches ++ b :: 0 :: more) 0 = b := by
  have key : ∀ num, reported (batches ++ b :: 0 :: more) num = b := by
    induction batches with
    | nil =>
      intro num
      show reported (b :: 0 :: more) num = b
      unfold reported
      rw [if_pos hb]
      unfold reported
      rw [if_neg (fun c => c rfl)]
    | cons c bs ih =>
      intro num
      show reported (c :: (bs ++ b :: 0 :: more)) num = b
      unfold reported
      rw [if_pos (h c List.mem_cons_self)]
      exact ih (fun d hd => h d (List.mem_cons_of_mem _ hd)) c
  exact key 0

example : reported [4096, 4096, 17, 0] 0 = 17 := by decide

end ReactorC.TraceArgs
