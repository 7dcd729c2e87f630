import Verif.Print.Spec
import Mathlib.Data.Nat.Digits.Defs

/-!
# C91: messages are printed
-/

namespace ReactorC.Printing

theorem printLevel_eq (c : Config) (s : State) : printLevel c s = wanted c s := by
  unfold printLevel wanted
  dsimp only
  split <;> split <;> omega

theorem render_cons (c : Char) (f : Text) (as : List Text) : render (c :: f) as =
    if c = '%' then
      match f with
      | [] => none
      | d :: f =>
        if d = '%' then (render f as).map ('%' :: ·)
        else
          match as with
          | [] => none
          | a :: as => (render f as).map (a ++ ·)
    else (render f as).map (c :: ·) := by
  cases f with
  | nil => rw [render.eq_def]
  | cons d f =>
    cases as with
    | nil => rw [render.eq_def]
    | cons a as => rw [render.eq_def]

theorem render_nil (as : List Text) : render [] as = some [] := by rw [render.eq_def]

/-- Text without `%` is printed as it is. -/
theorem render_lit : ∀ (l : Text) (f : Text) (as : List Text), '%' ∉ l → render (l ++ f) as = (render f as).map (l ++ ·) := by
  intro l
  induction l with
  | nil => intro f as _; simp
  | cons c l ih =>
    intro f as h
    have hc : ¬ c = '%' := fun e => h (e ▸ List.mem_cons_self)
    have hl : '%' ∉ l := fun e => h (List.mem_cons_of_mem _ e)
    rw [List.cons_append, render_cons, if_neg hc, ih f as hl, Option.map_map]
    rfl

/-- A newline after the format is printed after the text. -/
theorem render_newline : ∀ (n : Nat) (f : Text), f.length ≤ n → ∀ (as : List Text) (t : Text), render f as = some t → render (f ++ ['\n']) as = some (t ++ ['\n']) := by
  have h0 : ∀ as, render ['\n'] as = some ['\n'] := by
    intro as
    rw [render_cons, if_neg (by decide), render_nil]
    rfl
  intro n
  induction n with
  | zero =>
    intro f hf as t h
    cases f with
    | nil =>
      rw [render_nil] at h
      cases h
      exact h0 as
    | cons c f => simp at hf
  | succ n ih =>
    intro f hf as t h
    cases f with
    | nil =>
      rw [render_nil] at h
      cases h
      exact h0 as
    | cons c f =>
      rw [List.length_cons] at hf
      rw [List.cons_append, render_cons]
      rw [render_cons] at h
      by_cases hc : c = '%'
      · rw [if_pos hc] at h ⊢
        cases f with
        | nil => cases h
        | cons d f =>
          rw [List.cons_append]
          rw [List.length_cons] at hf
          dsimp only at h ⊢
          by_cases hd : d = '%'
          · rw [if_pos hd] at h ⊢
            obtain ⟨t', h1, rfl⟩ := Option.map_eq_some_iff.1 h
            rw [ih f (by omega) as t' h1]
            rfl
          · rw [if_neg hd] at h ⊢
            cases as with
            | nil => cases h
            | cons a as =>
              dsimp only at h ⊢
              obtain ⟨t', h1, rfl⟩ := Option.map_eq_some_iff.1 h
              rw [ih f (by omega) as t' h1, Option.map_some, List.append_assoc]
      · rw [if_neg hc] at h ⊢
        obtain ⟨t', h1, rfl⟩ := Option.map_eq_some_iff.1 h
        rw [ih f (by omega) as t' h1]
        rfl

theorem decimal_length {n : Nat} (h : n < 2147483648) : (decimal n).length ≤ 10 := Nat.toDigits_length 10 n 10 (by decide) (by omega)

theorem decimal_plain (n : Nat) : '%' ∉ decimal n := by
  intro h
  have := Nat.isDigit_of_mem_toDigits (by decide) (by decide) h
  revert this
  decide

theorem strip_length (t : Text) : (strip t).length ≤ t.length := by
  unfold strip
  split
  · rw [List.length_drop]; omega
  · exact Nat.le_refl _

theorem strip_mem {t : Text} {c : Char} (h : c ∈ strip t) : c ∈ t := by
  unfold strip at h
  split at h
  · exact List.mem_of_mem_drop h
  · exact h

/-- The text is never cut off. -/
theorem message_eq {c : Config} (hc : c.id < 2147483648) (pre f : Text) : message c pre f = header c ++ pre ++ f ++ ['\n'] := by
  unfold message header snprintf
  split
  · rw [List.take_of_length_le]
    · simp
    · simp only [List.length_append, List.length_cons, List.length_nil]
      omega
  · split
    · rw [List.take_of_length_le]
      have : "RTI: ".toList.length = 5 := by decide
      simp only [List.length_append, List.length_cons, List.length_nil]
      omega
    · rw [List.take_of_length_le]
      have h1 : "Fed ".toList.length = 4 := by decide
      have h2 : " (".toList.length = 2 := by decide
      have h3 : "): ".toList.length = 3 := by decide
      have h4 := strip_length c.name
      have h5 := decimal_length (n := c.id.toNat) (by omega)
      simp only [List.length_append, List.length_cons, List.length_nil, h1, h2, h3]
      omega

theorem header_plain {c : Config} (hc : '%' ∉ c.name) : '%' ∉ header c := by
  unfold header
  split
  · simp
  · split
    · decide
    · intro h
      rcases List.mem_append.1 h with h | h
      · rcases List.mem_append.1 h with h | h
        · rcases List.mem_append.1 h with h | h
          · rcases List.mem_append.1 h with h | h
            · revert h; decide
            · exact decimal_plain _ h
          · revert h; decide
        · exact hc (strip_mem h)
      · revert h; decide

theorem prefix_plain (k : Kind) : '%' ∉ k.prefix := by cases k <;> decide

theorem render_line {c : Config} (hc : c.Ok) (k : Kind) {f : Text} {as : List Text} {t : Text} (h : render f as = some t) :
    render (message c k.prefix f) as = some (line c k t) := by
  rw [message_eq hc.1, List.append_assoc, render_lit _ _ _ (by
    intro h
    rcases List.mem_append.1 h with h | h
    · exact header_plain hc.2 h
    · exact prefix_plain k h), render_newline _ f (Nat.le_refl _) as t h, Option.map_some]
  unfold line
  simp

/-- C91.  A message is printed if and only if its level is wanted: with who prints it, its prefix, and a newline, in one piece, whatever its length; nothing else is printed. -/
theorem C91_messages_are_printed_partial {c : Config} (hc : c.Ok) {s : State} (hs : s.registered = false) (k : Kind) {f : Text} {as : List Text} {t : Text} (h : render f as = some t) :
    (print c s k f as).out = s.out ++ if k.level ≤ max (c.compiled : Int) s.level then [.stdout (some (line c k t))] else [] := by
  unfold print
  rw [printLevel_eq]
  show (if k.level ≤ wanted c s then _ else s).out = s.out ++ (if k.level ≤ wanted c s then _ else _)
  by_cases hl : k.level ≤ wanted c s
  · rw [if_pos hl, if_pos hl]
    dsimp only
    rw [hs, render_line hc k h]
    rfl
  · rw [if_neg hl, if_neg hl, List.append_nil]

/-- C91.  If a function is registered, it gets the message instead: what it prints with the format and the arguments that it is given is the line. -/
theorem C91_registered_function_gets_messages_partial {c : Config} (hc : c.Ok) {s : State} (hs : s.registered = true) (k : Kind) {f : Text} {as : List Text} {t : Text} (h : render f as = some t) :
    ∃ m, render m as = some (line c k t) ∧ (print c s k f as).out = s.out ++ if k.level ≤ max (c.compiled : Int) s.level then [.call m as] else [] := by
  refine ⟨_, render_line hc k h, ?_⟩
  unfold print
  rw [printLevel_eq]
  show (if k.level ≤ wanted c s then _ else s).out = s.out ++ (if k.level ≤ wanted c s then _ else _)
  by_cases hl : k.level ≤ wanted c s
  · rw [if_pos hl, if_pos hl]
    dsimp only
    rw [hs]
    rfl
  · rw [if_neg hl, if_neg hl, List.append_nil]

/-- C91.  Errors are printed whatever the levels are. -/
theorem C91_errors_are_printed_partial {c : Config} (hc : c.Ok) {s : State} (hs : s.registered = false) {f : Text} {as : List Text} {t : Text} (h : render f as = some t) :
    (print c s .error f as).out = s.out ++ [.stdout (some (header c ++ "ERROR: ".toList ++ t ++ ['\n']))] := by
  rw [C91_messages_are_printed_partial hc hs .error h, if_pos]
  · rfl
  · show (0 : Int) ≤ _
    omega

/-- C91.  A fatal error is printed, and then the process ends with the status of a failure. -/
theorem C91_fatal_errors_end_the_process_partial {c : Config} (hc : c.Ok) {s : State} (hs : s.registered = false) {f : Text} {as : List Text} {t : Text} (h : render f as = some t) :
    (printAndExit c s f as).out = s.out ++ [.stdout (some (header c ++ "FATAL ERROR: ".toList ++ t ++ ['\n'])), .exit 1] := by
  unfold printAndExit
  dsimp only
  rw [C91_messages_are_printed_partial hc hs .fatal h, if_pos]
  · rw [List.append_assoc]
    rfl
  · show (0 : Int) ≤ _
    omega

theorem systemFailure_out {c : Config} (hc : c.Ok) {s : State} (hs : s.registered = false) (after : Nat → Nat) (describe : Nat → Text) (errno : Nat)
    {f : Text} {as : List Text} {t : Text} (h : render f as = some t) :
    (printSystemFailure c s after describe errno f as).out = s.out ++
      [.stdout (some (line c .error t)), .stdout (some (line c .fatal ("Error ".toList ++ decimal (after errno) ++ ": ".toList ++ describe (after errno)))), .exit 1] := by
  unfold printSystemFailure
  dsimp only
  have hs' : (print c s .error f as).registered = false := by
    unfold print
    split
    · exact hs
    · exact hs
  have hr : render "Error %d: %s".toList [decimal (after errno), describe (after errno)] = some ("Error ".toList ++ decimal (after errno) ++ ": ".toList ++ describe (after errno)) := by
    show render ("Error ".toList ++ ('%' :: 'd' :: (": ".toList ++ ['%', 's']))) _ = _
    rw [render_lit _ _ _ (by decide), render_cons, if_pos rfl]
    dsimp only
    rw [if_neg (by decide), render_lit _ _ _ (by decide), render_cons, if_pos rfl]
    dsimp only
    rw [if_neg (by decide), render_nil]
    simp
  rw [C91_fatal_errors_end_the_process_partial hc hs' hr, C91_errors_are_printed_partial hc hs h, List.append_assoc]
  rfl

/-- C91.  A failure of the system is printed with its description, if printing the message does not change `errno`. -/
theorem C91_system_failures_are_described_partial {c : Config} (hc : c.Ok) {s : State} (hs : s.registered = false) (after : Nat → Nat) (describe : Nat → Text) {errno : Nat} (he : after errno = errno)
    {f : Text} {as : List Text} {t : Text} (h : render f as = some t) :
    (printSystemFailure c s after describe errno f as).out = s.out ++
      [.stdout (some (line c .error t)), .stdout (some (line c .fatal ("Error ".toList ++ decimal errno ++ ": ".toList ++ describe errno))), .exit 1] := by
  rw [systemFailure_out hc hs after describe errno h, he]

/-! ## What the documentation says otherwise -/

/-- C91.  The levels error, warning and info are not "treated identically": with level error, warnings and what `lf_print` prints are dropped. -/
theorem C91_warnings_not_always_printed (c : Config) (hc : c.compiled = 0) (s : State) (hs : s.level ≤ 0) (f : Text) (as : List Text) :
    print c s .warning f as = s ∧ print c s .info f as = s := by
  unfold print
  rw [printLevel_eq]
  unfold wanted
  rw [hc]
  constructor
  · rw [if_neg]
    show ¬ (1 : Int) ≤ _
    omega
  · rw [if_neg]
    show ¬ (2 : Int) ≤ _
    omega

/-- C91.  The level of the registered function does not say which messages it gets: it gets all messages that are printed, and its level makes more messages to be printed. -/
theorem C91_function_not_by_level (c : Config) (s : State) (level : Int) (k : Kind) (f : Text) (as : List Text) :
    (print c (register s true level) k f as).out = s.out ++ (if k.level ≤ max (c.compiled : Int) level then [.call (message c k.prefix f) as] else []) := by
  unfold print
  rw [printLevel_eq]
  show (if k.level ≤ wanted c (register s true level) then _ else register s true level).out = s.out ++ (if k.level ≤ wanted c (register s true level) then _ else _)
  by_cases hl : k.level ≤ wanted c (register s true level)
  · rw [if_pos hl, if_pos hl]
    rfl
  · rw [if_neg hl, if_neg hl, List.append_nil]
    rfl

/-- C91.  The macro for debug messages is not enabled by registering a function for them, while the function for debug messages is. -/
theorem C91_macros_not_by_level (c : Config) (hc : c.compiled < 4) (s : State) (f : Text) (as : List Text) :
    macroPrint c (register s true 4) true f as = register s true 4 ∧ (print c (register s true 4) .debug f as).out = s.out ++ [.call (message c Kind.debug.prefix f) as] := by
  constructor
  · unfold macroPrint
    rw [if_neg]
    simp only [if_true]
    omega
  · rw [C91_function_not_by_level, if_pos]
    show (4 : Int) ≤ _
    omega

/-- C91.  The name of a federate is part of the format: if there is a `%` in it, the arguments are printed in the wrong place, or the behaviour is undefined. -/
theorem C91_names_not_safe (s : State) (hs : s.registered = false) :
    (print ⟨2, false, 3, "a%b".toList⟩ s .info "x".toList []).out = s.out ++ [.stdout none] ∧
    (print ⟨2, false, 3, "a%b".toList⟩ s .info "%s%s".toList ["x".toList, "y".toList]).out = s.out ++ [.stdout none] ∧
    (print ⟨2, false, 3, "a%%b".toList⟩ s .info "x".toList []).out = s.out ++ [.stdout (some "Fed 3 (a%b): x\n".toList)] := by
  have h : ∀ (n : Text) (f : Text) (as : List Text), (print ⟨2, false, 3, n⟩ s .info f as).out = s.out ++ [.stdout (render (message ⟨2, false, 3, n⟩ [] f) as)] := by
    intro n f as
    unfold print
    rw [if_pos]
    · dsimp only
      rw [hs]
      rfl
    · rw [printLevel_eq]
      show (2 : Int) ≤ max 2 _
      omega
  rw [h, h, h]
  have d1 : render (message ⟨2, false, 3, "a%b".toList⟩ [] "x".toList) [] = none := by decide +kernel
  have d2 : render (message ⟨2, false, 3, "a%b".toList⟩ [] "%s%s".toList) ["x".toList, "y".toList] = none := by decide +kernel
  have d3 : render (message ⟨2, false, 3, "a%%b".toList⟩ [] "x".toList) [] = some "Fed 3 (a%b): x\n".toList := by decide +kernel
  rw [d1, d2, d3]
  exact ⟨rfl, rfl, rfl⟩

/-- C91.  If printing the first message changes `errno` to `e'`, then that is described instead of the failure. -/
theorem C91_failures_not_described {c : Config} (hc : c.Ok) {s : State} (hs : s.registered = false) (after : Nat → Nat) (describe : Nat → Text) {e e' : Nat} (he : after e = e')
    {f : Text} {as : List Text} {t : Text} (h : render f as = some t) :
    (printSystemFailure c s after describe e f as).out = s.out ++
      [.stdout (some (line c .error t)), .stdout (some (line c .fatal ("Error ".toList ++ decimal e' ++ ": ".toList ++ describe e'))), .exit 1] := by
  rw [systemFailure_out hc hs after describe e h, he]

/-! ## Examples -/

example : (print ⟨2, false, 12, "federate__sender".toList⟩ {} .warning "%s is %d%%".toList ["x".toList, "50".toList]).out = [.stdout (some "Fed 12 (sender): WARNING: x is 50%\n".toList)] ∧
    (⟨2, false, 12, "federate__sender".toList⟩ : Config).Ok := by
  refine ⟨by decide +kernel, by decide, by decide⟩

example : (print ⟨2, false, -1, []⟩ {} .debug "x".toList []).out = [] ∧ (print ⟨2, true, 1, []⟩ {} .info "x".toList []).out = [.stdout (some "RTI: x\n".toList)] := by decide +kernel

example : ∃ (c : Config) (s : State), c.compiled = 0 ∧ s.level ≤ 0 ∧ s.registered = false := ⟨⟨0, false, -1, []⟩, {}, rfl, by decide, rfl⟩

end ReactorC.Printing
