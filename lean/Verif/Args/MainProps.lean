import Verif.Args.Main
import Verif.Args.Props

/-!
# C102: the arguments of a program take effect, and those of the command line replace the defaults

`Accepts` (C56) says which lists of options are correct, and which settings they lead to.
-/

namespace ReactorC.Args

/-! ## Specification -/

/-- What a list of options changes: a value for each of the settings that are given. -/
structure Changes where
  fast : Option Bool
  duration : Option Int
  keepalive : Option Bool
  workers : Option Int
  federation : Option Str
  rti : Option Str

/-- The settings after the changes: those that are not given remain. -/
def Changes.apply (c : Changes) (s : Settings) : Settings :=
  ⟨c.fast.getD s.fast, c.duration.getD s.duration, c.keepalive.getD s.keepalive, c.workers.getD s.workers, c.federation.getD s.federation,
    c.rti.getD s.rti⟩

/-- What a list of options gives, the last value counting. -/
structure Changes.Of (cfg : Config) (l : List Str) (c : Changes) : Prop where
  exact : ∀ s t, Accepts cfg l s t ↔ t = c.apply s

/-! ## Lemmas -/

theorem Accepts.det {cfg : Config} {l : List Str} {s t t' : Settings} (h : Accepts cfg l s t) (h' : Accepts cfg l s t') : t = t' := by
  have a := (C56_accepts_exactly cfg ([] :: l) s t).2 h
  have b := (C56_accepts_exactly cfg ([] :: l) s t').2 h'
  rw [a] at b
  simpa using b

theorem Accepts.append {cfg : Config} {l l' : List Str} {s m t : Settings} (h : Accepts cfg l s m) (h' : Accepts cfg l' m t) :
    Accepts cfg (l ++ l') s t := by
  induction h with
  | done => exact h'
  | fast s _ o b rest ho _ ih => exact .fast s t o b _ ho (ih h')
  | fastWrong s _ o v rest ho hv _ ih => exact .fastWrong s t o v _ ho hv (ih h')
  | timeout s _ o n u f rest ho hn hu _ ih => exact .timeout s t o n u f _ ho hn hu (ih h')
  | keepalive s _ o b rest ho _ ih => exact .keepalive s t o b _ ho (ih h')
  | keepaliveWrong s _ o v rest ho hv _ ih => exact .keepaliveWrong s t o v _ ho hv (ih h')
  | workers s _ o n rest ho _ ih => exact .workers s t o n _ ho (ih h')
  | id s _ o v rest hf ho _ ih => exact .id s t o v _ hf ho (ih h')
  | rti s _ o v rest hf ho hk _ ih => exact .rti s t o v _ hf ho hk (ih h')
  | ros s _ rest _ ih => exact .ros s t _ (ih h')

theorem Accepts.changes {cfg : Config} {l : List Str} {s t : Settings} (h : Accepts cfg l s t) :
    ∃ c : Changes, ∀ s', Accepts cfg l s' (c.apply s') := by
  induction h with
  | done s => exact ⟨⟨none, none, none, none, none, none⟩, fun s' => .done s'⟩
  | fast s _ o b rest ho _ ih =>
    obtain ⟨c, hc⟩ := ih
    refine ⟨{ c with fast := some (c.fast.getD b) }, fun s' => ?_⟩
    exact .fast s' _ o b _ ho (hc { s' with fast := b })
  | fastWrong s _ o v rest ho hv _ ih =>
    obtain ⟨c, hc⟩ := ih
    exact ⟨c, fun s' => .fastWrong s' _ o v _ ho hv (hc s')⟩
  | timeout s _ o n u f rest ho hn hu _ ih =>
    obtain ⟨c, hc⟩ := ih
    refine ⟨{ c with duration := some (c.duration.getD (f * atoll n)) }, fun s' => ?_⟩
    exact .timeout s' _ o n u f _ ho hn hu (hc { s' with duration := f * atoll n })
  | keepalive s _ o b rest ho _ ih =>
    obtain ⟨c, hc⟩ := ih
    refine ⟨{ c with keepalive := some (c.keepalive.getD b) }, fun s' => ?_⟩
    exact .keepalive s' _ o b _ ho (hc { s' with keepalive := b })
  | keepaliveWrong s _ o v rest ho hv _ ih =>
    obtain ⟨c, hc⟩ := ih
    exact ⟨c, fun s' => .keepaliveWrong s' _ o v _ ho hv (hc s')⟩
  | workers s _ o n rest ho _ ih =>
    obtain ⟨c, hc⟩ := ih
    refine ⟨{ c with workers := some (c.workers.getD (max 1 (atoll n))) }, fun s' => ?_⟩
    exact .workers s' _ o n _ ho (hc { s' with workers := max 1 (atoll n) })
  | id s _ o v rest hf ho _ ih =>
    obtain ⟨c, hc⟩ := ih
    refine ⟨{ c with federation := some (c.federation.getD v) }, fun s' => ?_⟩
    exact .id s' _ o v _ hf ho (hc { s' with federation := v })
  | rti s _ o v rest hf ho hk _ ih =>
    obtain ⟨c, hc⟩ := ih
    refine ⟨{ c with rti := some (c.rti.getD v) }, fun s' => ?_⟩
    exact .rti s' _ o v _ hf ho hk (hc { s' with rti := v })
  | ros s _ rest _ ih =>
    obtain ⟨c, hc⟩ := ih
    exact ⟨c, fun s' => .ros s' _ _ (hc s')⟩

theorem Accepts.of {cfg : Config} {l : List Str} {s t : Settings} (h : Accepts cfg l s t) : ∃ c : Changes, Changes.Of cfg l c := by
  obtain ⟨c, hc⟩ := h.changes
  exact ⟨c, ⟨fun s' t' => ⟨fun h' => h'.det (hc s'), fun e => e ▸ hc s'⟩⟩⟩

/-! ## The defaults and the command line -/

/-- **C102.**  A program runs exactly if its defaults and its command line, without its name, are correct options; the settings are those that the defaults lead to,
and then the command line. -/
theorem C102_program_runs_iff (cfg : Config) (defaults argv : List Str) (s t : Settings) :
    mainWith cfg defaults argv s = .runs t ↔ ∃ m, Accepts cfg (defaults.drop 1) s m ∧ Accepts cfg (argv.drop 1) m t := by
  unfold mainWith both
  constructor
  · intro h
    split at h
    · rename_i m hm
      split at h
      · rename_i t' ht
        simp only [Started.runs.injEq] at h
        subst h
        exact ⟨m, (C56_accepts_exactly _ _ _ _).1 hm, (C56_accepts_exactly _ _ _ _).1 ht⟩
      · simp at h
      · simp at h
    · simp at h
    · simp at h
  · rintro ⟨m, hm, ht⟩
    rw [(C56_accepts_exactly _ _ _ _).2 hm]
    dsimp only
    rw [(C56_accepts_exactly _ _ _ _).2 ht]

/-- **C102.**  Otherwise it ends, having printed how to use it; it never reads the arguments out of bounds. -/
theorem C102_program_refuses_otherwise (cfg : Config) (defaults argv : List Str) (s : Settings)
    (h : ∀ t, mainWith cfg defaults argv s ≠ .runs t) : mainWith cfg defaults argv s = .refuses := by
  unfold mainWith both at h ⊢
  split
  · rename_i m hm
    rw [hm] at h
    dsimp only at h
    split
    · rename_i t ht
      rw [ht] at h
      exact absurd rfl (h t)
    · rfl
    · rename_i hf
      exact absurd hf (C56_reads_within_argv _ _ _)
  · rfl
  · rename_i hf
    exact absurd hf (C56_reads_within_argv _ _ _)

/-- **C102.**  A program runs with the settings that all the options lead to, given as one list, the ones of the command line
last. -/
theorem C102_command_line_comes_last (cfg : Config) (defaults argv : List Str) (s t : Settings) (h : mainWith cfg defaults argv s = .runs t) :
    Accepts cfg (defaults.drop 1 ++ argv.drop 1) s t := by
  obtain ⟨m, hm, ht⟩ := (C102_program_runs_iff _ _ _ _ _).1 h
  exact hm.append ht

/-- **C102.**  The command line replaces the defaults: what it gives does not depend on them, and what it does not give is what
they lead to. -/
theorem C102_command_line_replaces_defaults (cfg : Config) (argv : List Str) {s₀ t₀ : Settings} (h : Accepts cfg (argv.drop 1) s₀ t₀) :
    ∃ c : Changes, Changes.Of cfg (argv.drop 1) c ∧ ∀ defaults s m, Accepts cfg (defaults.drop 1) s m →
      mainWith cfg defaults argv s = .runs (c.apply m) := by
  obtain ⟨c, hc⟩ := h.of
  exact ⟨c, hc, fun d s m hm => (C102_program_runs_iff _ _ _ _ _).2 ⟨m, hm, (hc.exact _ _).2 rfl⟩⟩

/-- **C102.**  For example, a timeout at the end of the command line is the timeout, whatever comes before and whatever the defaults
are. -/
theorem C102_last_timeout_counts (cfg : Config) (defaults : List Str) (p o n u : Str) (f : Int) (l : List Str) (s m t : Settings)
    (ho : o ∈ ["-o".toList, "--timeout".toList, "-timeout".toList]) (hn : Numeral n) (hu : Unit u f)
    (hd : Accepts cfg (defaults.drop 1) s m) (hl : Accepts cfg l m t) :
    mainWith cfg defaults (p :: (l ++ [o, n, u])) s = .runs { t with duration := f * atoll n } :=
  (C102_program_runs_iff _ _ _ _ _).2 ⟨m, hd, hl.append (.timeout _ _ o n u f [] ho hn hu (.done _))⟩

/-- **C102.**  Without defaults and options nothing changes. -/
theorem C102_nothing_given (cfg : Config) (p : Str) (s : Settings) : mainWith cfg [] [p] s = .runs s :=
  (C102_program_runs_iff _ _ _ _ _).2 ⟨s, .done s, .done s⟩

/-- `prog --timeout 5 sec -k true`, with the defaults `-o 1 min -w 4`. -/
example : mainWith ⟨false, fun _ => false⟩ (["d", "-o", "1", "min", "-w", "4"].map String.toList)
    (["prog", "--timeout", "5", "sec", "-k", "true"].map String.toList) demoSettings =
    .runs ⟨false, 5000000000, true, 4, [], []⟩ := by decide +kernel

/-! ## Python -/

namespace Py

/-- A Python string for a C string. -/
def ofStr (s : Str) : Item := .str (s.map some)

theorem encode_ofStr {s : Str} (h : '\x00' ∉ s) : encode (ofStr s) = some s := by
  have h1 : none ∉ s.map some := by simp
  have h2 : (s.map some).filterMap id = s := by
    rw [List.filterMap_map]
    simp
  simp only [encode, ofStr, if_neg h1, h2, Option.some.injEq]
  induction s with
  | nil => rfl
  | cons c s ih =>
    rw [List.mem_cons, not_or] at h
    have hs := ih h.2 (by simp) (by rw [List.filterMap_map]; simp)
    rw [List.takeWhile_cons_of_pos (by simpa using fun e => h.1 e.symm), hs]

theorem convert_ofStr (l acc : List Str) (h : ∀ s ∈ l, '\x00' ∉ s) : convert (l.map ofStr) acc = .argv (acc ++ l) := by
  induction l generalizing acc with
  | nil => simp [convert]
  | cons s l ih =>
    simp only [List.map_cons, convert, encode_ofStr (h s (by simp))]
    rw [ih _ (fun x hx => h x (by simp [hx]))]
    simp

/-- **C102.**  `start` with a list of strings runs the program as the list as a command line does. -/
theorem C102_python_arguments_are_passed (cfg : Config) (name : Str) (defaults : List Str) (junk : Int) (l : List Str) (s : Settings)
    (h : ∀ a ∈ l, '\x00' ∉ a) :
    start cfg name defaults junk [.list (l.map ofStr)] s = some (mainWith cfg defaults l s) := by
  simp only [start, parseArgv, convert_ofStr l [] h, List.nil_append]

example : start ⟨false, fun _ => false⟩ "m".toList [] 0 [.list (demoArgv.map ofStr)] demoSettings =
    some (.runs ⟨true, 10000000, false, 3, [], []⟩) := by decide +kernel

/-- **C102.**  `start` without arguments runs the program with its defaults. -/
theorem C102_python_without_arguments (cfg : Config) (name : Str) (defaults : List Str) (junk : Int) (s : Settings) :
    start cfg name defaults junk [] s = some (mainWith cfg defaults [name] s) := by
  simp [start, parseArgv]

/-- **C102.**  A list with an item that is not a string, or is one that cannot be encoded, does not run the program. -/
theorem C102_python_wrong_items_are_refused (cfg : Config) (name : Str) (defaults : List Str) (junk : Int) (l : List Item) (s : Settings)
    (h : ∃ x ∈ l, x = .other ∨ ∃ p, x = .str p ∧ none ∈ p) : start cfg name defaults junk [.list l] s = none := by
  obtain ⟨x, hx, hw⟩ := h
  have he : encode x = none := by
    rcases hw with rfl | ⟨p, rfl, hp⟩
    · rfl
    · simp [encode, hp]
  have : ∀ acc, convert l acc = .exits := by
    induction l with
    | nil => simp at hx
    | cons y l ih =>
      intro acc
      simp only [convert]
      cases hy : encode y with
      | none => rfl
      | some c =>
        rcases List.mem_cons.1 hx with rfl | hx'
        · rw [he] at hy; simp at hy
        · exact ih hx' _
  simp [start, parseArgv, this]

/-- **C102, violated.**  An argument that is not a list is not refused: the program runs as if nothing were given. -/
theorem C102_python_other_objects_not_refused (cfg : Config) (name : Str) (defaults : List Str) (junk : Int) (s m : Settings)
    (hd : Accepts cfg (defaults.drop 1) s m) : start cfg name defaults junk [.notList] s = some (.runs m) := by
  simp [start, parseArgv, both, (C56_accepts_exactly _ _ _ _).2 hd, processNull]

/-- **C102, violated.**  Nor are two or more arguments: the number of options is not set, and if what is found in its place is more than 1, options are read where
there are none. -/
theorem C102_python_more_arguments_not_safe (cfg : Config) (name : Str) (defaults : List Str) (junk : Int) (a b : Obj) (l : List Obj) (s m : Settings)
    (hd : Accepts cfg (defaults.drop 1) s m) :
    start cfg name defaults junk (a :: b :: l) s = some (if 1 < junk then .fault else .runs m) := by
  have e : parseArgv name (a :: b :: l) = .null none := by cases a <;> rfl
  by_cases hj : 1 < junk <;> simp [start, e, both, (C56_accepts_exactly _ _ _ _).2 hd, processNull, hj]

/-- **C102, violated.**  An argument with a character 0 is cut there. -/
theorem C102_python_zeros_not_passed (cfg : Config) (name : Str) (defaults : List Str) (junk : Int) (p a b : Str) (s : Settings)
    (hp : '\x00' ∉ p) (ha : '\x00' ∉ a) :
    start cfg name defaults junk [.list [ofStr p, ofStr (a ++ '\x00' :: b)]] s = some (mainWith cfg defaults [p, a] s) := by
  have e : encode (ofStr (a ++ '\x00' :: b)) = some a := by
    have h1 : none ∉ (a ++ '\x00' :: b).map some := by simp
    have h2 : ((a ++ '\x00' :: b).map some).filterMap id = a ++ '\x00' :: b := by
      rw [List.filterMap_map]; simp
    simp only [encode, ofStr, if_neg h1, h2, Option.some.injEq]
    rw [List.takeWhile_append_of_pos]
    · simp
    · intro c hc
      simp only [ne_eq, decide_not, Bool.not_eq_eq_eq_not, Bool.not_true, decide_eq_false_iff_not]
      rintro rfl
      exact ha hc
  simp [start, parseArgv, convert, encode_ofStr hp, e]

end Py

end ReactorC.Args
