import Verif.Chrome.Spec
import Mathlib.Data.Nat.Digits.Defs
import Mathlib.Algebra.Order.Group.Int

namespace ReactorC.Chrome

/-! ## Reading JSON -/

/-- What follows a number. -/
def NoDigit (t : Text) : Prop := ∀ c, t.head? = some c → c.isDigit = false

def Reads (t : Text) (v : Json) : Prop := ∀ n rest, t.length ≤ n → NoDigit rest → value n (t ++ rest) = some (v, rest)
def ReadsM (t : Text) (ms : List (Text × Json)) : Prop := ∀ n rest, t.length ≤ n → members n (t ++ rest) = some (ms, rest)
def ReadsE (t : Text) (es : List Json) : Prop := ∀ n rest, t.length ≤ n → elements n (t ++ rest) = some (es, rest)

def Plain (s : Text) : Prop := ∀ c ∈ s, plain c = true

instance (s : Text) : Decidable (Plain s) := inferInstanceAs (Decidable (∀ c ∈ s, _))

theorem Plain.append {a b : Text} (ha : Plain a) (hb : Plain b) : Plain (a ++ b) := fun c h => by
  rcases List.mem_append.1 h with h | h
  · exact ha c h
  · exact hb c h

theorem string_ok {s : Text} (h : Plain s) (rest : Text) : string (s ++ '"' :: rest) = some (s, rest) := by
  have e : (s ++ '"' :: rest).dropWhile plain = '"' :: rest := by
    rw [List.dropWhile_append_of_pos h]; rfl
  have f : (s ++ '"' :: rest).takeWhile plain = s := by
    rw [List.takeWhile_append_of_pos h]; exact List.append_nil s
  unfold string
  rw [e]; dsimp only
  rw [if_pos rfl, f]

theorem reads_str {s : Text} (h : Plain s) : Reads ('"' :: (s ++ ['"'])) (.str s) := by
  intro n rest hn _
  cases n with
  | zero => simp at hn
  | succ n =>
    have e : ws ('"' :: (s ++ ['"']) ++ rest) = '"' :: (s ++ '"' :: rest) := by
      simp [ws, isWs]
    unfold value
    rw [e]; dsimp only
    rw [if_pos rfl, string_ok h]; rfl

theorem reads_ws {t : Text} {v : Json} {c : Char} (hc : isWs c = true) (h : Reads t v) : Reads (c :: t) v := by
  intro n rest hn hr
  have hn' : t.length ≤ n := by simp only [List.length_cons] at hn; omega
  have := h n rest hn' hr
  cases n with
  | zero => simp at hn
  | succ n =>
    unfold value at this ⊢
    have e : ws (c :: t ++ rest) = ws (t ++ rest) := by simp [ws, hc]
    rw [e]; exact this

theorem isDigit_ne {c d : Char} (h : c.isDigit = true) (hd : d.isDigit = false) : c ≠ d := by
  rintro rfl; rw [h] at hd; cases hd

theorem digitsValue_eq (w : Text) : digitsValue w = Nat.ofDigitChars 10 w 0 := by
  simp only [digitsValue, Nat.ofDigitChars]
  rfl

theorem digitsValue_toDigits (n : Nat) : digitsValue (Nat.toDigits 10 n) = n := by
  rw [digitsValue_eq, Nat.ofDigitChars_ten_toDigits]

theorem takeWhile_digits {w rest : Text} (h : ∀ c ∈ w, Char.isDigit c = true) (hr : NoDigit rest) :
    (w ++ rest).takeWhile Char.isDigit = w ∧ (w ++ rest).dropWhile Char.isDigit = rest := by
  rw [List.takeWhile_append_of_pos h, List.dropWhile_append_of_pos h]
  cases rest with
  | nil => simp
  | cons c r =>
    have := hr c rfl
    simp [this]

theorem toDigits_digit (n : Nat) : ∀ c ∈ Nat.toDigits 10 n, Char.isDigit c = true := fun c h => Nat.isDigit_of_mem_toDigits (b := 10) (n := n) (by decide) (by decide) h

theorem number_ok (x : Int) {rest : Text} (hr : NoDigit rest) : number (decimal x ++ rest) = some (.int x, rest) := by
  cases x with
  | ofNat n =>
    have hd := toDigits_digit n
    have ht := takeWhile_digits hd hr
    have hne := Nat.toDigits_ne_nil (n := n) (b := 10)
    have hh : (Nat.toDigits 10 n ++ rest).head? ≠ some '-' := by
      cases h : Nat.toDigits 10 n with
      | nil => exact absurd h hne
      | cons c w =>
        intro e
        simp only [List.cons_append, List.head?_cons, Option.some.injEq] at e
        have := hd c (by rw [h]; exact List.mem_cons_self)
        rw [e] at this
        exact absurd this (by decide)
    show number (Nat.toDigits 10 n ++ rest) = _
    unfold number
    simp only [hh, if_false]
    rw [ht.1, ht.2, if_neg hne, digitsValue_toDigits]; rfl
  | negSucc n =>
    have hd := toDigits_digit (n + 1)
    have ht := takeWhile_digits hd hr
    have hne := Nat.toDigits_ne_nil (n := n + 1) (b := 10)
    unfold number decimal
    simp only [List.cons_append, List.head?_cons, if_true, List.tail_cons]
    rw [ht.1, ht.2, if_neg hne, digitsValue_toDigits]; rfl

theorem decimal_head (x : Int) : ∃ c w, decimal x = c :: w ∧ isWs c = false ∧ c ≠ '"' ∧ c ≠ '{' ∧ c ≠ '[' := by
  cases x with
  | ofNat n =>
    have hd := toDigits_digit n
    have hne := Nat.toDigits_ne_nil (n := n) (b := 10)
    cases h : Nat.toDigits 10 n with
    | nil => exact absurd h hne
    | cons c w =>
      have hc := hd c (by rw [h]; exact List.mem_cons_self)
      refine ⟨c, w, h, ?_, isDigit_ne hc (by decide), isDigit_ne hc (by decide), isDigit_ne hc (by decide)⟩
      have h1 := isDigit_ne hc (d := ' ') (by decide)
      have h2 := isDigit_ne hc (d := '\n') (by decide)
      have h3 := isDigit_ne hc (d := '\r') (by decide)
      have h4 := isDigit_ne hc (d := '\t') (by decide)
      simp [isWs, h1, h2, h3, h4]
  | negSucc n => exact ⟨'-', _, rfl, by decide, by decide, by decide, by decide⟩

theorem reads_int (x : Int) : Reads (decimal x) (.int x) := by
  intro n rest hn hr
  obtain ⟨c, w, e, h1, h2, h3, h4⟩ := decimal_head x
  cases n with
  | zero => rw [e] at hn; simp at hn
  | succ n =>
    have hw : ws (decimal x ++ rest) = c :: (w ++ rest) := by rw [e]; simp [ws, h1]
    unfold value
    rw [hw]; dsimp only
    rw [if_neg h2, if_neg h3, if_neg h4, ← List.cons_append, ← e, number_ok x hr]

theorem noDigit_cons {c : Char} {t : Text} (h : c.isDigit = false) : NoDigit (c :: t) := by
  intro d hd; simp only [List.head?_cons, Option.some.injEq] at hd; rw [← hd]; exact h

/-- A last member. -/
theorem readsM_last {k t : Text} {v : Json} (hk : Plain k) (h : Reads t v) : ReadsM ('"' :: (k ++ '"' :: ':' :: (t ++ ['}']))) [(k, v)] := by
  intro n rest hn
  cases n with
  | zero => simp at hn
  | succ n =>
    have hn' : t.length ≤ n := by simp only [List.length_cons, List.length_append] at hn; omega
    have e : ws ('"' :: (k ++ '"' :: ':' :: (t ++ ['}'])) ++ rest) = '"' :: (k ++ '"' :: (':' :: (t ++ '}' :: rest))) := by simp [ws, isWs]
    have hv := h n ('}' :: rest) hn' (noDigit_cons (by decide))
    unfold members
    rw [e]; dsimp only
    rw [if_neg (by simp), string_ok hk]
    simp only [Option.bind_some]
    have e2 : ws (':' :: (t ++ '}' :: rest)) = ':' :: (t ++ '}' :: rest) := rfl
    rw [e2]; dsimp only
    rw [if_neg (by simp), hv]
    simp only [Option.bind_some]
    have e3 : ws ('}' :: rest) = '}' :: rest := rfl
    rw [e3]; dsimp only
    rw [if_neg (by decide), if_pos rfl]

/-- A member before others. -/
theorem readsM_cons {k t t' : Text} {v : Json} {ms : List (Text × Json)} (hk : Plain k) (h : Reads t v) (h' : ReadsM t' ms) :
    ReadsM ('"' :: (k ++ '"' :: ':' :: (t ++ ',' :: t'))) ((k, v) :: ms) := by
  intro n rest hn
  cases n with
  | zero => simp at hn
  | succ n =>
    have hn1 : t.length ≤ n := by simp only [List.length_cons, List.length_append] at hn; omega
    have hn2 : t'.length ≤ n := by simp only [List.length_cons, List.length_append] at hn; omega
    have e : ws ('"' :: (k ++ '"' :: ':' :: (t ++ ',' :: t')) ++ rest) = '"' :: (k ++ '"' :: (':' :: (t ++ ',' :: (t' ++ rest)))) := by simp [ws, isWs]
    have hv := h n (',' :: (t' ++ rest)) hn1 (noDigit_cons (by decide))
    unfold members
    rw [e]; dsimp only
    rw [if_neg (by simp), string_ok hk]
    simp only [Option.bind_some]
    have e2 : ws (':' :: (t ++ ',' :: (t' ++ rest))) = ':' :: (t ++ ',' :: (t' ++ rest)) := rfl
    rw [e2]; dsimp only
    rw [if_neg (by simp), hv]
    simp only [Option.bind_some]
    have e3 : ws (',' :: (t' ++ rest)) = ',' :: (t' ++ rest) := rfl
    rw [e3]; dsimp only
    rw [if_pos rfl, h' n rest hn2]; rfl

theorem readsM_ws {t : Text} {ms : List (Text × Json)} {c : Char} (hc : isWs c = true) (h : ReadsM t ms) : ReadsM (c :: t) ms := by
  intro n rest hn
  have hn' : t.length ≤ n := by simp only [List.length_cons] at hn; omega
  have := h n rest hn'
  cases n with
  | zero => simp at hn
  | succ n =>
    unfold members at this ⊢
    have e : ws (c :: t ++ rest) = ws (t ++ rest) := by simp [ws, hc]
    rw [e]; exact this

theorem reads_obj {t : Text} {ms : List (Text × Json)} (h : ReadsM t ms) : Reads ('{' :: t) (.obj ms) := by
  intro n rest hn _
  cases n with
  | zero => simp at hn
  | succ n =>
    have hn' : t.length ≤ n := by simp only [List.length_cons] at hn; omega
    have hm := h n rest hn'
    have e : ws ('{' :: t ++ rest) = '{' :: (t ++ rest) := rfl
    have hh : (ws (t ++ rest)).head? ≠ some '}' := by
      intro hc
      cases n with
      | zero => simp [members] at hm
      | succ n =>
        unfold members at hm
        cases hw : ws (t ++ rest) with
        | nil => rw [hw] at hc; cases hc
        | cons c u =>
          rw [hw] at hc hm
          simp only [List.head?_cons, Option.some.injEq] at hc
          subst hc
          simp at hm
    unfold value
    rw [e]; dsimp only
    rw [if_neg (by decide), if_pos rfl, if_neg hh, hm]; rfl

/-- A last element, with a line break behind it. -/
theorem readsE_last {t : Text} {v : Json} (h : Reads t v) : ReadsE (t ++ ['\n', ']']) [v] := by
  intro n rest hn
  cases n with
  | zero => simp at hn
  | succ n =>
    have hn' : t.length ≤ n := by simp only [List.length_cons, List.length_append] at hn; omega
    have hv := h n ('\n' :: ']' :: rest) hn' (noDigit_cons (by decide))
    have e : t ++ ['\n', ']'] ++ rest = t ++ '\n' :: ']' :: rest := by simp
    unfold elements
    rw [e, hv]
    simp only [Option.bind_some]
    have e3 : ws ('\n' :: ']' :: rest) = ']' :: rest := rfl
    rw [e3]; dsimp only
    rw [if_neg (by decide), if_pos rfl]

theorem readsE_cons {t t' : Text} {v : Json} {es : List Json} (h : Reads t v) (h' : ReadsE t' es) : ReadsE (t ++ ',' :: t') (v :: es) := by
  intro n rest hn
  cases n with
  | zero => simp at hn
  | succ n =>
    have hn1 : t.length ≤ n := by simp only [List.length_cons, List.length_append] at hn; omega
    have hn2 : t'.length ≤ n := by simp only [List.length_cons, List.length_append] at hn; omega
    have hv := h n (',' :: (t' ++ rest)) hn1 (noDigit_cons (by decide))
    have e : t ++ ',' :: t' ++ rest = t ++ ',' :: (t' ++ rest) := by simp
    unfold elements
    rw [e, hv]
    simp only [Option.bind_some]
    have e3 : ws (',' :: (t' ++ rest)) = ',' :: (t' ++ rest) := rfl
    rw [e3]; dsimp only
    rw [if_pos rfl, h' n rest hn2]; rfl

theorem value_ws (n : Nat) (c : Char) (t : Text) (hc : isWs c = true) : value n (c :: t) = value n t := by
  cases n with
  | zero => unfold value; rfl
  | succ n =>
    unfold value
    have e : ws (c :: t) = ws t := by simp [ws, hc]
    rw [e]

theorem readsE_ws {t : Text} {es : List Json} {c : Char} (hc : isWs c = true) (h : ReadsE t es) : ReadsE (c :: t) es := by
  intro n rest hn
  have hn' : t.length ≤ n := by simp only [List.length_cons] at hn; omega
  have := h n rest hn'
  cases n with
  | zero => simp at hn
  | succ n =>
    unfold elements at this ⊢
    rw [List.cons_append, value_ws n c _ hc]; exact this

theorem reads_arr {t : Text} {es : List Json} (h : ReadsE t es) : Reads ('[' :: t) (.arr es) := by
  intro n rest hn _
  cases n with
  | zero => simp at hn
  | succ n =>
    have hn' : t.length ≤ n := by simp only [List.length_cons] at hn; omega
    have hm := h n rest hn'
    have e : ws ('[' :: t ++ rest) = '[' :: (t ++ rest) := rfl
    have hh : (ws (t ++ rest)).head? ≠ some ']' := by
      intro hc
      cases n with
      | zero => simp [elements] at hm
      | succ n =>
        unfold elements at hm
        cases n with
        | zero => simp [value] at hm
        | succ n =>
        unfold value at hm
        cases hw : ws (t ++ rest) with
        | nil => rw [hw] at hc; cases hc
        | cons c u =>
          rw [hw] at hc hm
          simp only [List.head?_cons, Option.some.injEq] at hc
          subst hc
          simp [number, Char.isDigit] at hm
    unfold value
    rw [e]; dsimp only
    rw [if_neg (by decide), if_neg (by decide), if_pos rfl, if_neg hh, hm]; rfl

/-- Elements with commas and line breaks behind them, as text that is put before others. -/
def Prefix (t : Text) (es : List Json) : Prop := ∀ t' es', ReadsE t' es' → ReadsE (t ++ t') (es ++ es')

theorem prefix_nil : Prefix [] [] := fun _ _ h => h

theorem Prefix.append {a b : Text} {x y : List Json} (ha : Prefix a x) (hb : Prefix b y) : Prefix (a ++ b) (x ++ y) := fun t' es' h => by
  rw [List.append_assoc, List.append_assoc]; exact ha _ _ (hb _ _ h)

theorem prefix_one {t : Text} {v : Json} (h : Reads t v) : Prefix (t ++ [',', '\n']) [v] := fun t' es' h' => by
  have : t ++ [',', '\n'] ++ t' = t ++ ',' :: ('\n' :: t') := by simp
  rw [this]
  exact readsE_cons h (readsE_ws (by decide) h')

theorem prefix_flatMap {α : Type} (f : α → Text) (g : α → List Json) : ∀ (l : List α), (∀ a ∈ l, Prefix (f a) (g a)) → Prefix (l.flatMap f) (l.flatMap g)
  | [], _ => prefix_nil
  | a :: l, h => by
    rw [List.flatMap_cons, List.flatMap_cons]
    exact (h a List.mem_cons_self).append (prefix_flatMap f g l fun b hb => h b (List.mem_cons_of_mem _ hb))

/-! ## The lines -/

/-- A member before others. -/
def mem (k t rest : Text) : Text := '"' :: (k ++ '"' :: ':' :: (t ++ ',' :: rest))
/-- A last member. -/
def memL (k t : Text) : Text := '"' :: (k ++ '"' :: ':' :: (t ++ ['}']))
/-- A string. -/
def quote (s : Text) : Text := '"' :: (s ++ ['"'])

theorem line_eq (event : Nat) (s : Shown) : line event s =
    ('{' :: mem "name".toList (' ' :: quote s.name) (' ' :: mem "cat".toList (' ' :: quote (eventNames.getD event []))
      (' ' :: mem "ph".toList (' ' :: quote s.phase) (' ' :: mem "tid".toList (' ' :: decimal s.tid)
      (' ' :: mem "pid".toList (' ' :: decimal s.pid) (' ' :: mem "ts".toList (' ' :: decimal s.timestamp)
      (' ' :: memL "args".toList (' ' :: s.args)))))))) ++ [',', '\n'] := by
  unfold line mem memL quote
  simp only [String.reduceToList]
  simp only [List.append_assoc, List.cons_append, List.nil_append]

theorem prefix_line {event : Nat} {s : Shown} {args : List (Text × Json)} (hn : Plain s.name) (hc : Plain (eventNames.getD event [])) (hp : Plain s.phase)
    (ha : Reads s.args (.obj args)) : Prefix (line event s) [Chrome.event s.name (eventNames.getD event []) s.phase s.tid s.pid s.timestamp args] := by
  rw [line_eq]
  refine prefix_one (reads_obj ?_)
  refine readsM_cons (by decide) (reads_ws (by decide) (reads_str hn)) (readsM_ws (by decide) ?_)
  refine readsM_cons (by decide) (reads_ws (by decide) (reads_str hc)) (readsM_ws (by decide) ?_)
  refine readsM_cons (by decide) (reads_ws (by decide) (reads_str hp)) (readsM_ws (by decide) ?_)
  refine readsM_cons (by decide) (reads_ws (by decide) (reads_int _)) (readsM_ws (by decide) ?_)
  refine readsM_cons (by decide) (reads_ws (by decide) (reads_int _)) (readsM_ws (by decide) ?_)
  refine readsM_cons (by decide) (reads_ws (by decide) (reads_int _)) (readsM_ws (by decide) ?_)
  exact readsM_last (by decide) (reads_ws (by decide) ha)

theorem asInt_small {n : Nat} (h : n < 2 ^ 31) : asInt n = n := by
  unfold asInt
  rw [Nat.mod_eq_of_lt (by omega), if_pos h]

theorem toDigits_length {n : Nat} (h : n < 1000) : (Nat.toDigits 10 n).length ≤ 3 := by
  rw [Nat.length_toDigits_le_iff (by decide) (by decide)]; omega

theorem reads_reaction {dst : Int} (h1 : -1 ≤ dst) (h2 : dst < 1000) :
    Reads (reactionName dst) (if 0 ≤ dst then .int dst else .str "UNKNOWN".toList) := by
  unfold reactionName
  split
  · rename_i h
    obtain ⟨n, rfl⟩ := Int.eq_ofNat_of_zero_le h
    have : (decimal (n : Int)).take 3 = decimal (n : Int) := List.take_of_length_le (toDigits_length (by omega))
    rw [this]; exact reads_int _
  · exact reads_str (s := "UNKNOWN".toList) (by decide)

theorem args_eq (start : Int) (r : Record) : usualArgs start r =
    '{' :: mem "reaction".toList (' ' :: reactionName r.dst) (mem "logical time".toList (' ' :: decimal (elapsed start r.logical))
      (mem "physical time".toList (' ' :: decimal (elapsed start r.physical)) (memL "microstep".toList (' ' :: decimal (asInt r.microstep))))) := by
  unfold usualArgs mem memL
  simp only [String.reduceToList]
  simp only [List.append_assoc, List.cons_append, List.nil_append]

theorem reads_args {start : Int} {r : Record} (h : Small r) : Reads (usualArgs start r) (.obj (details start r)) := by
  rw [args_eq, asInt_small h.2.2]
  refine reads_obj ?_
  refine readsM_cons (by decide) (reads_ws (by decide) (reads_reaction h.1 h.2.1)) ?_
  refine readsM_cons (by decide) (reads_ws (by decide) (reads_int _)) ?_
  refine readsM_cons (by decide) (reads_ws (by decide) (reads_int _)) ?_
  exact readsM_last (by decide) (reads_ws (by decide) (reads_int _))

theorem reads_value (x : Int) : Reads ("{\"value\": ".toList ++ decimal x ++ "}".toList) (.obj [("value".toList, .int x)]) := by
  have e : "{\"value\": ".toList ++ decimal x ++ "}".toList = '{' :: memL "value".toList (' ' :: decimal x) := by
    unfold memL
    simp only [String.reduceToList]
    simp only [List.cons_append, List.nil_append]
  rw [e]
  exact reads_obj (readsM_last (by decide) (reads_ws (by decide) (reads_int _)))

theorem instant_eq (start : Int) (table : List Object) (r : Record) : instant start table r =
    ('{' :: mem "name".toList (' ' :: quote (("reaction ".toList ++ decimal r.dst).take 12)) (' ' :: mem "cat".toList (' ' :: quote "Reaction".toList)
      (' ' :: mem "ph".toList (' ' :: quote "i".toList) (' ' :: mem "tid".toList (' ' :: decimal (1024 + r.dst))
      (' ' :: mem "pid".toList (' ' :: decimal ((getObjectDescription table r.pointer).2 + 1)) (' ' :: mem "ts".toList (' ' :: decimal (elapsed start r.logical))
      (' ' :: memL "args".toList (' ' :: '{' :: mem "microstep".toList (' ' :: decimal (asInt r.microstep))
        (' ' :: memL "physical time".toList (' ' :: decimal (elapsed start r.physical))))))))))) ++ [',', '\n'] := by
  unfold instant mem memL quote
  simp only [String.reduceToList]
  simp only [List.append_assoc, List.cons_append, List.nil_append]

theorem decimal_plain (x : Int) : Plain (decimal x) := by
  have hd : ∀ c : Char, c.isDigit = true → plain c = true := by
    intro c h
    have h1 := isDigit_ne h (d := '"') (by decide)
    have h2 := isDigit_ne h (d := '\\') (by decide)
    have h3 : 32 ≤ c.toNat := by
      simp only [Char.isDigit, Bool.and_eq_true, decide_eq_true_eq, ge_iff_le, UInt32.le_iff_toNat_le] at h
      have : c.toNat = c.val.toNat := rfl
      have h1 := h.1
      change 48 ≤ c.val.toNat at h1
      omega
    simp [plain, h1, h2, h3]
  cases x with
  | ofNat n => exact fun c hc => hd c (toDigits_digit n c hc)
  | negSucc n =>
    intro c hc
    rcases List.mem_cons.1 hc with rfl | hc
    · decide
    · exact hd c (toDigits_digit _ c hc)

theorem decimal_length {x : Int} (h1 : -1 ≤ x) (h2 : x < 1000) : (decimal x).length ≤ 3 := by
  cases x with
  | ofNat n => exact toDigits_length (by simp only [Int.ofNat_eq_natCast] at h2; omega)
  | negSucc n =>
    have : n = 0 := by omega
    subst this; decide

theorem prefix_instant {start : Int} {table : List Object} {r : Record} (h : Small r) (hp : (getObjectDescription table r.pointer).2 = placeOf table r.pointer) :
    Prefix (instant start table r) [reactionEvent start table r] := by
  have ht : ("reaction ".toList ++ decimal r.dst).take 12 = "reaction ".toList ++ decimal r.dst := by
    refine List.take_of_length_le ?_
    have := decimal_length h.1 h.2.1
    rw [List.length_append]
    have : "reaction ".toList.length = 9 := rfl
    omega
  rw [instant_eq, asInt_small h.2.2, hp, ht]
  refine prefix_one (reads_obj ?_)
  refine readsM_cons (by decide) (reads_ws (by decide) (reads_str ((show Plain "reaction ".toList by decide).append (decimal_plain _)))) (readsM_ws (by decide) ?_)
  refine readsM_cons (by decide) (reads_ws (by decide) (reads_str (by decide))) (readsM_ws (by decide) ?_)
  refine readsM_cons (by decide) (reads_ws (by decide) (reads_str (by decide))) (readsM_ws (by decide) ?_)
  refine readsM_cons (by decide) (reads_ws (by decide) (reads_int _)) (readsM_ws (by decide) ?_)
  refine readsM_cons (by decide) (reads_ws (by decide) (reads_int _)) (readsM_ws (by decide) ?_)
  refine readsM_cons (by decide) (reads_ws (by decide) (reads_int _)) (readsM_ws (by decide) ?_)
  refine readsM_last (by decide) (reads_ws (by decide) (reads_obj ?_))
  refine readsM_cons (by decide) (reads_ws (by decide) (reads_int _)) (readsM_ws (by decide) ?_)
  exact readsM_last (by decide) (reads_ws (by decide) (reads_int _))

/-! ## The table -/

theorem description_eq (table : List Object) (p : Nat) : getObjectDescription table p = (nameOf table p, placeOf table p) := by
  unfold getObjectDescription nameOf placeOf
  cases h : table.findIdx? fun x => decide (x.pointer = p) with
  | none =>
    rw [List.findIdx?_eq_none_iff] at h
    have h1 : ¬ ∃ x ∈ table, x.pointer = p := by
      rintro ⟨x, hx, e⟩; have := h x hx; simp [e] at this
    have h2 : table.find? (fun x => decide (x.pointer = p)) = none := by
      rw [List.find?_eq_none]; intro x hx e; exact h1 ⟨x, hx, by simpa using e⟩
    simp only [h2, if_neg h1, Option.map_none]
  | some i =>
    have hi := h
    rw [List.findIdx?_eq_some_iff_findIdx_eq] at hi
    have hget : table[i]? = table.find? (fun x => decide (x.pointer = p)) := by
      rw [List.find?_eq_getElem?_findIdx, hi.2]
    have h1 : ∃ x ∈ table, x.pointer = p := by
      have := List.findIdx_lt_length.1 (hi.2 ▸ hi.1)
      obtain ⟨x, hx, e⟩ := this
      exact ⟨x, hx, by simpa using e⟩
    simp only [hget, if_pos h1]
    rw [hi.2]

theorem trigger_eq (table : List Object) (p : Nat) : getTriggerName table p = (triggerOf table p, triggerPlace table p) := by
  unfold getTriggerName triggerOf triggerPlace
  have hf : (fun x : Object => decide (x.trigger = p) && decide (x.type = 1)) = fun x => decide (x.trigger = p ∧ x.type = 1) := by
    funext x; simp
  rw [hf]
  cases h : table.findIdx? fun x => decide (x.trigger = p ∧ x.type = 1) with
  | none =>
    rw [List.findIdx?_eq_none_iff] at h
    have h1 : ¬ ∃ x ∈ table, x.trigger = p ∧ x.type = 1 := by
      rintro ⟨x, hx, e⟩; have := h x hx; simp [e] at this
    have h2 : table.find? (fun x => decide (x.trigger = p ∧ x.type = 1)) = none := by
      rw [List.find?_eq_none]; intro x hx e; exact h1 ⟨x, hx, by simpa using e⟩
    simp only [h2, if_neg h1, Option.map_none]
  | some i =>
    have hi := h
    rw [List.findIdx?_eq_some_iff_findIdx_eq] at hi
    have hget : table[i]? = table.find? (fun x => decide (x.trigger = p ∧ x.type = 1)) := by
      rw [List.find?_eq_getElem?_findIdx, hi.2]
    have h1 : ∃ x ∈ table, x.trigger = p ∧ x.type = 1 := by
      have := List.findIdx_lt_length.1 (hi.2 ▸ hi.1)
      obtain ⟨x, hx, e⟩ := this
      exact ⟨x, hx, by simpa using e⟩
    simp only [hget, if_pos h1]
    rw [hi.2]

/-! ## Names -/

theorem threadName_eq (pid tid : Int) (name : Text) : threadName pid tid name =
    ('{' :: mem "name".toList (' ' :: quote "thread_name".toList) (' ' :: mem "ph".toList (' ' :: quote "M".toList)
      (' ' :: mem "pid".toList (' ' :: decimal pid) (' ' :: mem "tid".toList (' ' :: decimal tid)
      (' ' :: memL "args".toList (' ' :: '{' :: memL "name".toList (' ' :: quote name))))))) ++ [',', '\n'] := by
  unfold threadName mem memL quote
  simp only [String.reduceToList]
  simp only [List.append_assoc, List.cons_append, List.nil_append]

theorem threadLabel_eq (pid tid : Int) (name : Text) : threadLabel pid tid name =
    ('{' :: mem "name".toList (' ' :: quote "thread_name".toList) (' ' :: mem "ph".toList (' ' :: quote "M".toList)
      (' ' :: mem "pid".toList (' ' :: decimal pid) (' ' :: mem "tid".toList (' ' :: decimal tid)
      (memL "args".toList (' ' :: '{' :: memL "name".toList (' ' :: quote name))))))) ++ [',', '\n'] := by
  unfold threadLabel mem memL quote
  simp only [String.reduceToList]
  simp only [List.append_assoc, List.cons_append, List.nil_append]

/-- The text of a name of a process. -/
def processText (pid : Int) (name : Text) : Text :=
  '{' :: mem "name".toList (' ' :: quote "process_name".toList) (' ' :: mem "ph".toList (' ' :: quote "M".toList)
      (' ' :: mem "pid".toList (' ' :: decimal pid) (' ' :: memL "args".toList (' ' :: '{' :: memL "name".toList (' ' :: quote name)))))

theorem processName_eq (pid : Int) (name : Text) : processName pid name false = processText pid name ++ [',', '\n'] := by
  unfold processName processText mem memL quote
  simp only [String.reduceToList]
  simp only [List.append_assoc, List.cons_append, List.nil_append, Bool.false_eq_true, if_false]

theorem processName_last (pid : Int) (name : Text) : processName pid name true = processText pid name ++ ['\n'] := by
  unfold processName processText mem memL quote
  simp only [String.reduceToList]
  simp only [List.append_assoc, List.cons_append, List.nil_append, if_true]

theorem prefix_threadName (pid tid : Int) {name : Text} (h : Plain name) : Prefix (threadName pid tid name) [namedThread pid tid name] := by
  rw [threadName_eq]
  refine prefix_one (reads_obj ?_)
  refine readsM_cons (by decide) (reads_ws (by decide) (reads_str (by decide))) (readsM_ws (by decide) ?_)
  refine readsM_cons (by decide) (reads_ws (by decide) (reads_str (by decide))) (readsM_ws (by decide) ?_)
  refine readsM_cons (by decide) (reads_ws (by decide) (reads_int _)) (readsM_ws (by decide) ?_)
  refine readsM_cons (by decide) (reads_ws (by decide) (reads_int _)) (readsM_ws (by decide) ?_)
  exact readsM_last (by decide) (reads_ws (by decide) (reads_obj (readsM_last (by decide) (reads_ws (by decide) (reads_str h)))))

theorem prefix_threadLabel (pid tid : Int) {name : Text} (h : Plain name) : Prefix (threadLabel pid tid name) [namedThread pid tid name] := by
  rw [threadLabel_eq]
  refine prefix_one (reads_obj ?_)
  refine readsM_cons (by decide) (reads_ws (by decide) (reads_str (by decide))) (readsM_ws (by decide) ?_)
  refine readsM_cons (by decide) (reads_ws (by decide) (reads_str (by decide))) (readsM_ws (by decide) ?_)
  refine readsM_cons (by decide) (reads_ws (by decide) (reads_int _)) (readsM_ws (by decide) ?_)
  refine readsM_cons (by decide) (reads_ws (by decide) (reads_int _)) ?_
  exact readsM_last (by decide) (reads_ws (by decide) (reads_obj (readsM_last (by decide) (reads_ws (by decide) (reads_str h)))))

theorem reads_process (pid : Int) {name : Text} (h : Plain name) : Reads (processText pid name) (namedProcess pid name) := by
  refine reads_obj ?_
  refine readsM_cons (by decide) (reads_ws (by decide) (reads_str (by decide))) (readsM_ws (by decide) ?_)
  refine readsM_cons (by decide) (reads_ws (by decide) (reads_str (by decide))) (readsM_ws (by decide) ?_)
  refine readsM_cons (by decide) (reads_ws (by decide) (reads_int _)) (readsM_ws (by decide) ?_)
  exact readsM_last (by decide) (reads_ws (by decide) (reads_obj (readsM_last (by decide) (reads_ws (by decide) (reads_str h)))))

theorem prefix_workers (m : Int) : Prefix (workerNames m) (workers m) := by
  refine prefix_flatMap _ _ _ fun k _ => ?_
  have h := prefix_threadName 0 (k + 1 : Nat) ((show Plain "Worker ".toList by decide).append (decimal_plain (k + 1 : Nat)))
  exact (h.append h).append h

theorem prefix_reactions (size : Nat) (m : Int) : Prefix (reactionNames size m) (reactions size m) := by
  refine prefix_flatMap _ _ _ fun i _ => ?_
  rw [List.map_eq_flatMap]
  exact prefix_flatMap _ _ _ fun n _ => prefix_threadName _ _ ((show Plain "Reaction ".toList by decide).append (decimal_plain n))

theorem prefix_object {table : List Object} (i : Nat) {x : Object} (h : Plain x.description) : Prefix (objectName table i x) (objectLabel table i x) := by
  unfold objectName objectLabel
  rw [description_eq]
  by_cases h1 : x.type = 1
  · rw [if_pos h1, if_neg (by omega), if_pos h1]
    exact prefix_threadLabel _ _ ((show Plain "Trigger ".toList by decide).append h)
  · rw [if_neg h1]
    by_cases h0 : x.type = 0
    · rw [if_pos h0, if_pos h0, processName_eq]
      exact prefix_one (reads_process _ (((show Plain "Reactor ".toList by decide).append h).append (by decide)))
    · rw [if_neg h0, if_neg h0, if_neg h1]
      by_cases h2 : x.type = 2
      · rw [if_pos h2, if_pos h2]; exact prefix_threadLabel _ _ h
      · rw [if_neg h2, if_neg h2]; exact prefix_nil

theorem topLevel_eq (table : List Object) : topLevel table = program table := by
  cases table <;> rfl

theorem topLevel_plain {table : List Object} (h : PlainTable table) : Plain (topLevel table) := by
  cases table with
  | nil => exact (show Plain "(null)".toList by decide)
  | cons x l => exact h x List.mem_cons_self

theorem mainThread_eq : "{\"name\": \"thread_name\", \"ph\": \"M\", \"pid\": 0, \"tid\": 0, \"args\": {\"name\": \"Main thread\"}},\n".toList =
    threadName 0 0 "Main thread".toList := by
  have h : decimal 0 = ['0'] := by decide
  unfold threadName
  rw [h]
  simp only [String.reduceToList]
  simp only [List.cons_append, List.nil_append]

theorem readsE_metadata {table : List Object} (h : PlainTable table) (s : State) :
    ReadsE (metadata table s ++ [']']) ([namedThread 0 0 "Main thread".toList] ++ workers s.maxThread ++ reactions table.length s.maxReaction ++ labels table ++
      [namedProcess 0 ("Execution of ".toList ++ program table),
       namedProcess 1000000 ("User events in ".toList ++ program table ++ ", shown in physical time:".toList)]) := by
  unfold metadata
  rw [mainThread_eq, processName_last, processName_eq, ← topLevel_eq]
  have hl : Prefix (table.zipIdx.flatMap fun x => objectName table x.2 x.1) (labels table) :=
    prefix_flatMap _ _ _ fun x hx => prefix_object _ (h _ (List.fst_mem_of_mem_zipIdx hx))
  have a := (((prefix_threadName 0 0 (name := "Main thread".toList) (by decide)).append (prefix_workers s.maxThread)).append
    (prefix_reactions table.length s.maxReaction)).append hl
  have b := a.append (prefix_one (reads_process 0 ((show Plain "Execution of ".toList by decide).append (topLevel_plain h))))
  have c := b _ _ (readsE_last (reads_process 1000000 (((show Plain "User events in ".toList by decide).append (topLevel_plain h)).append
    (show Plain ", shown in physical time:".toList by decide))))
  simp only [List.append_assoc, List.cons_append, List.nil_append] at c ⊢
  exact c

/-! ## Records -/

theorem elapsed_neg (start t : Int) : elapsed start t < 0 ↔ ¬ start - t < 1000 := by
  unfold elapsed
  constructor
  · intro h hn
    have : (0 : Int) ≤ (t - start).tdiv 1000 := by
      rcases Int.le_total 0 (t - start) with hp | hp
      · exact Int.tdiv_nonneg hp (by decide)
      · obtain ⟨k, hk⟩ := Int.eq_ofNat_of_zero_le (a := start - t) (by omega)
        have : t - start = -(k : Int) := by omega
        rw [this, Int.neg_tdiv, show (k : Int).tdiv 1000 = ((k / 1000 : Nat) : Int) from (Int.ofNat_tdiv k 1000).symm]
        have : k / 1000 = 0 := Nat.div_eq_of_lt (by omega)
        omega
    omega
  · intro h
    obtain ⟨k, hk⟩ := Int.eq_ofNat_of_zero_le (a := start - t) (by omega)
    have : t - start = -(k : Int) := by omega
    rw [this, Int.neg_tdiv, show (k : Int).tdiv 1000 = ((k / 1000 : Nat) : Int) from (Int.ofNat_tdiv k 1000).symm]
    have : 1 ≤ k / 1000 := (Nat.le_div_iff_mul_le (by decide)).2 (by omega)
    omega

theorem names_plain : ∀ e ≤ 10, Plain (eventNames.getD e []) := by decide +kernel

theorem name_plain {table : List Object} (h : PlainTable table) (p : Nat) {d : Text} (hd : Plain d) : Plain ((nameOf table p).getD d) := by
  unfold nameOf
  cases hf : table.find? (fun x => decide (x.pointer = p)) with
  | none => exact hd
  | some x => exact h x (List.mem_of_find?_eq_some hf)

theorem trigger_plain {table : List Object} (h : PlainTable table) (p : Nat) {d : Text} (hd : Plain d) : Plain ((triggerOf table p).getD d) := by
  unfold triggerOf
  cases hf : table.find? (fun x => decide (x.trigger = p ∧ x.type = 1)) with
  | none => exact hd
  | some x => exact h x (List.mem_of_find?_eq_some hf)

theorem reactorName_eq (table : List Object) (r : Record) : reactorName table r = (nameOf table r.pointer).getD (unnamed r.event) := by
  unfold reactorName
  rw [description_eq]
  cases nameOf table r.pointer with
  | none => simp only [unnamed, or_self, Option.getD_none]
  | some d => rfl

theorem unnamed_plain (e : Nat) : Plain (unnamed e) := by
  unfold unnamed
  split
  · decide
  · split <;> decide

theorem prefix_main (po : Bool) (start : Int) {table : List Object} (h : PlainTable table) {r : Record} (hr : Small r) (he : r.event ≤ 10) :
    Prefix (line r.event (shown po start table r)) [mainEvent po start table r] := by
  have hc := names_plain r.event he
  have hn := name_plain h r.pointer (unnamed_plain r.event)
  have ha := reads_args (start := start) hr
  have ht := trigger_plain h r.trigger (d := "NONE".toList) (by decide)
  have key : ∃ args, Reads (shown po start table r).args (.obj args) ∧ Plain (shown po start table r).name ∧ Plain (shown po start table r).phase ∧
      Chrome.event (shown po start table r).name (eventNames.getD r.event []) (shown po start table r).phase (shown po start table r).tid
        (shown po start table r).pid (shown po start table r).timestamp args = mainEvent po start table r := by
    unfold shown
    dsimp only
    rw [reactorName_eq, description_eq, trigger_eq]
    have hcases : r.event = 0 ∨ r.event = 1 ∨ r.event = 2 ∨ r.event = 3 ∨ r.event = 4 ∨ r.event = 5 ∨ r.event = 6 ∨ r.event = 7 ∨ r.event = 8 ∨ r.event = 9 ∨ r.event = 10 := by omega
    have hv := reads_value r.delay
    unfold mainEvent timeOf phaseOf processOf threadOf
    rcases hcases with e | e | e | e | e | e | e | e | e | e | e <;> rw [e] at hn ⊢ <;> dsimp only
    · exact ⟨_, ha, hn, (by decide : Plain "B".toList), by cases po <;> rfl⟩
    · exact ⟨_, ha, hn, (by decide : Plain "E".toList), by cases po <;> rfl⟩
    · exact ⟨_, ha, hn, (by decide : Plain "i".toList), by cases po <;> rfl⟩
    · exact ⟨_, ha, ht, (by decide : Plain "i".toList), by cases po <;> rfl⟩
    · exact ⟨_, ha, hn, (by decide : Plain "i".toList), by cases po <;> rfl⟩
    · exact ⟨_, hv, hn, (by decide : Plain "C".toList), by cases po <;> rfl⟩
    · exact ⟨_, ha, hn, (by decide : Plain "B".toList), by cases po <;> rfl⟩
    · exact ⟨_, ha, hn, (by decide : Plain "E".toList), by cases po <;> rfl⟩
    · exact ⟨_, ha, hn, (by decide : Plain "B".toList), by cases po <;> rfl⟩
    · exact ⟨_, ha, hn, (by decide : Plain "E".toList), by cases po <;> rfl⟩
    · exact ⟨_, ha, hn, (by decide : Plain "i".toList), by cases po <;> rfl⟩
  obtain ⟨args, h1, h2, h3, h4⟩ := key
  rw [← h4]
  exact prefix_line h2 hc h3 h1

/-- What the loop has done. -/
structure Done (po : Bool) (start : Int) (table : List Object) (rs : List Record) (s : State) : Prop where
  out : Prefix s.out (rs.flatMap (expected po start table))
  thread : s.maxThread = lastWorker start rs
  reaction : s.maxReaction = lastReaction po start rs

theorem greatest_append (l : List Int) (a : Int) : greatest (l ++ [a]) = if a > greatest l then a else greatest l := by
  unfold greatest
  rw [List.foldl_append]
  simp only [List.foldl_cons, List.foldl_nil]
  rw [Int.max_def]
  split <;> split <;> omega

theorem record_done (po : Bool) (start : Int) {table : List Object} (h : PlainTable table) {rs : List Record} {s : State} (d : Done po start table rs s) {r : Record} (hr : Small r) :
    Done po start table (rs ++ [r]) (record po start table s r) := by
  have hw : lastWorker start (rs ++ [r]) = if IsShown start r then (if r.src > lastWorker start rs then r.src else lastWorker start rs) else lastWorker start rs := by
    unfold lastWorker
    rw [List.filter_append, List.map_append]
    by_cases hs : IsShown start r
    · rw [if_pos hs]
      have : [r].filter (fun r => decide (IsShown start r)) = [r] := by simp [hs]
      rw [this]; exact greatest_append _ _
    · rw [if_neg hs]
      have : [r].filter (fun r => decide (IsShown start r)) = [] := by simp [hs]
      rw [this]; simp
  have hl : lastReaction po start (rs ++ [r]) = if IsShown start r ∧ r.event = 0 ∧ po = false then
      (if r.dst > lastReaction po start rs then r.dst else lastReaction po start rs) else lastReaction po start rs := by
    unfold lastReaction
    rw [List.filter_append, List.map_append]
    by_cases hs : IsShown start r ∧ r.event = 0 ∧ po = false
    · rw [if_pos hs]
      have : [r].filter (fun r => decide (IsShown start r ∧ r.event = 0 ∧ po = false)) = [r] := by simp only [List.filter_cons, hs, decide_true, if_true, List.filter_nil, and_self]
      rw [this]; exact greatest_append _ _
    · rw [if_neg hs]
      have : [r].filter (fun r => decide (IsShown start r ∧ r.event = 0 ∧ po = false)) = [] := by
        rw [List.filter_cons, if_neg (by simpa using hs)]; rfl
      rw [this]; simp
  have hf : (rs ++ [r]).flatMap (expected po start table) = rs.flatMap (expected po start table) ++ expected po start table r := by simp
  have skip : ¬ IsShown start r → Done po start table (rs ++ [r]) s := by
    intro hs
    refine ⟨?_, ?_, ?_⟩
    · rw [hf, show expected po start table r = [] by unfold expected; rw [if_neg hs], List.append_nil]; exact d.out
    · rw [hw, if_neg hs]; exact d.thread
    · have hc : ¬ (IsShown start r ∧ r.event = 0 ∧ po = false) := fun c => hs c.1
      rw [hl, if_neg hc]; exact d.reaction
  unfold record
  by_cases h1 : r.event > 10
  · rw [if_pos h1]; exact skip (fun c => by have := c.1; omega)
  · rw [if_neg h1]
    by_cases h2 : elapsed start r.physical < 0
    · rw [if_pos h2]; exact skip (fun c => (elapsed_neg _ _).1 h2 c.2.1)
    · rw [if_neg h2]
      by_cases h3 : elapsed start r.logical < 0
      · rw [if_pos h3]; exact skip (fun c => (elapsed_neg _ _).1 h3 c.2.2)
      · rw [if_neg h3]
        have hs : IsShown start r := ⟨by omega, by by_contra c; exact h2 ((elapsed_neg _ _).2 c), by by_contra c; exact h3 ((elapsed_neg _ _).2 c)⟩
        have hm := d.out.append (prefix_main po start h hr (by omega))
        dsimp only
        by_cases h4 : r.event = 0 ∧ po = false
        · rw [if_pos h4]
          refine ⟨?_, ?_, ?_⟩
          · rw [hf, show expected po start table r = [mainEvent po start table r] ++ [reactionEvent start table r] by unfold expected; rw [if_pos hs, if_pos h4]; rfl,
              ← List.append_assoc]
            exact hm.append (prefix_instant hr (by rw [description_eq]))
          · rw [hw, if_pos hs, ← d.thread]
          · have hc : IsShown start r ∧ r.event = 0 ∧ po = false := ⟨hs, h4⟩
            rw [hl, if_pos hc, ← d.reaction]
        · rw [if_neg h4]
          refine ⟨?_, ?_, ?_⟩
          · rw [hf, show expected po start table r = [mainEvent po start table r] by unfold expected; rw [if_pos hs, if_neg h4]]
            exact hm
          · rw [hw, if_pos hs, ← d.thread]
          · have hc : ¬ (IsShown start r ∧ r.event = 0 ∧ po = false) := fun c => h4 c.2
            rw [hl, if_neg hc]; exact d.reaction

theorem records_done (po : Bool) (start : Int) {table : List Object} (h : PlainTable table) : ∀ (rs done : List Record) (s : State), (∀ r ∈ rs, Small r) →
    Done po start table done s → Done po start table (done ++ rs) (records po start table s rs)
  | [], done, s, _, d => by rw [List.append_nil]; exact d
  | r :: rs, done, s, hs, d => by
    have := records_done po start h rs (done ++ [r]) _ (fun x hx => hs x (List.mem_cons_of_mem _ hx)) (record_done po start h d (hs r List.mem_cons_self))
    rw [List.append_assoc] at this
    exact this

theorem output_read (po : Bool) (start : Int) {table : List Object} (h : PlainTable table) {rs : List Record} (hs : ∀ r ∈ rs, Small r) :
    read (output po start table rs) = some (document po start table rs) := by
  have d := records_done po start h rs [] ⟨[], 0, 0⟩ hs ⟨prefix_nil, rfl, rfl⟩
  rw [List.nil_append] at d
  unfold output
  dsimp only
  generalize records po start table ⟨[], 0, 0⟩ rs = s at d
  have hm := readsE_metadata h s
  rw [d.thread, d.reaction] at hm
  have he := readsE_ws (c := '\n') (by decide) (d.out _ _ hm)
  have hr : Reads ('{' :: ' ' :: memL "traceEvents".toList (' ' :: '[' :: '\n' :: (s.out ++ (metadata table s ++ [']'])))) (document po start table rs) :=
    reads_obj (readsM_ws (by decide) (readsM_last (by decide) (reads_ws (by decide) (reads_arr he))))
  have e : "{ \"traceEvents\": [\n".toList ++ s.out ++ metadata table s ++ "]}\n".toList =
      ('{' :: ' ' :: memL "traceEvents".toList (' ' :: '[' :: '\n' :: (s.out ++ (metadata table s ++ [']'])))) ++ ['\n'] := by
    unfold memL
    simp only [String.reduceToList]
    simp only [List.append_assoc, List.cons_append, List.nil_append]
  rw [e]
  unfold read
  rw [hr _ ['\n'] (by simp only [List.length_append]; omega) (noDigit_cons (by decide))]
  rfl

end ReactorC.Chrome
