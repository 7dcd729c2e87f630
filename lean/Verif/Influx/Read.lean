import Verif.Influx.Inv

/-! Lemmas: reading what was written. -/

namespace ReactorC.Influx

theorem escape_head {e : List Char} (hbe : '\\' ∉ e) (s : Text) (hs : s ≠ []) (u : Text) : ∃ d r, escape e s ++ u = d :: r ∧ d ∉ e := by
  cases s with
  | nil => exact absurd rfl hs
  | cons c s =>
    rw [escape_cons]
    by_cases hc : c ∈ e
    · rw [if_pos hc]; exact ⟨'\\', _, rfl, hbe⟩
    · rw [if_neg hc]; exact ⟨c, _, rfl, hc⟩

theorem word_stop (esc stop : List Char) {sep : Char} (rest : Text) (hsep : sep ∈ stop) (hb : '\\' ∉ stop) : word esc stop (sep :: rest) = ([], sep :: rest) := by
  have hne : sep ≠ '\\' := fun h => hb (h ▸ hsep)
  cases rest with
  | nil => simp [word, hsep]
  | cons d r => simp [word, hsep, hne]

theorem word_escape (esc stop : List Char) (sep : Char) (rest : Text) (hsep : sep ∈ stop) (hb : '\\' ∉ stop) (hbe : '\\' ∉ esc) :
    ∀ s : Text, (∀ c ∈ s, c ∈ stop → c ∈ esc) → s.getLast? ≠ some '\\' → word esc stop (escape esc s ++ sep :: rest) = (s, sep :: rest)
  | [], _, _ => word_stop esc stop rest hsep hb
  | c :: s, hsub, hlast => by
    have hlast' : s.getLast? ≠ some '\\' := by
      cases s with
      | nil => simp
      | cons d s => simpa [List.getLast?_cons_cons] using hlast
    have ih := word_escape esc stop sep rest hsep hb hbe s (fun d hd => hsub d (by simp [hd])) hlast'
    rw [escape_cons]
    by_cases hc : c ∈ esc
    · rw [if_pos hc]
      show word esc stop ('\\' :: c :: (escape esc s ++ sep :: rest)) = _
      rw [word, if_pos ⟨rfl, hc⟩, ih]
    · rw [if_neg hc]
      have hcs : c ∉ stop := fun h => hc (hsub c (by simp) h)
      show word esc stop (c :: (escape esc s ++ sep :: rest)) = _
      by_cases hs : s = []
      · subst hs
        have hcb : c ≠ '\\' := by simpa using hlast
        have hn : ¬ (c = '\\' ∧ sep ∈ esc) := fun h => hcb h.1
        rw [escape_nil] at ih ⊢
        rw [List.nil_append] at ih ⊢
        rw [word, if_neg hn, if_neg hcs, ih]
      · obtain ⟨d, r, hd, hde⟩ := escape_head hbe s hs (sep :: rest)
        rw [hd] at ih ⊢
        have hn : ¬ (c = '\\' ∧ d ∈ esc) := fun h => hde h.2
        rw [word, if_neg hn, if_neg hcs, ih]

theorem quoted_escape (rest : Text) : ∀ v : Text, '\\' ∉ v → quoted (escape ['"'] v ++ '"' :: rest) = some (v, rest)
  | [], _ => by
    rw [escape_nil, List.nil_append]
    cases rest with
    | nil => rfl
    | cons d r => simp [quoted]
  | c :: v, h => by
    have hc : c ≠ '\\' := fun e => h (by simp [e])
    have ih := quoted_escape rest v (fun e => h (by simp [e]))
    rw [escape_cons]
    by_cases hq : c = '"'
    · subst hq
      rw [if_pos (by simp)]
      show quoted ('\\' :: '"' :: (escape ['"'] v ++ '"' :: rest)) = _
      rw [quoted, if_pos ⟨rfl, Or.inl rfl⟩, ih]; rfl
    · rw [if_neg (by simpa using hq)]
      show quoted (c :: (escape ['"'] v ++ '"' :: rest)) = _
      have : ∃ d r, escape ['"'] v ++ '"' :: rest = d :: r := by
        cases hx : escape ['"'] v with
        | nil => exact ⟨_, _, rfl⟩
        | cons d r => exact ⟨d, _, rfl⟩
      obtain ⟨d, r, hd⟩ := this
      rw [hd] at ih ⊢
      rw [quoted, if_neg (fun h => hc h.1), if_neg hq, ih]; rfl

theorem digits_all (n : Nat) : (Nat.toDigits 10 n).all Char.isDigit = true := by
  rw [List.all_eq_true]
  intro c hc
  exact Nat.isDigit_of_mem_toDigits (by decide) (by decide) hc

theorem readInt_decimal (n : Int) : readInt (decimal n) = some n := by
  cases n with
  | ofNat n =>
    show readInt (Nat.toDigits 10 n) = _
    have ha := digits_all n
    have hne : Nat.toDigits 10 n ≠ [] := Nat.toDigits_ne_nil
    have hv : Nat.ofDigitChars 10 (Nat.toDigits 10 n) 0 = n := Nat.ofDigitChars_ten_toDigits
    generalize Nat.toDigits 10 n = t at ha hne hv
    unfold readInt
    split
    · simp [Char.isDigit] at ha
    · rw [if_pos ⟨hne, ha⟩, hv]; rfl
  | negSucc n =>
    show readInt ('-' :: Nat.toDigits 10 (n + 1)) = _
    show (if Nat.toDigits 10 (n + 1) ≠ [] ∧ (Nat.toDigits 10 (n + 1)).all Char.isDigit then some (-(Nat.ofDigitChars 10 (Nat.toDigits 10 (n + 1)) 0 : Int)) else none) = _
    have hp : Nat.toDigits 10 (n + 1) ≠ [] ∧ (Nat.toDigits 10 (n + 1)).all Char.isDigit = true := ⟨Nat.toDigits_ne_nil, digits_all _⟩
    rw [if_pos hp, Nat.ofDigitChars_ten_toDigits]
    simp [Int.negSucc_eq]

theorem decimal_chars (n : Int) : ∀ c ∈ decimal n, c.isDigit = true ∨ c = '-' := by
  intro c hc
  cases n with
  | ofNat n => exact Or.inl (Nat.isDigit_of_mem_toDigits (by decide) (by decide) hc)
  | negSucc n =>
    rcases List.mem_cons.mp hc with h | h
    · exact Or.inr h
    · exact Or.inl (Nat.isDigit_of_mem_toDigits (by decide) (by decide) h)

theorem takeWhile_stop {p : Char → Bool} {w : Text} {x : Char} {r : Text} (hw : ∀ c ∈ w, p c = true) (hx : p x = false) :
    (w ++ x :: r).takeWhile p = w ∧ (w ++ x :: r).dropWhile p = x :: r := by
  induction w with
  | nil => simp [hx]
  | cons c w ih =>
    have := ih (fun d hd => hw d (by simp [hd]))
    simp [hw c (by simp), this.1, this.2]

def valText : Value → Text
  | .str v => '"' :: (escape ['"'] v ++ ['"'])
  | .flt s => s
  | .int n => decimal n ++ ['i']
  | .bool x => [if x then 't' else 'f']

theorem isDigit_ne {c d : Char} (h : c.isDigit = true) (hd : d.isDigit = false) : c ≠ d := by
  intro e; subst e; rw [h] at hd; cases hd

/-- The general rule of `readValue`. -/
theorem readValue_plain (w : Text) (x : Char) (r : Text) (hw : ∀ c ∈ w, c ≠ ',' ∧ c ≠ ' ' ∧ c ≠ '\n' ∧ c ≠ '"') (hx : x = ',' ∨ x = ' ' ∨ x = '\n') :
    readValue (w ++ x :: r) =
      if w = ['t'] then some (.bool true, x :: r)
      else if w = ['f'] then some (.bool false, x :: r)
      else if w.getLast? = some 'i' then (readInt w.dropLast).map (fun n => (.int n, x :: r))
      else if isFloat w then some (.flt w, x :: r)
      else none := by
  have hq : ∀ u, w ++ x :: r ≠ '"' :: u := by
    intro u h
    cases w with
    | nil =>
      injection h with h _
      rcases hx with hx | hx | hx <;> subst hx <;> cases h
    | cons c w =>
      injection h with h _
      exact (hw c (by simp)).2.2.2 h
  have hs := takeWhile_stop (p := fun c => decide (c ≠ ',' ∧ c ≠ ' ' ∧ c ≠ '\n')) (w := w) (x := x) (r := r)
    (fun c hc => by have := hw c hc; simp [this.1, this.2.1, this.2.2.1]) (by rcases hx with hx | hx | hx <;> subst hx <;> simp)
  generalize hg : w ++ x :: r = t at hq hs
  unfold readValue
  split
  · exact absurd rfl (hq _)
  · dsimp only
    rw [hs.1, hs.2]

theorem readValue_ok (v : Value) (hv : GoodValue v) (x : Char) (r : Text) (hx : x = ',' ∨ x = ' ' ∨ x = '\n') : readValue (valText v ++ x :: r) = some (v, x :: r) := by
  cases v with
  | str v =>
    show readValue ('"' :: (escape ['"'] v ++ ['"'] ++ x :: r)) = _
    rw [List.append_assoc]
    show (quoted (escape ['"'] v ++ '"' :: (x :: r))).map (fun w => (Value.str w.1, w.2)) = _
    rw [quoted_escape _ v hv.1]; rfl
  | flt s =>
    have hf : isFloat s = true := hv
    have hf' := hf
    simp only [isFloat, decide_eq_true_eq, List.all_eq_true] at hf'
    have hc : ∀ c ∈ s, c.isDigit = true ∨ c = '.' ∨ c = '-' := hf'.2
    rw [show valText (.flt s) = s from rfl, readValue_plain s x r ?_ hx]
    · have ht : s ≠ ['t'] := fun h => by have := hc 't' (by simp [h]); simp at this
      have hff : s ≠ ['f'] := fun h => by have := hc 'f' (by simp [h]); simp at this
      have hi : s.getLast? ≠ some 'i' := fun h => by have := hc 'i' (List.mem_of_getLast? h); simp at this
      rw [if_neg ht, if_neg hff, if_neg hi, if_pos hf]
    · intro c h
      rcases hc c h with h | h | h
      · exact ⟨isDigit_ne h rfl, isDigit_ne h rfl, isDigit_ne h rfl, isDigit_ne h rfl⟩
      · subst h; decide
      · subst h; decide
  | int n =>
    rw [show valText (.int n) = decimal n ++ ['i'] from rfl, readValue_plain _ x r ?_ hx]
    · have hl : (decimal n ++ ['i']).getLast? = some 'i' := by simp
      have ht : decimal n ++ ['i'] ≠ ['t'] := fun h => by rw [h] at hl; simp at hl
      have hff : decimal n ++ ['i'] ≠ ['f'] := fun h => by rw [h] at hl; simp at hl
      rw [if_neg ht, if_neg hff, if_pos hl, List.dropLast_concat, readInt_decimal]; rfl
    · intro c h
      rcases List.mem_append.mp h with h | h
      · rcases decimal_chars n c h with h | h
        · exact ⟨isDigit_ne h rfl, isDigit_ne h rfl, isDigit_ne h rfl, isDigit_ne h rfl⟩
        · subst h; decide
      · simp only [List.mem_singleton] at h; subst h; decide
  | bool b =>
    rw [show valText (.bool b) = [if b then 't' else 'f'] from rfl, readValue_plain _ x r ?_ hx]
    · cases b <;> simp
    · cases b <;> simp

/-! ### The text of a line -/

def tagsText (tags : List (Text × Text)) : Text := tags.flatMap (fun t => ',' :: (escape [',', '=', ' '] t.1 ++ '=' :: escape [',', '=', ' '] t.2))

def fieldText (f : Text × Value) : Text := escape [',', '=', ' '] f.1 ++ '=' :: valText f.2

def fieldsText : List (Text × Value) → Text
  | [] => []
  | f :: fs => fieldText f ++ fs.flatMap (fun f => ',' :: fieldText f)

def timeText (t : Option Int) : Text := (t.map (fun n => ' ' :: decimal n)).getD []

def lineText (l : Line) : Text := escape [',', ' '] l.meas ++ (tagsText l.tags ++ ' ' :: (fieldsText l.fields ++ (timeText l.time ++ ['\n'])))

theorem word_key {k : Text} (hk : GoodName k) (sep : Char) (rest : Text) (hsep : sep ∈ stops) :
    word [',', '=', ' '] stops (escape [',', '=', ' '] k ++ sep :: rest) = (k, sep :: rest) := by
  apply word_escape _ _ _ _ hsep (by decide) (by decide) k ?_ hk.2.1
  intro c hc hs
  have : c ≠ '\n' := fun e => hk.1 (e ▸ hc)
  simp only [stops, List.mem_cons, List.not_mem_nil, or_false] at hs ⊢
  tauto

theorem readTags_ok (rest : Text) : ∀ (tags : List (Text × Text)) (n : Nat), tags.length ≤ n → (∀ t ∈ tags, GoodName t.1 ∧ GoodName t.2) →
    readTags n (tagsText tags ++ ' ' :: rest) = some (tags, ' ' :: rest)
  | [], n, _, _ => by cases n <;> simp [tagsText, readTags]
  | t :: ts, 0, h, _ => by simp at h
  | (k, v) :: ts, n + 1, h, hg => by
    have ih := readTags_ok rest ts n (by simpa using h) (fun t ht => hg t (by simp [ht]))
    have hkv := hg (k, v) (by simp)
    have he : tagsText ((k, v) :: ts) ++ ' ' :: rest = ',' :: (escape [',', '=', ' '] k ++ '=' :: (escape [',', '=', ' '] v ++ (tagsText ts ++ ' ' :: rest))) := by
      simp [tagsText]
    rw [he]
    have hx : ∃ x u, tagsText ts ++ ' ' :: rest = x :: u ∧ x ∈ stops := by
      cases ts with
      | nil => exact ⟨' ', rest, rfl, by decide⟩
      | cons t ts => exact ⟨',', _, rfl, by decide⟩
    obtain ⟨x, u, hxu, hxs⟩ := hx
    have h1 := word_key hkv.1 '=' (escape [',', '=', ' '] v ++ (tagsText ts ++ ' ' :: rest)) (by decide)
    have h2 := word_key hkv.2 x u hxs
    rw [← hxu] at h2
    simp only [readTags, h1, h2, ih]; rfl

theorem readFields_ok (rest : Text) (x : Char) (hx : x = ' ' ∨ x = '\n') : ∀ (fs : List (Text × Value)) (f : Text × Value) (n : Nat), fs.length < n → (∀ g ∈ f :: fs, GoodName g.1 ∧ GoodValue g.2) →
    readFields n (fieldsText (f :: fs) ++ x :: rest) = some (f :: fs, x :: rest)
  | _, _, 0, h, _ => by omega
  | fs, (k, v), n + 1, h, hg => by
    have hkv := hg (k, v) (by simp)
    cases fs with
    | nil =>
      have he : fieldsText [(k, v)] ++ x :: rest = escape [',', '=', ' '] k ++ '=' :: (valText v ++ x :: rest) := by simp [fieldsText, fieldText]
      rw [he]
      have h1 := word_key hkv.1 '=' (valText v ++ x :: rest) (by decide)
      have h2 := readValue_ok v hkv.2 x rest (Or.inr hx)
      rcases hx with hx | hx <;> subst hx <;> simp only [readFields, h1, h2] <;> rfl
    | cons g fs =>
      have he : fieldsText ((k, v) :: g :: fs) ++ x :: rest = escape [',', '=', ' '] k ++ '=' :: (valText v ++ ',' :: (fieldsText (g :: fs) ++ x :: rest)) := by
        simp [fieldsText, fieldText]
      rw [he]
      have ih := readFields_ok rest x hx fs g n (by simp only [List.length_cons] at h; omega) (fun g' hg' => hg g' (by simp only [List.mem_cons] at hg' ⊢; tauto))
      have h1 := word_key hkv.1 '=' (valText v ++ ',' :: (fieldsText (g :: fs) ++ x :: rest)) (by decide)
      have h2 := readValue_ok v hkv.2 ',' (fieldsText (g :: fs) ++ x :: rest) (Or.inl rfl)
      simp only [readFields, h1, h2]
      show ((readFields n (fieldsText (g :: fs) ++ x :: rest)).map (fun w => ((k, v) :: w.1, w.2))) = _
      rw [ih]; rfl

theorem readTime_ok (t : Option Int) (rest : Text) : readTime (timeText t ++ '\n' :: rest) = some (t, rest) := by
  cases t with
  | none => rfl
  | some n =>
    show readTime (' ' :: (decimal n ++ '\n' :: rest)) = _
    have hs := takeWhile_stop (p := fun c => decide (c ≠ '\n')) (w := decimal n) (x := '\n') (r := rest)
      (fun c hc => by
        rcases decimal_chars n c hc with h | h
        · simpa using isDigit_ne h rfl
        · subst h; decide) (by simp)
    simp only [readTime, hs.1, hs.2, readInt_decimal]; rfl

theorem tags_length (tags : List (Text × Text)) : tags.length ≤ (tagsText tags).length := by
  induction tags with
  | nil => simp
  | cons t ts ih =>
    simp only [tagsText, List.flatMap_cons, List.length_append, List.length_cons] at ih ⊢; omega

theorem fields_length (fs : List (Text × Value)) : fs.length ≤ (fieldsText fs).length := by
  have : ∀ fs : List (Text × Value), fs.length ≤ (fs.flatMap (fun f => ',' :: fieldText f)).length := by
    intro fs
    induction fs with
    | nil => simp
    | cons f fs ih => simp only [List.flatMap_cons, List.length_append, List.length_cons] at ih ⊢; omega
  cases fs with
  | nil => simp
  | cons f fs =>
    have := this fs
    simp only [fieldsText, fieldText, List.length_append, List.length_cons] at this ⊢; omega

theorem readLine_ok (l : Line) (hl : Good l) (rest : Text) : readLine (lineText l ++ rest) = some (l, rest) := by
  obtain ⟨hm, ht, hf, hne⟩ := hl
  obtain ⟨m, tags, fields, time⟩ := l
  dsimp only at hm ht hf hne
  cases fields with
  | nil => exact absurd rfl hne
  | cons f fs =>
    have he : lineText ⟨m, tags, f :: fs, time⟩ ++ rest = escape [',', ' '] m ++ (tagsText tags ++ ' ' :: (fieldsText (f :: fs) ++ (timeText time ++ '\n' :: rest))) := by
      simp [lineText]
    have hx : ∃ x u, tagsText tags ++ ' ' :: (fieldsText (f :: fs) ++ (timeText time ++ '\n' :: rest)) = x :: u ∧ x ∈ [',', ' ', '\n'] := by
      cases tags with
      | nil => exact ⟨' ', _, rfl, by decide⟩
      | cons t ts => exact ⟨',', _, rfl, by decide⟩
    obtain ⟨x, u, hxu, hxs⟩ := hx
    have h1 : word [',', ' '] [',', ' ', '\n'] (escape [',', ' '] m ++ x :: u) = (m, x :: u) := by
      apply word_escape _ _ _ _ hxs (by decide) (by decide) m ?_ hm.2.1
      intro c hc hs
      have : c ≠ '\n' := fun e => hm.1 (e ▸ hc)
      simp only [List.mem_cons, List.not_mem_nil, or_false] at hs ⊢
      tauto
    rw [← hxu] at h1
    have htl := tags_length tags
    have h2 := readTags_ok (fieldsText (f :: fs) ++ (timeText time ++ '\n' :: rest)) tags
      (escape [',', ' '] m ++ (tagsText tags ++ ' ' :: (fieldsText (f :: fs) ++ (timeText time ++ '\n' :: rest)))).length (by simp only [List.length_append]; omega) ht
    have hy : ∃ y v, timeText time ++ '\n' :: rest = y :: v ∧ (y = ' ' ∨ y = '\n') := by
      cases time with
      | none => exact ⟨'\n', _, rfl, Or.inr rfl⟩
      | some n => exact ⟨' ', _, rfl, Or.inl rfl⟩
    obtain ⟨y, v, hyv, hy⟩ := hy
    have hfl := fields_length (f :: fs)
    have h3 := readFields_ok v y hy fs f ((fieldsText (f :: fs) ++ (timeText time ++ '\n' :: rest)).length + 1)
      (by simp only [List.length_append, List.length_cons] at hfl ⊢; omega) hf
    rw [← hyv] at h3
    have h4 := readTime_ok time rest
    rw [he]
    unfold readLine
    simp only [h1, h2, Option.bind_some, h3, h4]; rfl

theorem lineText_ne_nil (l : Line) : lineText l ≠ [] := by simp [lineText]

theorem readLines_ok : ∀ (ls : List Line) (n : Nat), ls.length ≤ n → (∀ l ∈ ls, Good l) → readLines n (ls.flatMap lineText) = some ls
  | [], n, _, _ => by cases n <;> rfl
  | l :: ls, 0, h, _ => by simp at h
  | l :: ls, n + 1, h, hg => by
    have ih := readLines_ok ls n (by simpa using h) (fun x hx => hg x (by simp [hx]))
    have h1 := readLine_ok l (hg l (by simp)) (ls.flatMap lineText)
    rw [List.flatMap_cons]
    have hne : lineText l ++ ls.flatMap lineText ≠ [] := by simp [lineText_ne_nil]
    generalize hu : lineText l ++ ls.flatMap lineText = u at h1 hne
    cases u with
    | nil => exact absurd rfl hne
    | cons c u => simp only [readLines, h1, Option.bind_some, ih]; rfl

theorem lines_length (ls : List Line) : ls.length ≤ (ls.flatMap lineText).length := by
  induction ls with
  | nil => simp
  | cons l ls ih =>
    have : 0 < (lineText l).length := List.length_pos_iff.mpr (lineText_ne_nil l)
    simp only [List.flatMap_cons, List.length_append, List.length_cons]; omega

theorem read_ok (ls : List Line) (hg : ∀ l ∈ ls, Good l) : read (ls.flatMap lineText) = some ls := readLines_ok ls _ (lines_length ls) hg

/-! ### The text that is written is the text of the lines -/

theorem field_text (last : Nat) (f : Text × Value) : keyText last (field f) ++ valueText last (field f) = (if last ≤ 2 then ' ' else ',') :: fieldText f := by
  obtain ⟨k, v⟩ := f
  cases v <;> simp [field, keyText, valueText, Item.type, Item.key, fieldText, valText]

theorem textOf_fields (time : Option Int) (r : List Item) (R : Text) (hr : ∀ last, 2 < last → textOf last r = '\n' :: R) : ∀ (fs : List (Text × Value)) (last : Nat), 2 < last →
    textOf last (fs.map field ++ time.toList.map .ts ++ r) = fs.flatMap (fun f => ',' :: fieldText f) ++ (timeText time ++ '\n' :: R)
  | [], last, h => by
    cases time with
    | none => simpa [timeText] using hr last h
    | some n => simpa [timeText, textOf, keyText, Item.type, valueText] using hr 7 (by omega)
  | f :: fs, last, h => by
    have ih := textOf_fields time r R hr fs (field f).type (by have := field_type f; omega)
    have hn : ¬ last ≤ 2 := by omega
    simp only [List.map_cons, List.cons_append, textOf, field_text, if_neg hn, List.flatMap_cons, ih]
    simp

theorem textOf_tags (time : Option Int) (r : List Item) (R : Text) (hr : ∀ last, 2 < last → textOf last r = '\n' :: R) (f : Text × Value) (fs : List (Text × Value)) :
    ∀ (tags : List (Text × Text)) (last : Nat), 1 ≤ last → last ≤ 2 →
      textOf last (tags.map (fun t => .tag t.1 t.2) ++ (f :: fs).map field ++ time.toList.map .ts ++ r) = tagsText tags ++ ' ' :: (fieldsText (f :: fs) ++ (timeText time ++ '\n' :: R))
  | [], last, h1, h2 => by
    have := textOf_fields time r R hr fs (field f).type (by have := field_type f; omega)
    simp only [List.map_nil, List.nil_append, List.map_cons, List.cons_append, textOf, field_text, if_pos h2, this]
    simp [tagsText, fieldsText]
  | (k, v) :: ts, last, h1, h2 => by
    have ih := textOf_tags time r R hr f fs ts 2 (by omega) (by omega)
    simp only [List.map_cons, List.cons_append, textOf, Item.type] at ih ⊢
    rw [ih]
    simp [keyText, valueText, Item.type, Item.key, tagsText]

theorem textOf_lines : ∀ (ls : List Line), (∀ l ∈ ls, l.fields ≠ []) → ∀ last, 2 < last → textOf last (ls.flatMap Line.items) = '\n' :: ls.flatMap lineText
  | [], _, _, _ => rfl
  | ⟨m, tags, fields, time⟩ :: ls, hf, last, h => by
    have ih := textOf_lines ls (fun x hx => hf x (by simp [hx]))
    have hne : fields ≠ [] := hf ⟨m, tags, fields, time⟩ (by simp)
    cases fields with
    | nil => exact absurd rfl hne
    | cons f fs =>
      have h1 := textOf_tags time (ls.flatMap Line.items) _ ih f fs tags 1 (by omega) (by omega)
      have h0 : last ≠ 0 := by omega
      have he : (Line.items ⟨m, tags, f :: fs, time⟩) ++ ls.flatMap Line.items = .meas m :: (tags.map (fun t => .tag t.1 t.2) ++ (f :: fs).map field ++ time.toList.map .ts ++ ls.flatMap Line.items) := by
        simp [Line.items]
      rw [List.flatMap_cons, he, textOf]
      show keyText last (.meas m) ++ valueText last (.meas m) ++ textOf 1 _ = _
      rw [h1]
      simp [keyText, valueText, Item.type, h0, lineText]

theorem textOf_all (l : Line) (ls : List Line) (hf : ∀ x ∈ l :: ls, x.fields ≠ []) : textOf 0 ((l :: ls).flatMap Line.items) = (l :: ls).flatMap lineText := by
  obtain ⟨m, tags, fields, time⟩ := l
  have ih := textOf_lines ls (fun x hx => hf x (by simp [hx]))
  have hne : fields ≠ [] := hf ⟨m, tags, fields, time⟩ (by simp)
  cases fields with
  | nil => exact absurd rfl hne
  | cons f fs =>
    have h1 := textOf_tags time (ls.flatMap Line.items) _ ih f fs tags 1 (by omega) (by omega)
    have he : (Line.items ⟨m, tags, f :: fs, time⟩) ++ ls.flatMap Line.items = .meas m :: (tags.map (fun t => .tag t.1 t.2) ++ (f :: fs).map field ++ time.toList.map .ts ++ ls.flatMap Line.items) := by
      simp [Line.items]
    rw [List.flatMap_cons, he, textOf]
    show keyText 0 (.meas m) ++ valueText 0 (.meas m) ++ textOf 1 _ = _
    rw [h1]
    simp [keyText, valueText, Item.type, lineText]

theorem valText_length (v : Value) : (valText v).length = v.size := by
  cases v with
  | str v => simp [valText, Value.size, escape_length]
  | flt s => rfl
  | int n => simp [valText, Value.size]
  | bool b => rfl

theorem fieldText_length (f : Text × Value) : (fieldText f).length + 1 = cost [',', '=', ' '] f.1 + f.2.size + 2 := by
  simp only [fieldText, List.length_append, List.length_cons, escape_length, valText_length]; omega

theorem lineText_length (l : Line) (hf : l.fields ≠ []) : (lineText l).length = l.size := by
  obtain ⟨m, tags, fields, time⟩ := l
  have ht : (tagsText tags).length = (tags.map (fun t => cost [',', '=', ' '] t.1 + cost [',', '=', ' '] t.2 + 2)).sum := by
    clear hf
    induction tags with
    | nil => rfl
    | cons t ts ih =>
      rw [List.map_cons, List.sum_cons, ← ih]
      simp only [tagsText, List.flatMap_cons, List.length_append, List.length_cons, escape_length]; omega
  have hs : ∀ fs : List (Text × Value), (fs.flatMap (fun f => ',' :: fieldText f)).length = (fs.map (fun f => cost [',', '=', ' '] f.1 + f.2.size + 2)).sum := by
    intro fs
    induction fs with
    | nil => rfl
    | cons f fs ih =>
      have := fieldText_length f
      simp only [List.flatMap_cons, List.map_cons, List.sum_cons, List.length_append, List.length_cons, ih]; omega
  have htime : (timeText time).length = (time.map (fun n => (decimal n).length + 1)).getD 0 := by cases time <;> rfl
  cases fields with
  | nil => exact absurd rfl hf
  | cons f fs =>
    have h1 := fieldText_length f
    have h2 := hs fs
    simp only [lineText, Line.size, fieldsText, List.length_append, List.length_cons, List.length_nil, List.map_cons, List.sum_cons, escape_length, ht, htime, h2]; omega

theorem cstring_ok : ∀ (t : Text), nul ∉ t → cstring true (t.map some) = some t
  | [], _ => rfl
  | c :: t, h => by
    have hc : c ≠ nul := fun e => h (by simp [e])
    have ih := cstring_ok t (fun e => h (by simp [e]))
    simp only [List.map_cons, cstring, if_neg hc, ih]; rfl

theorem nul_escape (e : List Char) (t : Text) (h : nul ∉ t) : nul ∉ escape e t := by
  induction t with
  | nil => simp [escape_nil]
  | cons c t ih =>
    have hc : nul ≠ c := fun e => h (by simp [e])
    have := ih (fun e => h (by simp [e]))
    rw [escape_cons]
    split
    · simp only [List.mem_append, List.mem_cons, List.not_mem_nil, or_false, not_or]
      exact ⟨⟨by decide, hc⟩, this⟩
    · simp only [List.mem_append, List.mem_cons, List.not_mem_nil, or_false, not_or]
      exact ⟨hc, this⟩

theorem nul_decimal (n : Int) : nul ∉ decimal n := by
  intro h
  rcases decimal_chars n _ h with h | h
  · exact absurd h (by decide)
  · exact absurd h (by decide)

theorem nul_valText {v : Value} (h : GoodValue v) : nul ∉ valText v := by
  cases v with
  | str v =>
    have := nul_escape ['"'] v h.2
    simp only [valText, List.mem_append, List.mem_cons, List.not_mem_nil, or_false, not_or]
    exact ⟨by decide, this, by decide⟩
  | flt s =>
    intro hn
    have hf : isFloat s = true := h
    simp only [isFloat, decide_eq_true_eq, List.all_eq_true] at hf
    have := hf.2 _ hn
    exact absurd this (by decide)
  | int n =>
    simp only [valText, List.mem_append, List.mem_cons, List.not_mem_nil, or_false, not_or]
    exact ⟨nul_decimal n, by decide⟩
  | bool b => cases b <;> decide

theorem nul_fieldText {f : Text × Value} (h : GoodName f.1 ∧ GoodValue f.2) : nul ∉ fieldText f := by
  simp only [fieldText, List.mem_append, List.mem_cons, not_or]
  exact ⟨nul_escape _ _ h.1.2.2, by decide, nul_valText h.2⟩

theorem nul_lineText {l : Line} (hl : Good l) : nul ∉ lineText l := by
  obtain ⟨hm, ht, hf, -⟩ := hl
  simp only [lineText, List.mem_append, List.mem_cons, List.not_mem_nil, or_false, not_or]
  refine ⟨nul_escape _ _ hm.2.2, ?_, by decide, ?_, ?_, by decide⟩
  · intro h
    rw [tagsText, List.mem_flatMap] at h
    obtain ⟨t, hm, h⟩ := h
    simp only [List.mem_append, List.mem_cons] at h
    rcases h with h | h | h | h
    · exact absurd h (by decide)
    · exact nul_escape _ _ (ht t hm).1.2.2 h
    · exact absurd h (by decide)
    · exact nul_escape _ _ (ht t hm).2.2.2 h
  · cases hfs : l.fields with
    | nil => simp [fieldsText]
    | cons f fs =>
      rw [hfs] at hf
      simp only [fieldsText, List.mem_append, not_or]
      refine ⟨nul_fieldText (hf f (by simp)), ?_⟩
      intro h
      rw [List.mem_flatMap] at h
      obtain ⟨g, hg, h⟩ := h
      rcases List.mem_cons.mp h with h | h
      · exact absurd h (by decide)
      · exact nul_fieldText (hf g (by simp [hg])) h
  · cases l.time with
    | none => simp [timeText]
    | some n =>
      show nul ∉ ' ' :: decimal n
      rw [List.mem_cons, not_or]
      exact ⟨by decide, nul_decimal n⟩

theorem all_length (ls : List Line) (hf : ∀ l ∈ ls, l.fields ≠ []) : (ls.flatMap lineText).length = (ls.map Line.size).sum := by
  induction ls with
  | nil => rfl
  | cons l ls ih =>
    rw [List.flatMap_cons, List.length_append, lineText_length l (hf l (by simp)), ih (fun x hx => hf x (by simp [hx]))]; rfl

end ReactorC.Influx
