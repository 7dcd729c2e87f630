import Verif.Influx.Spec
import Mathlib.Tactic.Common

/-! Lemmas: what is written while the buffer is large enough, which arguments are accepted, and reading what was written. -/

namespace ReactorC.Influx

def escape (e : List Char) (t : Text) : Text := t.flatMap (fun c => if c ∈ e then ['\\', c] else [c])

theorem escape_nil (e : List Char) : escape e [] = [] := rfl

theorem escape_cons (e : List Char) (c : Char) (t : Text) : escape e (c :: t) = (if c ∈ e then ['\\', c] else [c]) ++ escape e t := rfl

theorem escape_append (e : List Char) (s t : Text) : escape e (s ++ t) = escape e s ++ escape e t := by simp [escape]

theorem escape_none (e : List Char) (t : Text) (h : ∀ c ∈ t, c ∉ e) : escape e t = t := by
  induction t with
  | nil => rfl
  | cons c t ih =>
    rw [escape_cons, if_neg (h c (by simp)), ih (fun d hd => h d (by simp [hd]))]; rfl

theorem escape_length (e : List Char) (t : Text) : (escape e t).length = cost e t := by
  induction t with
  | nil => rfl
  | cons c t ih =>
    rw [escape_cons, List.length_append, ih]
    by_cases hc : c ∈ e
    · simp [cost, hc]; omega
    · simp [cost, hc]; omega

/-- A buffer in which `t` was written. -/
def mk (len : Nat) (t : Text) (e : Bool) : Buf := ⟨len, t.map some, e⟩

theorem append_ok {len : Nat} {t s : Text} {e : Bool} (h : t.length + s.length < len) : append (mk len t e) s = .ok (mk len (t ++ s) true) := by
  have h1 : ¬ (mk len t e).len < (mk len t e).data.length := by simp [mk]; omega
  have h2 : (mk len t e).data.length + s.length < (mk len t e).len := by simpa [mk] using h
  unfold append; dsimp only
  rw [if_neg h1, if_pos h2]; simp [mk]

theorem copy_ok {len : Nat} {t s : Text} {e : Bool} (h : t.length + s.length ≤ len) : copy (mk len t e) s = .ok (mk len (t ++ s) false) := by
  have h1 : ¬ (mk len t e).data.length + s.length > (mk len t e).len := by simp [mk]; omega
  unfold copy; dsimp only
  rw [if_neg h1, if_neg h1]; simp [mk]

theorem escapedAppend_ok (e : List Char) (len : Nat) : ∀ (n : Nat) (src t : Text) (x : Bool), src.length < n → t.length + (escape e src).length ≤ len →
    ∃ y, escapedAppend e n (mk len t x) src = .ok (mk len (t ++ escape e src) y)
  | 0, _, _, _, h, _ => absurd h (by omega)
  | n + 1, src, t, x, h, hl => by
    have hsplit : src.takeWhile (· ∉ e) ++ src.dropWhile (· ∉ e) = src := List.takeWhile_append_dropWhile
    have hseg : escape e (src.takeWhile (· ∉ e)) = src.takeWhile (· ∉ e) := by
      apply escape_none
      intro c hc
      have := List.all_takeWhile (p := fun c => decide (c ∉ e)) (l := src)
      rw [List.all_eq_true] at this
      simpa using this c hc
    generalize hs : src.takeWhile (· ∉ e) = seg at hsplit hseg
    have hlen : (escape e src).length = seg.length + (escape e (src.dropWhile (· ∉ e))).length := by
      conv_lhs => rw [← hsplit, escape_append, hseg, List.length_append]
    have hcopy : ∃ y, (if 0 < seg.length then copy (mk len t x) seg else .ok (mk len t x)) = .ok (mk len (t ++ seg) y) := by
      by_cases h0 : 0 < seg.length
      · rw [if_pos h0]; exact ⟨_, copy_ok (by omega)⟩
      · rw [if_neg h0]
        have : seg = [] := by simpa using h0
        subst this; simp
    obtain ⟨y, hy⟩ := hcopy
    unfold escapedAppend
    simp only [hs, hy]
    cases hd : src.dropWhile (· ∉ e) with
    | nil =>
      refine ⟨y, ?_⟩
      have : escape e src = seg := by conv_lhs => rw [← hsplit, escape_append, hseg, hd, escape_nil, List.append_nil]
      rw [this]; rfl
    | cons c rest =>
      have hc : c ∈ e := by
        have := List.head_dropWhile_not (fun c => decide (c ∉ e)) (l := src) (by rw [hd]; simp)
        simp only [hd, List.head_cons] at this
        simpa using this
      rw [hd] at hlen hsplit
      rw [escape_cons, if_pos hc] at hlen
      simp only [List.length_append, List.length_cons, List.length_nil] at hlen
      have h2 : copy (mk len (t ++ seg) y) ['\\', c] = .ok (mk len (t ++ seg ++ ['\\', c]) false) :=
        copy_ok (by simp only [List.length_append, List.length_cons, List.length_nil]; omega)
      have hlen2 : src.length = seg.length + (rest.length + 1) := by conv_lhs => rw [← hsplit]; simp
      obtain ⟨z, hz⟩ := escapedAppend_ok e len n rest (t ++ seg ++ ['\\', c]) false (by omega)
        (by simp only [List.length_append, List.length_cons, List.length_nil]; omega)
      refine ⟨z, ?_⟩
      have he : escape e src = seg ++ (['\\', c] ++ escape e rest) := by
        conv_lhs => rw [← hsplit, escape_append, hseg, escape_cons, if_pos hc]
      rw [he]
      show (do let b ← copy (mk len (t ++ seg) y) ['\\', c]; escapedAppend e n b rest) = _
      rw [h2]
      show escapedAppend e n _ rest = _
      rw [hz]; simp

theorem escaped_ok {e : List Char} {len : Nat} {src t : Text} {x : Bool} (h : t.length + (escape e src).length ≤ len) :
    ∃ y, escaped e (mk len t x) src = .ok (mk len (t ++ escape e src) y) := escapedAppend_ok e len _ src t x (by omega) h

/-! ### What is written for each argument -/

def keyText (last : Nat) (i : Item) : Text :=
  if 2 ≤ i.type ∧ i.type ≤ 6 then (if last ≤ 2 ∧ i.type > 2 then ' ' else ',') :: (escape [',', '=', ' '] i.key ++ ['=']) else []

def valueText (last : Nat) : Item → Text
  | .meas m => (if last ≠ 0 then ['\n'] else []) ++ escape [',', ' '] m
  | .tag _ v => escape [',', '=', ' '] v
  | .str _ v => '"' :: (escape ['"'] v ++ ['"'])
  | .flt _ s => s
  | .int _ n => decimal n ++ ['i']
  | .bool _ x => [if x then 't' else 'f']
  | .ts n => ' ' :: decimal n
  | .bad => []

def textOf (last : Nat) : List Item → Text
  | [] => ['\n']
  | i :: is => keyText last i ++ valueText last i ++ textOf i.type is

def allowed (last : Nat) : Item → Bool
  | .meas _ => last = 0 ∨ 2 < last
  | .tag _ _ => 1 ≤ last ∧ last ≤ 2
  | .ts _ => 3 ≤ last ∧ last ≤ 6
  | .bad => false
  | _ => 1 ≤ last ∧ last ≤ 6

def seqOk (last : Nat) : List Item → Bool
  | [] => 2 < last
  | i :: is => allowed last i && seqOk i.type is

theorem key_ok {len last : Nat} {t : Text} {x : Bool} {i : Item} (ha : allowed last i = true) (h : t.length + (keyText last i).length < len) :
    ∃ y, key (mk len t x) last i = .ok (mk len (t ++ keyText last i) y) := by
  by_cases hk : 2 ≤ i.type ∧ i.type ≤ 6
  · have hr : ¬ (last < 1 ∨ last > (if i.type = 2 then 2 else 6)) := by
      cases i <;> simp [allowed, Item.type] at ha hk ⊢ <;> omega
    have hkt : keyText last i = (if last ≤ 2 ∧ i.type > 2 then ' ' else ',') :: (escape [',', '=', ' '] i.key ++ ['=']) := by rw [keyText, if_pos hk]
    unfold key
    rw [if_pos hk, if_neg hr]
    rw [hkt] at h ⊢
    generalize (if last ≤ 2 ∧ i.type > 2 then ' ' else ',') = c at h ⊢
    simp only [List.length_cons, List.length_append, List.length_nil] at h
    have h1 : append (mk len t x) [c] = .ok (mk len (t ++ [c]) true) := append_ok (by simp only [List.length_cons, List.length_nil]; omega)
    obtain ⟨y, h2⟩ := escaped_ok (e := [',', '=', ' ']) (src := i.key) (t := t ++ [c]) (len := len) (x := true) (by simp only [List.length_append, List.length_cons, List.length_nil]; omega)
    have h3 : append (mk len (t ++ [c] ++ escape [',', '=', ' '] i.key) y) ['='] = .ok (mk len (t ++ [c] ++ escape [',', '=', ' '] i.key ++ ['=']) true) :=
      append_ok (by simp only [List.length_append, List.length_cons, List.length_nil]; omega)
    refine ⟨true, ?_⟩
    rw [h1]
    show (do let b ← escaped [',', '=', ' '] (mk len (t ++ [c]) true) i.key; append b ['=']) = _
    rw [h2]
    show append _ ['='] = _
    rw [h3]; simp
  · refine ⟨x, ?_⟩
    unfold key keyText
    rw [if_neg hk, if_neg hk]; simp

theorem value_ok {len last : Nat} {t : Text} {x : Bool} {i : Item} (ha : allowed last i = true) (h : t.length + (valueText last i).length < len) :
    ∃ y, value (mk len t x) last i = .ok (mk len (t ++ valueText last i) y) := by
  cases i with
  | meas m =>
    have hr : ¬ (last ≠ 0 ∧ last ≤ 2) := by simp [allowed] at ha; omega
    simp only [valueText, List.length_append] at h
    have h1 : ∃ y, (if last ≠ 0 then append (mk len t x) ['\n'] else .ok (mk len t x)) = .ok (mk len (t ++ (if last ≠ 0 then ['\n'] else [])) y) := by
      by_cases h0 : last ≠ 0
      · rw [if_pos h0] at h
        rw [if_pos h0, if_pos h0]; exact ⟨_, append_ok (by simp only [List.length_cons, List.length_nil] at h ⊢; omega)⟩
      · rw [if_neg h0, if_neg h0]; exact ⟨x, by simp⟩
    obtain ⟨y, h1⟩ := h1
    obtain ⟨z, h2⟩ := escaped_ok (e := [',', ' ']) (src := m) (t := t ++ (if last ≠ 0 then ['\n'] else [])) (len := len) (x := y) (by simp only [List.length_append]; omega)
    refine ⟨z, ?_⟩
    show (do let b ← (if last ≠ 0 then append (mk len t x) ['\n'] else .ok (mk len t x)); if last ≠ 0 ∧ last ≤ 2 then .error .refused else escaped [',', ' '] b m) = _
    rw [h1]
    show (if last ≠ 0 ∧ last ≤ 2 then _ else escaped [',', ' '] _ m) = _
    rw [if_neg hr, h2]; simp [valueText]
  | tag k v => exact escaped_ok (by simp only [valueText] at h; omega)
  | str k v =>
    simp only [valueText, List.length_append, List.length_cons, List.length_nil] at h
    have h1 : append (mk len t x) ['"'] = .ok (mk len (t ++ ['"']) true) := append_ok (by simp only [List.length_cons, List.length_nil]; omega)
    obtain ⟨y, h2⟩ := escaped_ok (e := ['"']) (src := v) (t := t ++ ['"']) (len := len) (x := true) (by simp only [List.length_append, List.length_cons, List.length_nil]; omega)
    have h3 : append (mk len (t ++ ['"'] ++ escape ['"'] v) y) ['"'] = .ok (mk len (t ++ ['"'] ++ escape ['"'] v ++ ['"']) true) :=
      append_ok (by simp only [List.length_append, List.length_cons, List.length_nil]; omega)
    refine ⟨true, ?_⟩
    show (do let b ← append (mk len t x) ['"']; let b ← escaped ['"'] b v; append b ['"']) = _
    rw [h1]
    show (do let b ← escaped ['"'] (mk len (t ++ ['"']) true) v; append b ['"']) = _
    rw [h2]
    show append _ ['"'] = _
    rw [h3]; simp [valueText]
  | flt k s => exact ⟨true, append_ok h⟩
  | int k n => exact ⟨true, append_ok h⟩
  | bool k b => exact ⟨true, append_ok h⟩
  | ts n =>
    have hr : ¬ (last < 3 ∨ last > 6) := by simp [allowed] at ha; omega
    refine ⟨true, ?_⟩
    show (if last < 3 ∨ last > 6 then _ else append (mk len t x) (' ' :: decimal n)) = _
    rw [if_neg hr]; exact append_ok h
  | bad => cases ha

theorem formatLoop_ok {len : Nat} : ∀ (is : List Item) (last : Nat) (t : Text) (x : Bool), seqOk last is = true → t.length + (textOf last is).length < len →
    formatLoop (mk len t x) last is = .ok (mk len (t ++ textOf last is) true)
  | [], last, t, x, hs, h => by
    have hr : ¬ last ≤ 2 := by simp [seqOk] at hs; omega
    have h1 : append (mk len t x) ['\n'] = .ok (mk len (t ++ ['\n']) true) := append_ok h
    show (do let b ← append (mk len t x) ['\n']; if last ≤ 2 then .error .refused else .ok b) = _
    rw [h1]
    show (if last ≤ 2 then _ else _) = _
    rw [if_neg hr]; rfl
  | i :: is, last, t, x, hs, h => by
    rw [seqOk, Bool.and_eq_true] at hs
    simp only [textOf, List.length_append] at h
    obtain ⟨y, h1⟩ := key_ok (len := len) (t := t) (x := x) hs.1 (by omega)
    obtain ⟨z, h2⟩ := value_ok (len := len) (t := t ++ keyText last i) (x := y) hs.1 (by simp only [List.length_append]; omega)
    show (do let b ← key (mk len t x) last i; let b ← value b last i; formatLoop b i.type is) = _
    rw [h1]
    show (do let b ← value (mk len (t ++ keyText last i) y) last i; formatLoop b i.type is) = _
    rw [h2]
    show formatLoop _ i.type is = _
    rw [formatLoop_ok is i.type _ z hs.2 (by simp only [List.length_append]; omega)]
    simp [textOf]

/-! ### Which arguments are accepted -/

theorem append_not_refused (b : Buf) (t : Text) : append b t ≠ .error .refused := by
  unfold append; dsimp only
  repeat' split
  all_goals simp

theorem copy_not_refused (b : Buf) (t : Text) : copy b t ≠ .error .refused := by
  unfold copy; dsimp only
  repeat' split
  all_goals simp

theorem bind_not_refused {x : Except Wrong Buf} {f : Buf → Except Wrong Buf} (hx : x ≠ .error .refused) (hf : ∀ b, f b ≠ .error .refused) : (x >>= f) ≠ .error .refused := by
  cases x with
  | error e => exact hx
  | ok b => exact hf b

theorem escapedAppend_not_refused (e : List Char) : ∀ (n : Nat) (b : Buf) (src : Text), escapedAppend e n b src ≠ .error .refused
  | 0, b, src => by simp [escapedAppend]
  | n + 1, b, src => by
    unfold escapedAppend
    apply bind_not_refused
    · split
      · exact copy_not_refused _ _
      · simp
    · intro b
      split
      · simp
      · exact bind_not_refused (copy_not_refused _ _) (fun b => escapedAppend_not_refused e n b _)

theorem key_not_refused {b : Buf} {last : Nat} {i : Item} (ha : allowed last i = true) : key b last i ≠ .error .refused := by
  unfold key
  split
  next hk =>
    have hr : ¬ (last < 1 ∨ last > (if i.type = 2 then 2 else 6)) := by
      cases i <;> simp [allowed, Item.type] at ha hk ⊢ <;> omega
    rw [if_neg hr]
    exact bind_not_refused (append_not_refused _ _) fun b => bind_not_refused (escapedAppend_not_refused _ _ _ _) fun b => append_not_refused _ _
  next => simp

theorem value_not_refused {b : Buf} {last : Nat} {i : Item} (ha : allowed last i = true) : value b last i ≠ .error .refused := by
  cases i with
  | meas m =>
    have hr : ¬ (last ≠ 0 ∧ last ≤ 2) := by simp [allowed] at ha; omega
    show (do let b ← (if last ≠ 0 then append b ['\n'] else .ok b); if last ≠ 0 ∧ last ≤ 2 then .error .refused else escaped [',', ' '] b m) ≠ _
    apply bind_not_refused
    · split
      · exact append_not_refused _ _
      · simp
    · intro b; rw [if_neg hr]; exact escapedAppend_not_refused _ _ _ _
  | tag k v => exact escapedAppend_not_refused _ _ _ _
  | str k v => exact bind_not_refused (append_not_refused _ _) fun b => bind_not_refused (escapedAppend_not_refused _ _ _ _) fun b => append_not_refused _ _
  | flt k s => exact append_not_refused _ _
  | int k n => exact append_not_refused _ _
  | bool k b => exact append_not_refused _ _
  | ts n =>
    have hr : ¬ (last < 3 ∨ last > 6) := by simp [allowed] at ha; omega
    show (if last < 3 ∨ last > 6 then _ else append b (' ' :: decimal n)) ≠ _
    rw [if_neg hr]; exact append_not_refused _ _
  | bad => cases ha

theorem formatLoop_not_refused : ∀ (is : List Item) (last : Nat) (b : Buf), seqOk last is = true → formatLoop b last is ≠ .error .refused
  | [], last, b, hs => by
    have hr : ¬ last ≤ 2 := by simp [seqOk] at hs; omega
    show (do let b ← append b ['\n']; if last ≤ 2 then .error .refused else .ok b) ≠ _
    apply bind_not_refused (append_not_refused _ _)
    intro b; rw [if_neg hr]; simp
  | i :: is, last, b, hs => by
    rw [seqOk, Bool.and_eq_true] at hs
    exact bind_not_refused (key_not_refused hs.1) fun b => bind_not_refused (value_not_refused hs.1) fun b => formatLoop_not_refused is _ b hs.2

theorem bind_ok {x : Except Wrong Buf} {f : Buf → Except Wrong Buf} {r : Buf} (h : (x >>= f) = .ok r) : ∃ b, x = .ok b ∧ f b = .ok r := by
  cases x with
  | error e => cases h
  | ok b => exact ⟨b, rfl, h⟩

theorem allowed_of_ok {b c d : Buf} {last : Nat} {i : Item} (hk : key b last i = .ok c) (hv : value c last i = .ok d) : allowed last i = true := by
  have hkey : 2 ≤ i.type ∧ i.type ≤ 6 → ¬ (last < 1 ∨ last > (if i.type = 2 then 2 else 6)) := by
    intro h hr
    unfold key at hk
    rw [if_pos h, if_pos hr] at hk; cases hk
  cases i with
  | meas m =>
    by_contra ha
    have hr : last ≠ 0 ∧ last ≤ 2 := by simp [allowed] at ha; omega
    obtain ⟨x, -, h⟩ := bind_ok (x := if last ≠ 0 then append c ['\n'] else .ok c) (f := fun b => if last ≠ 0 ∧ last ≤ 2 then .error .refused else escaped [',', ' '] b m) hv
    rw [if_pos hr] at h; cases h
  | ts n =>
    by_contra ha
    have hr : last < 3 ∨ last > 6 := by simp [allowed] at ha; omega
    have h : (if last < 3 ∨ last > 6 then (.error .refused : Except Wrong Buf) else append c (' ' :: decimal n)) = .ok d := hv
    rw [if_pos hr] at h; cases h
  | bad => cases hv
  | tag k v => simp [Item.type] at hkey; simp [allowed]; omega
  | str k v => simp [Item.type] at hkey; simp [allowed]; omega
  | flt k v => simp [Item.type] at hkey; simp [allowed]; omega
  | int k v => simp [Item.type] at hkey; simp [allowed]; omega
  | bool k v => simp [Item.type] at hkey; simp [allowed]; omega

theorem seqOk_of_ok : ∀ (is : List Item) (last : Nat) (b r : Buf), formatLoop b last is = .ok r → seqOk last is = true
  | [], last, b, r, h => by
    obtain ⟨x, -, h⟩ := bind_ok (x := append b ['\n']) (f := fun b => if last ≤ 2 then .error .refused else .ok b) h
    by_cases hl : last ≤ 2
    · rw [if_pos hl] at h; cases h
    · simp [seqOk]; omega
  | i :: is, last, b, r, h => by
    obtain ⟨x, hk, h⟩ := bind_ok (x := key b last i) (f := fun b => do let b ← value b last i; formatLoop b i.type is) h
    obtain ⟨y, hv, h⟩ := bind_ok (x := value x last i) (f := fun b => formatLoop b i.type is) h
    rw [seqOk, Bool.and_eq_true]
    exact ⟨allowed_of_ok hk hv, seqOk_of_ok is _ y r h⟩

/-- Lines, with fields. -/
def Lines (is : List Item) : Prop := ∃ ls : List Line, (∀ l ∈ ls, l.fields ≠ []) ∧ is = ls.flatMap Line.items

theorem lines_of_seqOk : ∀ (is : List Item) (last : Nat), seqOk last is = true →
    (last = 0 → is ≠ [] ∧ Lines is) ∧
    (last = 1 ∨ last = 2 → ∃ (tags : List (Text × Text)) (fields : List (Text × Value)) (time : Option Int) (r : List Item), fields ≠ [] ∧ Lines r ∧
      is = tags.map (fun t => .tag t.1 t.2) ++ fields.map field ++ time.toList.map .ts ++ r) ∧
    (3 ≤ last ∧ last ≤ 6 → ∃ (fields : List (Text × Value)) (time : Option Int) (r : List Item), Lines r ∧ is = fields.map field ++ time.toList.map .ts ++ r) ∧
    (7 ≤ last → Lines is)
  | [], last, hs => by
    have : 2 < last := by simpa [seqOk] using hs
    refine ⟨by omega, by omega, fun _ => ⟨[], none, [], ⟨[], by simp, rfl⟩, rfl⟩, fun _ => ⟨[], by simp, rfl⟩⟩
  | i :: is, last, hs => by
    rw [seqOk, Bool.and_eq_true] at hs
    obtain ⟨ha, hs⟩ := hs
    obtain ⟨i0, i1, i2, i3⟩ := lines_of_seqOk is i.type hs
    have fieldCase : ∀ (k : Text) (v : Value), i = field (k, v) → 3 ≤ i.type ∧ i.type ≤ 6 → 1 ≤ last ∧ last ≤ 6 →
        (last = 0 → i :: is ≠ [] ∧ Lines (i :: is)) ∧
        (last = 1 ∨ last = 2 → ∃ (tags : List (Text × Text)) (fields : List (Text × Value)) (time : Option Int) (r : List Item), fields ≠ [] ∧ Lines r ∧
          i :: is = tags.map (fun t => .tag t.1 t.2) ++ fields.map field ++ time.toList.map .ts ++ r) ∧
        (3 ≤ last ∧ last ≤ 6 → ∃ (fields : List (Text × Value)) (time : Option Int) (r : List Item), Lines r ∧ i :: is = fields.map field ++ time.toList.map .ts ++ r) ∧
        (7 ≤ last → Lines (i :: is)) := by
      intro k v hi ht hl
      obtain ⟨fields, time, r, hr, he⟩ := i2 ht
      refine ⟨by omega, fun _ => ⟨[], (k, v) :: fields, time, r, by simp, hr, by rw [he, hi]; simp⟩, fun _ => ⟨(k, v) :: fields, time, r, hr, by rw [he, hi]; simp⟩, by omega⟩
    cases i with
    | meas m =>
      have hl : last = 0 ∨ 2 < last := by simpa [allowed] using ha
      obtain ⟨tags, fields, time, r, hf, ⟨ls, hls, hr⟩, he⟩ := i1 (Or.inl rfl)
      have hL : Lines (.meas m :: is) := by
        refine ⟨⟨m, tags, fields, time⟩ :: ls, ?_, ?_⟩
        · intro l h
          rcases List.mem_cons.mp h with h | h
          · subst h; exact hf
          · exact hls l h
        · rw [he, hr]; simp [Line.items]
      exact ⟨fun _ => ⟨by simp, hL⟩, by omega, fun _ => ⟨[], none, _, hL, rfl⟩, fun _ => hL⟩
    | tag k v =>
      have hl : 1 ≤ last ∧ last ≤ 2 := by simpa [allowed] using ha
      obtain ⟨tags, fields, time, r, hf, hr, he⟩ := i1 (Or.inr rfl)
      exact ⟨by omega, fun _ => ⟨(k, v) :: tags, fields, time, r, hf, hr, by rw [he]; simp⟩, by omega, by omega⟩
    | ts n =>
      have hl : 3 ≤ last ∧ last ≤ 6 := by simpa [allowed] using ha
      exact ⟨by omega, by omega, fun _ => ⟨[], some n, is, i3 (by simp [Item.type]), rfl⟩, by omega⟩
    | bad => cases ha
    | str k v => exact fieldCase k (.str v) rfl (by simp [Item.type]) (by simpa [allowed] using ha)
    | flt k v => exact fieldCase k (.flt v) rfl (by simp [Item.type]) (by simpa [allowed] using ha)
    | int k v => exact fieldCase k (.int v) rfl (by simp [Item.type]) (by simpa [allowed] using ha)
    | bool k v => exact fieldCase k (.bool v) rfl (by simp [Item.type]) (by simpa [allowed] using ha)

theorem field_type (f : Text × Value) : 3 ≤ (field f).type ∧ (field f).type ≤ 6 := by
  obtain ⟨k, v⟩ := f
  cases v <;> simp [field, Item.type]

theorem allowed_field {last : Nat} (f : Text × Value) (h : 1 ≤ last ∧ last ≤ 6) : allowed last (field f) = true := by
  obtain ⟨k, v⟩ := f
  cases v <;> simpa [field, allowed] using h

theorem seqOk_after_fields {ls : List Item} (hls : ∀ last, 2 < last → seqOk last ls = true) (time : Option Int) : ∀ (fields : List (Text × Value)) (last : Nat), 3 ≤ last → last ≤ 6 →
    seqOk last (fields.map field ++ time.toList.map .ts ++ ls) = true
  | [], last, h1, h2 => by
    cases time with
    | none => simpa using hls last (by omega)
    | some n => simpa [seqOk, allowed, Item.type, h1, h2] using hls 7 (by omega)
  | f :: fs, last, h1, h2 => by
    have := seqOk_after_fields hls time fs _ (field_type f).1 (field_type f).2
    simp only [List.map_cons, List.cons_append, seqOk, Bool.and_eq_true]
    exact ⟨allowed_field f ⟨by omega, h2⟩, this⟩

theorem seqOk_after_tags {ls : List Item} (hls : ∀ last, 2 < last → seqOk last ls = true) (time : Option Int) {fields : List (Text × Value)} (hf : fields ≠ []) :
    ∀ (tags : List (Text × Text)) (last : Nat), 1 ≤ last → last ≤ 2 → seqOk last (tags.map (fun t => .tag t.1 t.2) ++ fields.map field ++ time.toList.map .ts ++ ls) = true
  | [], last, h1, h2 => by
    cases fields with
    | nil => exact absurd rfl hf
    | cons f fs =>
      have := seqOk_after_fields hls time fs _ (field_type f).1 (field_type f).2
      simp only [List.map_nil, List.nil_append, List.map_cons, List.cons_append, seqOk, Bool.and_eq_true]
      exact ⟨allowed_field f ⟨by omega, by omega⟩, this⟩
  | g :: gs, last, h1, h2 => by
    have := seqOk_after_tags hls time hf gs 2 (by omega) (by omega)
    simp only [List.map_cons, List.cons_append, seqOk, Bool.and_eq_true]
    exact ⟨by simp [allowed]; omega, this⟩

theorem seqOk_lines : ∀ (ls : List Line), (∀ l ∈ ls, l.fields ≠ []) → ∀ last, (last = 0 ∧ ls ≠ [] ∨ 2 < last) → seqOk last (ls.flatMap Line.items) = true
  | [], _, last, h => by simpa [seqOk] using h
  | l :: ls, hl, last, h => by
    have ih := seqOk_lines ls (fun x hx => hl x (by simp [hx]))
    have := seqOk_after_tags (fun last h => ih last (Or.inr h)) l.time (hl l (by simp)) l.tags 1 (by omega) (by omega)
    simp only [List.flatMap_cons, Line.items, List.cons_append, seqOk, Bool.and_eq_true]
    refine ⟨by simp [allowed]; omega, ?_⟩
    simpa [Item.type] using this

end ReactorC.Influx
