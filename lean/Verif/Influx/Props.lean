import Verif.Influx.Read
import Mathlib.Tactic.IntervalCases

/-!
# C93: traces are uploaded as they are

Lines that are shorter than 256 characters are written so that InfluxDB reads what was meant, only lines are accepted, and the tool uploads the local records in their order.  Longer lines, backslashes and large numbers of
reactions are not handled; there are theorems for this.
-/

namespace ReactorC.Influx

theorem formatLine_ok {ls : List Line} (hne : ls ≠ []) (hf : ∀ l ∈ ls, l.fields ≠ []) (hs : (ls.map Line.size).sum < 256) :
    formatLine (ls.flatMap Line.items) = .ok (mk 256 (ls.flatMap lineText) true) := by
  cases ls with
  | nil => exact absurd rfl hne
  | cons l ls =>
    have ht := textOf_all l ls hf
    have hl := all_length (l :: ls) hf
    have := formatLoop_ok (len := 256) ((l :: ls).flatMap Line.items) 0 [] false (seqOk_lines _ hf 0 (Or.inl ⟨rfl, hne⟩)) (by rw [ht, hl]; simpa using hs)
    rw [ht] at this
    exact this

/-- Lines that need less than 256 characters together are written completely, and what is written says what was meant. -/
theorem C93_lines_are_written_partial (ls : List Line) (hne : ls ≠ []) (hg : ∀ l ∈ ls, Good l) (hs : (ls.map Line.size).sum < 256) :
    ∃ b text, formatLine (ls.flatMap Line.items) = .ok b ∧ cstring b.ended b.data = some text ∧ text.length = b.data.length ∧ read text = some ls := by
  have hf : ∀ l ∈ ls, l.fields ≠ [] := fun l hl => (hg l hl).2.2.2
  refine ⟨_, ls.flatMap lineText, formatLine_ok hne hf hs, cstring_ok _ ?_, by simp [mk], read_ok ls hg⟩
  intro h
  obtain ⟨l, hl, h⟩ := List.mem_flatMap.mp h
  exact nul_lineText (hg l hl) h

/-- Only lines with fields are accepted: arguments in another order are refused, and lines are not. -/
theorem C93_only_lines_are_accepted (is : List Item) :
    ((∃ b, formatLine is = .ok b) → ∃ ls : List Line, ls ≠ [] ∧ (∀ l ∈ ls, l.fields ≠ []) ∧ is = ls.flatMap Line.items) ∧
    ((∃ ls : List Line, ls ≠ [] ∧ (∀ l ∈ ls, l.fields ≠ []) ∧ is = ls.flatMap Line.items) → formatLine is ≠ .error .refused) := by
  constructor
  · rintro ⟨b, hb⟩
    obtain ⟨hne, ls, hf, he⟩ := (lines_of_seqOk is 0 (seqOk_of_ok is 0 _ b hb)).1 rfl
    refine ⟨ls, ?_, hf, he⟩
    intro h; subst h; exact hne he
  · rintro ⟨ls, hne, hf, rfl⟩
    exact formatLoop_not_refused _ _ _ (seqOk_lines ls hf 0 (Or.inl ⟨rfl, hne⟩))

/-! ### Long lines -/

theorem append_prefix {b c : Buf} {t : Text} (h : append b t = .ok c) : b.data <+: c.data := by
  unfold append at h; dsimp only at h
  split at h
  · cases h
  · split at h <;> (injection h with h; subst h; exact List.prefix_append _ _)

theorem copy_prefix {b c : Buf} {t : Text} (h : copy b t = .ok c) : b.data <+: c.data := by
  unfold copy at h; dsimp only at h
  generalize (if b.data.length + t.length > b.len then 2 * b.len else b.len) = len at h
  split at h
  · cases h
  · injection h with h; subst h; exact List.prefix_append _ _

theorem escapedAppend_prefix (e : List Char) : ∀ (n : Nat) (b c : Buf) (src : Text), escapedAppend e n b src = .ok c → b.data <+: c.data
  | 0, b, c, src, h => by injection h with h; subst h; exact List.prefix_refl _
  | n + 1, b, c, src, h => by
    unfold escapedAppend at h
    obtain ⟨x, hx, h⟩ := bind_ok h
    have h1 : b.data <+: x.data := by
      split at hx
      · exact copy_prefix hx
      · injection hx with hx; subst hx; exact List.prefix_refl _
    split at h
    · injection h with h; subst h; exact h1
    · obtain ⟨y, hy, h⟩ := bind_ok h
      exact h1.trans ((copy_prefix hy).trans (escapedAppend_prefix e n _ _ _ h))

theorem key_prefix {b c : Buf} {last : Nat} {i : Item} (h : key b last i = .ok c) : b.data <+: c.data := by
  unfold key at h
  generalize (if i.type = 2 then 2 else 6) = top at h
  split at h
  · split at h
    · cases h
    · obtain ⟨x, hx, h⟩ := bind_ok h
      obtain ⟨y, hy, h⟩ := bind_ok h
      exact (append_prefix hx).trans ((escapedAppend_prefix _ _ _ _ _ hy).trans (append_prefix h))
  · injection h with h; subst h; exact List.prefix_refl _

theorem value_prefix {b c : Buf} {last : Nat} {i : Item} (h : value b last i = .ok c) : b.data <+: c.data := by
  cases i with
  | meas m =>
    obtain ⟨x, hx, h⟩ := bind_ok (x := if last ≠ 0 then append b ['\n'] else .ok b) (f := fun b => if last ≠ 0 ∧ last ≤ 2 then .error .refused else escaped [',', ' '] b m) h
    have h1 : b.data <+: x.data := by
      split at hx
      · exact append_prefix hx
      · injection hx with hx; subst hx; exact List.prefix_refl _
    split at h
    · cases h
    · exact h1.trans (escapedAppend_prefix _ _ _ _ _ h)
  | tag k v => exact escapedAppend_prefix _ _ _ _ _ h
  | str k v =>
    obtain ⟨x, hx, h⟩ := bind_ok (x := append b ['"']) (f := fun b => do let b ← escaped ['"'] b v; append b ['"']) h
    obtain ⟨y, hy, h⟩ := bind_ok (x := escaped ['"'] x v) (f := fun b => append b ['"']) h
    exact (append_prefix hx).trans ((escapedAppend_prefix _ _ _ _ _ hy).trans (append_prefix h))
  | flt k s => exact append_prefix h
  | int k n => exact append_prefix h
  | bool k x => exact append_prefix h
  | ts n =>
    have h : (if last < 3 ∨ last > 6 then (.error .refused : Except Wrong Buf) else append b (' ' :: decimal n)) = .ok c := h
    split at h
    · cases h
    · exact append_prefix h
  | bad => cases h

theorem formatLoop_prefix : ∀ (is : List Item) (last : Nat) (b c : Buf), formatLoop b last is = .ok c → b.data <+: c.data
  | [], last, b, c, h => by
    obtain ⟨x, hx, h⟩ := bind_ok (x := append b ['\n']) (f := fun b => if last ≤ 2 then .error .refused else .ok b) h
    split at h
    · cases h
    · injection h with h; subst h; exact append_prefix hx
  | i :: is, last, b, c, h => by
    obtain ⟨x, hk, h⟩ := bind_ok (x := key b last i) (f := fun b => do let b ← value b last i; formatLoop b i.type is) h
    obtain ⟨y, hv, h⟩ := bind_ok (x := value x last i) (f := fun b => formatLoop b i.type is) h
    exact (key_prefix hk).trans ((value_prefix hv).trans (formatLoop_prefix is _ y c h))

theorem cstring_none (e : Bool) (r : List (Option Char)) : ∀ t : Text, nul ∉ t → cstring e (t.map some ++ none :: r) = none
  | [], _ => rfl
  | c :: t, h => by
    have hc : c ≠ nul := fun e => h (by simp [e])
    have ih := cstring_none e r t (fun e => h (by simp [e]))
    simp only [List.map_cons, List.cons_append, cstring, if_neg hc, ih]; rfl

theorem cstring_nul (e : Bool) (r : List (Option Char)) : ∀ t : Text, nul ∉ t → cstring e (t.map some ++ some nul :: r) = some t
  | [], _ => by simp [cstring]
  | c :: t, h => by
    have hc : c ≠ nul := fun e => h (by simp [e])
    have ih := cstring_nul e r t (fun e => h (by simp [e]))
    simp only [List.map_cons, List.cons_append, cstring, if_neg hc, ih]; rfl

/-- What is in the buffer after a measurement and the separator that follows it. -/
theorem after_measurement {m : Text} (hm : ∀ c ∈ m, c ∉ [',', ' ']) (hl : m.length ≤ 256) {is : List Item} {b : Buf} (h : formatLine (.meas m :: is) = .ok b) :
    ∃ c y d, append (mk 256 m y) [c] = .ok d ∧ d.data <+: b.data := by
  have hesc := escape_none [',', ' '] m hm
  obtain ⟨y, hy⟩ := escaped_ok (e := [',', ' ']) (len := 256) (src := m) (t := []) (x := false) (by rw [hesc]; simpa using hl)
  rw [hesc] at hy
  have hv : value begin 0 (.meas m) = .ok (mk 256 m y) := hy
  have h : formatLoop begin 0 (.meas m :: is) = .ok b := h
  obtain ⟨x, hk, h⟩ := bind_ok (x := key begin 0 (.meas m)) (f := fun b => do let b ← value b 0 (.meas m); formatLoop b 1 is) h
  have hkx : key begin 0 (.meas m) = .ok begin := rfl
  rw [hkx] at hk; injection hk with hk; subst hk
  obtain ⟨x, hx, h⟩ := bind_ok (x := value begin 0 (.meas m)) (f := fun b => formatLoop b 1 is) h
  rw [hv] at hx; injection hx with hx; subst hx
  cases is with
  | nil =>
    obtain ⟨x, hx, h⟩ := bind_ok (x := append (mk 256 m y) ['\n']) (f := fun b => if 1 ≤ 2 then .error .refused else .ok b) h
    cases h
  | cons i is =>
    have hs := seqOk_of_ok _ _ _ _ h
    rw [seqOk, Bool.and_eq_true] at hs
    obtain ⟨x, hk, h⟩ := bind_ok (x := key (mk 256 m y) 1 i) (f := fun b => do let b ← value b 1 i; formatLoop b i.type is) h
    obtain ⟨z, hz, h⟩ := bind_ok (x := value x 1 i) (f := fun b => formatLoop b i.type is) h
    have hp := (value_prefix hz).trans (formatLoop_prefix _ _ _ _ h)
    have ht : 2 ≤ i.type ∧ i.type ≤ 6 := by
      have := hs.1
      cases i <;> simp [allowed, Item.type] at this ⊢
    unfold key at hk
    rw [if_pos ht] at hk
    generalize (if i.type = 2 then 2 else 6) = top at hk
    split at hk
    · cases hk
    · obtain ⟨d, hd, hk⟩ := bind_ok hk
      obtain ⟨w, hw, hk⟩ := bind_ok hk
      exact ⟨_, y, d, hd, (escapedAppend_prefix _ _ _ _ _ hw).trans ((append_prefix hk).trans hp)⟩

/-- After a measurement of 255 characters nothing is sent, and after one of 256 characters a byte is sent that was never written: when the buffer is enlarged, what did not fit is not printed again. -/
theorem C93_long_lines_not_complete (m : Text) (hm : ∀ c ∈ m, c ∉ [',', ' '] ∧ c ≠ nul) (is : List Item) (b : Buf) (h : formatLine (.meas m :: is) = .ok b) :
    (m.length = 255 → cstring b.ended b.data = some m) ∧ (m.length = 256 → cstring b.ended b.data = none) := by
  have hn : nul ∉ m := fun h => (hm _ h).2 rfl
  have key : m.length ≤ 256 → ∃ c y d, append (mk 256 m y) [c] = .ok d ∧ d.data <+: b.data := fun hl => after_measurement (fun c hc => (hm c hc).1) hl h
  constructor
  · intro hl
    obtain ⟨c, y, d, hd, r, hr⟩ := key (by omega)
    have h1 : ¬ (mk 256 m y).len < (mk 256 m y).data.length := by simp [mk, hl]
    have h2 : ¬ (mk 256 m y).data.length + [c].length < (mk 256 m y).len := by simp [mk, hl]
    have hroom : (mk 256 m y).len - (mk 256 m y).data.length = 1 := by simp [mk, hl]
    unfold append at hd; dsimp only at hd
    rw [if_neg h1, if_neg h2, hroom] at hd
    injection hd with hd; subst hd
    rw [← hr]
    have := cstring_nul b.ended r m hn
    simpa [mk] using this
  · intro hl
    obtain ⟨c, y, d, hd, r, hr⟩ := key (by omega)
    have h1 : ¬ (mk 256 m y).len < (mk 256 m y).data.length := by simp [mk, hl]
    have h2 : ¬ (mk 256 m y).data.length + [c].length < (mk 256 m y).len := by simp [mk, hl]
    have hroom : (mk 256 m y).len - (mk 256 m y).data.length = 0 := by simp [mk, hl]
    unfold append at hd; dsimp only at hd
    rw [if_neg h1, if_neg h2, hroom] at hd
    injection hd with hd; subst hd
    rw [← hr]
    have := cstring_none b.ended r m hn
    simpa [mk] using this

/-- There are such lines. -/
example : (∃ b, formatLine [.meas (List.replicate 255 'a'), .int "b".toList 1] = .ok b) ∧ (∃ b, formatLine [.meas (List.replicate 256 'a'), .int "b".toList 1] = .ok b) := by
  have h1 : (formatLine [.meas (List.replicate 255 'a'), .int "b".toList 1]).toBool = true := by decide +kernel
  have h2 : (formatLine [.meas (List.replicate 256 'a'), .int "b".toList 1]).toBool = true := by decide +kernel
  constructor
  · revert h1; generalize formatLine _ = x; intro h1; cases x with
    | error e => cases h1
    | ok b => exact ⟨b, rfl⟩
  · revert h2; generalize formatLine _ = x; intro h2; cases x with
    | error e => cases h2
    | ok b => exact ⟨b, rfl⟩

/-- Names of more than 512 characters are written behind the buffer, which is enlarged only once. -/
theorem C93_long_names_not_safe (m : Text) (hm : ∀ c ∈ m, c ∉ [',', ' ']) (hl : 512 < m.length) (is : List Item) : formatLine (.meas m :: is) = .error .overflow := by
  have ht : ∀ l : Text, (∀ c ∈ l, c ∉ [',', ' ']) → l.takeWhile (· ∉ [',', ' ']) = l := by
    intro l h
    induction l with
    | nil => rfl
    | cons c l ih =>
      rw [List.takeWhile_cons_of_pos (by simpa using h c (by simp)), ih (fun d hd => h d (by simp [hd]))]
  have hc : copy begin m = .error .overflow := by
    have h1 : begin.data.length + m.length > begin.len := by simp [begin]; omega
    have h2 : begin.data.length + m.length > 2 * begin.len := by simp [begin]; omega
    unfold copy; dsimp only
    rw [if_pos h1, if_pos h2]
  have h0 : 0 < (m.takeWhile (· ∉ [',', ' '])).length := by rw [ht m hm]; omega
  have he : escaped [',', ' '] begin m = .error .overflow := by
    unfold escaped escapedAppend
    dsimp only
    rw [if_pos h0, ht m hm, hc]; rfl
  show (do let b ← key begin 0 (.meas m); let b ← value b 0 (.meas m); formatLoop b 1 is) = _
  have hk : key begin 0 (.meas m) = .ok begin := rfl
  rw [hk]
  show (do let b ← escaped [',', ' '] begin m; formatLoop b 1 is) = _
  rw [he]; rfl

example : formatLine [.meas (List.replicate 513 'a'), .int "b".toList 1] = .error .overflow := C93_long_names_not_safe _ (by intro c hc; rw [List.eq_of_mem_replicate hc]; decide) (by rw [List.length_replicate]; decide) _

/-- A backslash at the end of a name hides the separator; one in a string hides the closing quote or another backslash; line breaks in names end the line. -/
theorem C93_backslashes_not_escaped :
    (∀ l ∈ [(⟨"a\\".toList, [], [("b".toList, .int 1)], none⟩ : Line), ⟨"a".toList, [("k".toList, "v\\".toList)], [("b".toList, .int 1)], none⟩,
        ⟨"a".toList, [], [("b".toList, .str "c\\".toList)], none⟩, ⟨"a".toList, [], [("b".toList, .str "\\\\".toList)], none⟩, ⟨"a\nb".toList, [], [("b".toList, .int 1)], none⟩],
      ∃ b text, formatLine l.items = .ok b ∧ cstring b.ended b.data = some text ∧ read text ≠ some [l]) := by
  have key : ∀ l : Line, l.fields ≠ [] → l.size < 256 → nul ∉ lineText l → read (lineText l) ≠ some [l] →
      ∃ b text, formatLine l.items = .ok b ∧ cstring b.ended b.data = some text ∧ read text ≠ some [l] := by
    intro l h1 h2 h3 h4
    have := formatLine_ok (ls := [l]) (by simp) (by simpa using h1) (by simpa using h2)
    simp only [List.flatMap_cons, List.flatMap_nil, List.append_nil] at this
    exact ⟨_, _, this, cstring_ok _ h3, h4⟩
  intro l hl
  simp only [List.mem_cons, List.not_mem_nil, or_false] at hl
  rcases hl with rfl | rfl | rfl | rfl | rfl <;> exact key _ (by simp) (by decide +kernel) (by decide +kernel) (by decide +kernel)

/-- Such a line is read as another one. -/
example : read (lineText ⟨"a".toList, [], [("b".toList, .str "\\\\".toList)], none⟩) = some [⟨"a".toList, [], [("b".toList, .str "\\".toList)], none⟩] := by decide +kernel

/-- Two lines with all that is possible, which meet the hypotheses of `C93_lines_are_written_partial`. -/
def exampleLines : List Line :=
  [⟨"Reaction starts, a=b".toList, [("Reactor".toList, "Main.a b,c".toList), ("k\\k".toList, "x=y".toList)],
      [("Logical Time".toList, .int (-5)), ("s".toList, .str "say \"hi\", \n".toList), ("f".toList, .flt "28.39".toList), ("t".toList, .bool true)], some 1512722735522840439⟩,
   ⟨"m".toList, [], [("f".toList, .bool false)], none⟩]

example : (exampleLines.map Line.size).sum < 256 := by decide +kernel

example : ∀ l ∈ exampleLines, Good l := by
  intro l hl
  simp only [exampleLines, List.mem_cons, List.not_mem_nil, or_false] at hl
  have g : ∀ t : Text, ('\n' ∉ t ∧ t.getLast? ≠ some '\\' ∧ nul ∉ t) → GoodName t := fun _ h => h
  rcases hl with rfl | rfl
  · refine ⟨g _ (by decide +kernel), ?_, ?_, by simp⟩
    · intro t ht
      simp only [List.mem_cons, List.not_mem_nil, or_false] at ht
      rcases ht with rfl | rfl <;> exact ⟨g _ (by decide +kernel), g _ (by decide +kernel)⟩
    · intro f hf
      simp only [List.mem_cons, List.not_mem_nil, or_false] at hf
      rcases hf with rfl | rfl | rfl | rfl
      · exact ⟨g _ (by decide +kernel), trivial⟩
      · exact ⟨g _ (by decide +kernel), by decide +kernel, by decide +kernel⟩
      · exact ⟨g _ (by decide +kernel), (by decide +kernel : isFloat "28.39".toList = true)⟩
      · exact ⟨g _ (by decide +kernel), trivial⟩
  · refine ⟨g _ (by decide +kernel), by simp, ?_, by simp⟩
    intro f hf
    simp only [List.mem_cons, List.not_mem_nil, or_false] at hf
    subst hf; exact ⟨g _ (by decide +kernel), trivial⟩

example : (formatLine (exampleLines.flatMap Line.items)).toOption.bind (fun b => cstring b.ended b.data) =
    some "Reaction\\ starts\\,\\ a=b,Reactor=Main.a\\ b\\,c,k\\k=x\\=y Logical\\ Time=-5i,s=\"say \\\"hi\\\", \n\",f=28.39,t=t 1512722735522840439\nm f=f\n".toList := by decide +kernel

/-! ### Requests -/

/-- A request has the URL that was meant exactly if the URL is shorter than the line; the body says what was meant, and the token is in the header. -/
theorem C93_requests_partial (c : Client) (ls : List Line) (hne : ls ≠ []) (hg : ∀ l ∈ ls, Good l) (hs : (ls.map Line.size).sum < 256) (ht : c.token.length ≤ 98) :
    ∃ q, postCurl c (ls.flatMap Line.items) = some q ∧ (q.url = url c ↔ (url c).length < (ls.map Line.size).sum) ∧ q.header = "Authorization: Token ".toList ++ c.token ∧ q.body.bind read = some ls := by
  have hf : ∀ l ∈ ls, l.fields ≠ [] := fun l hl => (hg l hl).2.2.2
  have hfmt := formatLine_ok hne hf hs
  have hlen := all_length ls hf
  have hpos : 0 < (ls.map Line.size).sum := by
    cases ls with
    | nil => exact absurd rfl hne
    | cons l ls => simp only [List.map_cons, List.sum_cons, Line.size]; omega
  have htok : ¬ ("Authorization: Token ".toList ++ c.token).length + 1 > 120 := by
    rw [List.length_append, show "Authorization: Token ".toList.length = 21 from rfl]; omega
  have hnul : nul ∉ ls.flatMap lineText := by
    intro h
    obtain ⟨l, hl, h⟩ := List.mem_flatMap.mp h
    exact nul_lineText (hg l hl) h
  refine ⟨⟨(url c).take ((ls.map Line.size).sum - 1), "Authorization: Token ".toList ++ c.token, some (ls.flatMap lineText)⟩, ?_, ?_, rfl, ?_⟩
  · unfold postCurl
    rw [hfmt]
    dsimp only
    rw [if_neg htok]
    simp only [mk, List.length_map, hlen, cstring_ok _ hnul]
  · dsimp only
    constructor
    · intro h
      have := congrArg List.length h
      rw [List.length_take] at this; omega
    · intro h
      exact List.take_of_length_le (by omega)
  · exact read_ok ls hg

/-- With the defaults of the tool, the URL needs 67 characters; a short line cuts it off. -/
example : (postCurl ⟨some "localhost".toList, 8086, "iCyPhy".toList, "test".toList, none, "secret".toList⟩ [.meas "m".toList, .int "f".toList 1]).map (·.url) = some "http:/".toList := by decide +kernel

/-- A request for arguments that are refused, or with a token of more than 98 characters, is undefined behaviour. -/
theorem C93_failures_not_reported (c : Client) (is : List Item) (h : formatLine is = .error .refused ∨ 98 < c.token.length) : postCurl c is = none := by
  unfold postCurl
  rcases h with h | h
  · rw [h]
  · cases formatLine is with
    | error e => rfl
    | ok b =>
      have htok : ("Authorization: Token ".toList ++ c.token).length + 1 > 120 := by
        rw [List.length_append, show "Authorization: Token ".toList.length = 21 from rfl]; omega
      dsimp only
      rw [if_pos htok]

example : formatLine [.tag "a".toList "b".toList] = .error .refused := by decide +kernel

/-! ### The tool -/

theorem decimal_of_nonneg {n : Int} (h : 0 ≤ n) : decimal n = Nat.toDigits 10 n.toNat := by
  cases n with
  | ofNat n => rfl
  | negSucc n => exact absurd h (Int.not_le.mpr (Int.negSucc_lt_zero n))

theorem described_object (os : List Object) (p : Nat) (o : String) : (objectDescription os p).getD o.toList = described os (fun x => x.pointer == p) o := by
  unfold objectDescription described
  have : (fun o : Object => decide (o.pointer = p)) = (fun x => x.pointer == p) := by funext x; rfl
  rw [this]
  cases os.find? (fun x => x.pointer == p) <;> rfl

theorem described_trigger (os : List Object) (p : Nat) (o : String) : (triggerName os p).getD o.toList = described os (fun x => x.isTrigger && x.trigger == p) o := by
  unfold triggerName described
  have : (fun o : Object => decide (o.trigger = p ∧ o.isTrigger = true)) = (fun x => x.isTrigger && x.trigger == p) := by
    funext x
    cases x.isTrigger <;> by_cases h1 : x.trigger = p <;> simp [h1]
  rw [this]
  cases os.find? (fun x => x.isTrigger && x.trigger == p) <;> rfl

theorem recordItems_line (os : List Object) (r : Record) (e : String) (he : localEvent r.event = some e) (hd : r.dst < 1000) : recordItems os r = (recordLine os e r).items := by
  have hev : eventNames.getD r.event [] = e.toList := by
    have : r.event < 11 := by
      by_contra h
      have hn : localEvent r.event = none := by
        unfold localEvent
        split <;> first | omega | rfl
      rw [hn] at he; cases he
    generalize r.event = n at he this
    interval_cases n <;> (simp only [localEvent] at he; injection he with he; subst he; rfl)
  have hre : reactionName r.dst = if r.dst < 0 then "none".toList else Nat.toDigits 10 r.dst.toNat := by
    unfold reactionName
    by_cases h : r.dst < 0
    · rw [if_neg (by omega), if_pos h]
    · rw [if_pos (by omega), if_neg h, decimal_of_nonneg (by omega)]
      apply List.take_of_length_le
      exact (Nat.length_toDigits_le_iff (by decide) (by decide)).mpr (by omega)
  unfold recordItems
  rw [hev, hre, described_object, described_trigger]
  rfl

theorem localEvent_iff (n : Nat) : n > 10 ↔ localEvent n = none := by
  constructor
  · intro h
    unfold localEvent
    split <;> first | omega | rfl
  · intro h
    by_contra hn
    have : n < 11 := by omega
    interval_cases n <;> cases h

/-- What the tool is asked to upload can be written. -/
def Uploadable (os : List Object) (rs : List Record) : Prop :=
  ∀ r ∈ rs, ∀ e, localEvent r.event = some e → r.dst < 1000 ∧ Good (recordLine os e r) ∧ (recordLine os e r).size < 256

theorem upload_ok (c : Client) (os : List Object) (answer : Nat → Int) (ha : ∀ n, answer n = 0) (ht : c.token.length ≤ 98) : ∀ (rs : List Record) (s : Run), Uploadable os rs →
    ∃ qs, upload c os answer s rs = (⟨s.sent ++ qs, s.undef⟩, true) ∧ qs.map (fun q => q.body.bind read) = (recordLines os rs).map (fun l => some [l])
  | [], s, _ => ⟨[], by simp [upload], rfl⟩
  | r :: rs, s, hu => by
    have hu' : Uploadable os rs := fun x hx => hu x (by simp [hx])
    unfold upload
    cases he : localEvent r.event with
    | none =>
      rw [if_pos ((localEvent_iff _).mpr he)]
      obtain ⟨qs, h1, h2⟩ := upload_ok c os answer ha ht rs s hu'
      exact ⟨qs, h1, by rw [h2]; simp [recordLines, he]⟩
    | some e =>
      have hn : ¬ r.event > 10 := fun h => by rw [(localEvent_iff _).mp h] at he; cases he
      obtain ⟨hd, hg, hs⟩ := hu r (by simp) e he
      obtain ⟨q, hq, -, -, hb⟩ := C93_requests_partial c [recordLine os e r] (by simp) (by simpa using hg) (by simpa using hs) ht
      simp only [List.flatMap_cons, List.flatMap_nil, List.append_nil] at hq
      obtain ⟨qs, h1, h2⟩ := upload_ok c os answer ha ht rs { s with sent := s.sent ++ [q] } hu'
      refine ⟨q :: qs, ?_, ?_⟩
      · rw [if_neg hn, recordItems_line os r e he hd, hq]
        dsimp only
        rw [if_neg (by simp [ha]), h1]
        simp
      · rw [List.map_cons, hb, h2]; simp [recordLines, he]

theorem uploadAll_ok (c : Client) (os : List Object) (answer : Nat → Int) (ha : ∀ n, answer n = 0) (ht : c.token.length ≤ 98) : ∀ (chs : List (List Record)) (s : Run) (num : Nat), (∀ ch ∈ chs, ch ≠ []) →
    Uploadable os chs.flatten → ∃ qs, uploadAll c os answer s num chs = (⟨s.sent ++ qs, s.undef⟩, (chs.getLast?.map List.length).getD num) ∧
      qs.map (fun q => q.body.bind read) = (recordLines os chs.flatten).map (fun l => some [l])
  | [], s, num, _, _ => ⟨[], by simp [uploadAll], rfl⟩
  | ch :: chs, s, num, hne, hu => by
    have hn : ¬ ch.length = 0 := by have := hne ch (by simp); simpa using this
    obtain ⟨qs, h1, h2⟩ := upload_ok c os answer ha ht ch s (fun r hr => hu r (by simp [hr]))
    obtain ⟨qs', h3, h4⟩ := uploadAll_ok c os answer ha ht chs ⟨s.sent ++ qs, s.undef⟩ ch.length (fun x hx => hne x (by simp [hx]))
      (fun r hr => hu r (by rw [List.flatten_cons, List.mem_append]; exact Or.inr hr))
    refine ⟨qs ++ qs', ?_, ?_⟩
    · unfold uploadAll
      rw [if_neg hn]
      dsimp only
      rw [h1]
      dsimp only
      rw [if_pos rfl, h3]
      cases chs with
      | nil => simp
      | cons x xs =>
        have hy : (x :: xs).getLast? = some ((x :: xs).getLast (by simp)) := List.getLast?_eq_some_getLast (by simp)
        rw [List.getLast?_cons_cons, hy]; simp
    · rw [List.map_append, h2, h4]; simp [recordLines]

/-- While the server accepts, the tool uploads the local records of the file, each in a request of its own, in their order; what the server reads from a request is the record. -/
theorem C93_records_are_uploaded_partial (c : Client) (os : List Object) (answer : Nat → Int) (ha : ∀ n, answer n = 0) (ht : c.token.length ≤ 98) (chs : List (List Record)) (hne : ∀ ch ∈ chs, ch ≠ [])
    (hu : Uploadable os chs.flatten) :
    (uploadAll c os answer ⟨[], false⟩ 0 chs).1.sent.map (fun q => q.body.bind read) = (recordLines os chs.flatten).map (fun l => some [l]) ∧ (uploadAll c os answer ⟨[], false⟩ 0 chs).1.undef = false := by
  obtain ⟨qs, h1, h2⟩ := uploadAll_ok c os answer ha ht chs ⟨[], false⟩ 0 hne hu
  rw [h1]
  exact ⟨by simpa using h2, rfl⟩

/-- The number that is printed at the end is the number of records in the last chunk, not of all records. -/
theorem C93_count_not_total (c : Client) (os : List Object) (answer : Nat → Int) (ha : ∀ n, answer n = 0) (ht : c.token.length ≤ 98) (chs : List (List Record)) (hne : ∀ ch ∈ chs, ch ≠ [])
    (hu : Uploadable os chs.flatten) (h2 : 2 ≤ chs.length) : (uploadAll c os answer ⟨[], false⟩ 0 chs).2 < chs.flatten.length := by
  obtain ⟨qs, h1, -⟩ := uploadAll_ok c os answer ha ht chs ⟨[], false⟩ 0 hne hu
  rw [h1]
  dsimp only
  rcases List.eq_nil_or_concat chs with h | ⟨init, last, h⟩
  · subst h; simp at h2
  · subst h
    cases init with
    | nil => simp at h2
    | cons x xs =>
      have := List.length_pos_iff.mpr (hne x (by simp))
      simp only [List.concat_eq_append, List.getLast?_append, List.getLast?_singleton, Option.map_some, Option.getD_some, List.flatten_append, List.flatten_cons, List.length_append, List.flatten_nil,
        List.length_nil, Option.some_or]
      omega

/-- After an answer that is not 0, nothing more is uploaded. -/
theorem C93_failures_end_the_upload (c : Client) (os : List Object) (answer : Nat → Int) (k : Nat) (hk : answer k ≠ 0) (chs : List (List Record)) :
    (uploadAll c os answer ⟨[], false⟩ 0 chs).1.sent.length ≤ k + 1 := by
  have one : ∀ (rs : List Record) (s : Run), s.sent.length ≤ k → (upload c os answer s rs).1.sent.length ≤ k + 1 ∧ ((upload c os answer s rs).2 = true → (upload c os answer s rs).1.sent.length ≤ k) := by
    intro rs
    induction rs with
    | nil => intro s h; exact ⟨by simp only [upload]; omega, fun _ => h⟩
    | cons r rs ih =>
      intro s h
      unfold upload
      split
      · exact ih s h
      · split
        · exact ⟨by dsimp only; omega, fun h => by cases h⟩
        · dsimp only
          split
          · exact ⟨by simp; omega, fun h => by cases h⟩
          · next q _ hz =>
            apply ih
            have hz : answer ((s.sent ++ [q]).length - 1) = 0 := by simpa using hz
            have hl : (s.sent ++ [q]).length - 1 = s.sent.length := by simp
            rw [hl] at hz
            have : s.sent.length ≠ k := fun e => hk (e ▸ hz)
            simp; omega
  have all : ∀ (chs : List (List Record)) (s : Run) (num : Nat), s.sent.length ≤ k → (uploadAll c os answer s num chs).1.sent.length ≤ k + 1 := by
    intro chs
    induction chs with
    | nil => intro s num h; simp only [uploadAll]; omega
    | cons ch chs ih =>
      intro s num h
      unfold uploadAll
      split
      · dsimp only; omega
      · dsimp only
        split
        next h2 => exact ih _ _ ((one ch s h).2 h2)
        next => exact (one ch s h).1
  exact all chs _ _ (by simp)

/-- Numbers of reactions from 1000 on lose their last digits: the reactions 1000 to 1009 are uploaded as 100. -/
theorem C93_reactions_not_told_apart (os : List Object) (r : Record) (n d : Nat) (hn : 100 ≤ n) (hd : d < 10) :
    recordItems os { r with dst := (10 * n + d : Nat) } = recordItems os { r with dst := (n : Nat) } := by
  have h : reactionName ((10 * n + d : Nat) : Int) = reactionName ((n : Nat) : Int) := by
    have h1 : decimal ((10 * n + d : Nat) : Int) = Nat.toDigits 10 n ++ Nat.toDigits 10 d := (Nat.toDigits_append_toDigits (by decide) (by omega) hd).symm
    have h2 : decimal ((n : Nat) : Int) = Nat.toDigits 10 n := rfl
    have h3 : 3 ≤ (Nat.toDigits 10 n).length := by
      by_contra h
      have : (Nat.toDigits 10 n).length ≤ 2 := by omega
      have := (Nat.length_toDigits_le_iff (b := 10) (n := n) (k := 2) (by decide) (by decide)).mp this
      omega
    unfold reactionName
    rw [if_pos (by omega), if_pos (by omega), h1, h2, List.take_append_of_le_length h3]
  unfold recordItems
  dsimp only
  rw [h]

/-- Two chunks that meet the hypotheses of the theorems about the tool. -/
def exampleObjects : List Object := [⟨1, 0, false, "Main.a".toList⟩, ⟨1, 5, true, "Main.a.t".toList⟩]
def exampleChunks : List (List Record) := [[⟨0, 1, 0, 3, 100, 0, 200, 5, 0⟩, ⟨11, 1, 0, 3, 100, 0, 200, 5, 0⟩], [⟨1, 2, 0, -1, 100, 0, 300, 7, 4⟩]]

example : (uploadAll ⟨none, 0, "o".toList, "b".toList, none, "t".toList⟩ exampleObjects (fun _ => 0) ⟨[], false⟩ 0 exampleChunks).1.sent.map (·.body) =
    [some "Reaction\\ starts,Reactor=Main.a,Reaction=3 Worker=0i,Logical\\ Time=100i,Microstep=0i,Trigger\\ Name=\"Main.a.t\",Extra\\ Delay=0i 200\n".toList,
     some "Reaction\\ ends,Reactor=NO\\ REACTOR,Reaction=none Worker=0i,Logical\\ Time=100i,Microstep=0i,Trigger\\ Name=\"NO TRIGGER\",Extra\\ Delay=4i 300\n".toList] := by decide +kernel

example : Uploadable exampleObjects exampleChunks.flatten := by
  have g : ∀ t : Text, ('\n' ∉ t ∧ t.getLast? ≠ some '\\' ∧ nul ∉ t) → GoodName t := fun _ h => h
  intro r hr e he
  simp only [exampleChunks, List.flatten_cons, List.flatten_nil, List.cons_append, List.nil_append, List.append_nil, List.mem_cons, List.not_mem_nil, or_false] at hr
  rcases hr with rfl | rfl | rfl <;> simp only [localEvent] at he
  · injection he with he; subst he
    refine ⟨by decide, ⟨g _ (by decide +kernel), ?_, ?_, by simp [recordLine]⟩, by decide +kernel⟩
    · intro t ht
      simp only [recordLine, List.mem_cons, List.not_mem_nil, or_false] at ht
      rcases ht with rfl | rfl <;> exact ⟨g _ (by decide +kernel), g _ (by decide +kernel)⟩
    · intro f hf
      simp only [recordLine, List.mem_cons, List.not_mem_nil, or_false] at hf
      rcases hf with rfl | rfl | rfl | rfl | rfl
      · exact ⟨g _ (by decide +kernel), trivial⟩
      · exact ⟨g _ (by decide +kernel), trivial⟩
      · exact ⟨g _ (by decide +kernel), trivial⟩
      · exact ⟨g _ (by decide +kernel), by decide +kernel, by decide +kernel⟩
      · exact ⟨g _ (by decide +kernel), trivial⟩
  · cases he
  · injection he with he; subst he
    refine ⟨by decide, ⟨g _ (by decide +kernel), ?_, ?_, by simp [recordLine]⟩, by decide +kernel⟩
    · intro t ht
      simp only [recordLine, List.mem_cons, List.not_mem_nil, or_false] at ht
      rcases ht with rfl | rfl <;> exact ⟨g _ (by decide +kernel), g _ (by decide +kernel)⟩
    · intro f hf
      simp only [recordLine, List.mem_cons, List.not_mem_nil, or_false] at hf
      rcases hf with rfl | rfl | rfl | rfl | rfl
      · exact ⟨g _ (by decide +kernel), trivial⟩
      · exact ⟨g _ (by decide +kernel), trivial⟩
      · exact ⟨g _ (by decide +kernel), trivial⟩
      · exact ⟨g _ (by decide +kernel), by decide +kernel, by decide +kernel⟩
      · exact ⟨g _ (by decide +kernel), trivial⟩

end ReactorC.Influx
