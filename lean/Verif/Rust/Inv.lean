import Verif.Rust.Spec
import Mathlib.Data.List.Nodup

namespace ReactorC.Rust

/-! ## Characters -/

theorem isAlphanumeric_iff (c : Char) : isAlphanumeric c = true ↔ Letter c := by
  unfold isAlphanumeric Letter Char.isUpper Char.isLower Char.isDigit
  simp only [decide_eq_true_eq, Bool.and_eq_true, ge_iff_le]
  constructor
  · rintro (⟨a, b⟩ | ⟨a, b⟩ | ⟨a, b⟩)
    · exact Or.inr (Or.inr ⟨a, b⟩)
    · exact Or.inl ⟨a, b⟩
    · exact Or.inr (Or.inl ⟨a, b⟩)
  · rintro (⟨a, b⟩ | ⟨a, b⟩ | ⟨a, b⟩)
    · exact Or.inr (Or.inl ⟨a, b⟩)
    · exact Or.inr (Or.inr ⟨a, b⟩)
    · exact Or.inl ⟨a, b⟩

theorem letter_small {c : Char} (h : Letter c) : c.toNat < 128 := by
  unfold Letter Char.isUpper Char.isLower Char.isDigit at h
  simp only [decide_eq_true_eq, Bool.and_eq_true, ge_iff_le, UInt32.le_iff_toNat_le] at h
  have : c.toNat = c.val.toNat := rfl
  have h1 : (90 : UInt32).toNat = 90 := rfl
  have h2 : (122 : UInt32).toNat = 122 := rfl
  have h3 : (57 : UInt32).toNat = 57 := rfl
  rw [this]
  rcases h with h | h | h
  · have := h.2; change c.val.toNat ≤ 90 at this; omega
  · have := h.2; change c.val.toNat ≤ 122 at this; omega
  · have := h.2; change c.val.toNat ≤ 57 at this; omega

theorem ascii_cases : ∀ n < 128, Letter (Char.ofNat n) → Letter (Char.ofNat n).toUpper ∧ Letter (Char.ofNat n).toLower := by decide +kernel

theorem letter_case {c : Char} (h : Letter c) : Letter c.toUpper ∧ Letter c.toLower := by
  have := ascii_cases c.toNat (letter_small h)
  rw [Char.ofNat_toNat] at this
  exact this h

theorem letter_ne {c d : Char} (h : Letter c) (hd : ¬ Letter d) : c ≠ d := by rintro rfl; exact hd h

/-! ## Camel case -/

/-- From within a text. -/
def camelFrom : Bool → Text → Text
  | _, [] => []
  | up, c :: t => if Letter c then (if up then c.toUpper else c.toLower) :: camelFrom false t else camelFrom true t

theorem words_ne (t : Text) : ∃ w ws, words t = w :: ws := by
  cases t with
  | nil => exact ⟨[], [], rfl⟩
  | cons c t =>
    unfold words
    split
    · split
      · exact ⟨_, _, rfl⟩
      · exact ⟨_, _, rfl⟩
    · exact ⟨_, _, rfl⟩

theorem camelFrom_words : ∀ (t w : Text) (ws : List Text), words t = w :: ws →
    camelFrom true t = capitalize w ++ ws.flatMap capitalize ∧ camelFrom false t = w.map Char.toLower ++ ws.flatMap capitalize
  | [], w, ws, h => by
    simp only [words, List.cons.injEq] at h
    obtain ⟨rfl, rfl⟩ := h
    exact ⟨rfl, rfl⟩
  | c :: t, w, ws, h => by
    obtain ⟨v, vs, hv⟩ := words_ne t
    have ih := camelFrom_words t v vs hv
    unfold words at h
    by_cases hc : Letter c
    · rw [if_pos hc, hv] at h
      simp only [List.cons.injEq] at h
      obtain ⟨rfl, rfl⟩ := h
      simp only [camelFrom, if_pos hc]
      exact ⟨by rw [ih.2]; rfl, by rw [ih.2]; rfl⟩
    · rw [if_neg hc, hv] at h
      simp only [List.cons.injEq] at h
      obtain ⟨rfl, rfl⟩ := h
      simp only [camelFrom, if_neg hc]
      exact ⟨by rw [ih.1]; rfl, by rw [ih.1]; rfl⟩

theorem camelFrom_eq (t : Text) : camelFrom true t = camel t := by
  obtain ⟨w, ws, h⟩ := words_ne t
  unfold camel
  rw [h, List.flatMap_cons]
  exact (camelFrom_words t w ws h).1

theorem camelFrom_letters : ∀ (t : Text) (up : Bool), ∀ c ∈ camelFrom up t, Letter c
  | [], _, c, h => by cases h
  | x :: t, up, c, h => by
    unfold camelFrom at h
    split at h
    · rename_i hx
      rcases List.mem_cons.1 h with rfl | h
      · split
        · exact (letter_case hx).1
        · exact (letter_case hx).2
      · exact camelFrom_letters t false c h
    · exact camelFrom_letters t true c h

theorem camel_letters (t : Text) : ∀ c ∈ camel t, Letter c := by
  rw [← camelFrom_eq]; exact camelFrom_letters t true

theorem takeWhile_nul (out r : Text) (h : nul ∉ out) : (out ++ nul :: r).takeWhile (· ≠ nul) = out := by
  rw [List.takeWhile_append_of_pos (fun x hx => by rw [decide_eq_true_eq]; rintro rfl; exact h hx)]
  simp

/-- The loop in memory: `out` has been written, `gap` is left over from before, `rem` is still to be read. -/
theorem camelLoop_ok : ∀ (rem out gap : Text) (up : Bool) (k : Nat), nul ∉ rem → nul ∉ out → rem.length < k →
    ∃ b, camelLoop k (out ++ (gap ++ (rem ++ [nul]))) up (out.length + gap.length) out.length = some b ∧ b.takeWhile (· ≠ nul) = out ++ camelFrom up rem
  | _, _, _, _, 0, _, _, h => absurd h (Nat.not_lt_zero _)
  | [], out, gap, up, k + 1, _, ho, _ => by
    have e : (out ++ (gap ++ ([] ++ [nul])))[out.length + gap.length]? = some nul := by
      rw [List.nil_append, List.getElem?_append_right (by omega), List.getElem?_append_right (by omega)]
      simp
    unfold camelLoop
    rw [e]; dsimp only
    rw [if_pos rfl, if_pos (by simp)]
    refine ⟨_, rfl, ?_⟩
    rw [List.set_append_right _ _ (Nat.le_refl _), Nat.sub_self]
    cases gap with
    | nil => simp only [List.nil_append, List.set_cons_zero, camelFrom, List.append_nil]; exact takeWhile_nul _ _ ho
    | cons g gs => simp only [List.cons_append, List.set_cons_zero, camelFrom, List.append_nil]; exact takeWhile_nul _ _ ho
  | c :: rem, out, gap, up, k + 1, hr, ho, hk => by
    have e : (out ++ (gap ++ (c :: rem ++ [nul])))[out.length + gap.length]? = some c := by
      rw [List.getElem?_append_right (by omega), List.getElem?_append_right (by omega)]
      simp
    have hc : c ≠ nul := fun h => hr (by rw [h]; simp)
    have hr' : nul ∉ rem := fun h => hr (List.mem_cons_of_mem _ h)
    rw [List.length_cons] at hk
    unfold camelLoop
    rw [e]; dsimp only
    rw [if_neg hc]
    by_cases hl : Letter c
    · rw [if_neg (by rw [(isAlphanumeric_iff c).2 hl]; decide), if_pos (by simp only [List.length_append, List.length_cons]; omega)]
      generalize hx : (if up then c.toUpper else c.toLower) = x
      have hxl : Letter x := by
        rw [← hx]; split
        · exact (letter_case hl).1
        · exact (letter_case hl).2
      have hxn : nul ∉ out ++ [x] := by
        intro h
        rcases List.mem_append.1 h with h | h
        · exact ho h
        · simp only [List.mem_singleton] at h; exact letter_ne hxl (by decide) h.symm
      rw [List.set_append_right _ _ (Nat.le_refl _), Nat.sub_self]
      simp only [camelFrom, if_pos hl, hx]
      cases gap with
      | nil =>
        obtain ⟨b, h1, h2⟩ := camelLoop_ok rem (out ++ [x]) [] false k hr' hxn (by omega)
        refine ⟨b, ?_, by rw [h2]; simp⟩
        rw [← h1]
        simp
      | cons g gs =>
        obtain ⟨b, h1, h2⟩ := camelLoop_ok rem (out ++ [x]) (gs ++ [c]) false k hr' hxn (by omega)
        refine ⟨b, ?_, by rw [h2]; simp⟩
        rw [← h1]
        simp [Nat.add_comm, Nat.add_left_comm]
    · rw [if_pos (by rw [← Bool.not_eq_true, isAlphanumeric_iff]; exact hl)]
      simp only [camelFrom, if_neg hl]
      obtain ⟨b, h1, h2⟩ := camelLoop_ok rem out (gap ++ [c]) true k hr' ho (by omega)
      refine ⟨b, ?_, h2⟩
      rw [← h1]
      simp [Nat.add_assoc]

theorem camelCase_eq {s : Text} (h : nul ∉ s) : camelCase s = some (camel s) := by
  obtain ⟨b, h1, h2⟩ := camelLoop_ok s [] [] true (s.length + 1) h (by simp) (by omega)
  unfold camelCase
  simp only [List.nil_append, List.length_nil, Nat.add_zero] at h1 h2
  rw [h1, Option.map_some, h2, camelFrom_eq]

/-! ## Lines -/

theorem forEach_eq (f : Nat → Text → Text → Text) : ∀ (ns : List Text) (i : Nat), (∀ n ∈ ns, nul ∉ n) → forEach f i ns = some ((ns.zipIdx i).map (fun x => f x.2 (camel x.1) x.1))
  | [], _, _ => rfl
  | n :: ns, i, h => by
    unfold forEach
    rw [camelCase_eq (h n (by simp)), forEach_eq f ns (i + 1) (fun x hx => h x (List.mem_cons_of_mem _ hx))]
    rfl

theorem linesOf_line : ∀ (l : Text) (r : Text), '\n' ∉ l → linesOf (l ++ '\n' :: r) = l :: linesOf r
  | [], r, _ => by simp [linesOf]
  | c :: l, r, h => by
    have hc : c ≠ '\n' := fun e => h (by rw [e]; simp)
    rw [List.cons_append, linesOf, if_neg hc, linesOf_line l r (fun e => h (List.mem_cons_of_mem _ e))]

theorem linesOf_all : ∀ (ls : List Text), (∀ l ∈ ls, '\n' ∉ l) → linesOf (ls.flatMap (fun l => l ++ ['\n'])) = ls
  | [], _ => rfl
  | l :: ls, h => by
    rw [List.flatMap_cons, List.append_assoc, List.singleton_append, linesOf_line l _ (h l (by simp)), linesOf_all ls (fun x hx => h x (List.mem_cons_of_mem _ hx))]

/-! ## Reading -/

theorem lit_append (s : String) (t : Text) : lit s (s.toList ++ t) = some t := by
  unfold lit
  rw [if_pos (List.prefix_append _ _), List.drop_left]

theorem span_append {p : Char → Bool} {w : Text} {x : Char} {r : Text} (hw : ∀ c ∈ w, p c = true) (hx : p x = false) :
    (w ++ x :: r).takeWhile p = w ∧ (w ++ x :: r).dropWhile p = x :: r := by
  rw [List.takeWhile_append_of_pos hw, List.dropWhile_append_of_pos hw]
  constructor
  · rw [List.takeWhile_cons_of_neg (by simpa using hx), List.append_nil]
  · rw [List.dropWhile_cons_of_neg (by simpa using hx)]

theorem ident_append {w : Text} (hw : ∀ c ∈ w, Letter c) (hne : w ≠ []) (hd : w.head?.all (fun c => !c.isDigit) = true) {x : Char} (hx : ¬ Letter x) (r : Text) :
    ident (w ++ x :: r) = some (w, x :: r) := by
  unfold ident
  have h := span_append (p := fun c => decide (Letter c)) (r := r) (fun c hc => by simpa using hw c hc) (by simpa using hx)
  dsimp only
  rw [h.1, h.2]
  rw [if_neg]
  rintro (h | h)
  · exact hne h
  · cases w with
    | nil => exact hne rfl
    | cons a b => simp at hd h; rw [hd] at h; cases h

theorem number_append (n : Nat) {x : Char} (hx : x.isDigit = false) (r : Text) : number (Nat.toDigits 10 n ++ x :: r) = some (n, x :: r) := by
  unfold number
  have h := span_append (p := Char.isDigit) (r := r) (fun c hc => Nat.isDigit_of_mem_toDigits (b := 10) (n := n) (by decide) (by decide) hc) hx
  dsimp only
  rw [h.1, h.2, if_neg (by exact Nat.toDigits_ne_nil)]
  have hv := Nat.ofDigitChars_ten_toDigits (n := n)
  unfold Nat.ofDigitChars at hv
  have he : (Nat.toDigits 10 n).foldl (fun n c => 10 * n + (c.toNat - 48)) 0 = n := hv
  rw [he]

theorem format_append {w : Text} (hw : ∀ c ∈ w, c ≠ '"' ∧ c ≠ '\\' ∧ c ≠ '{' ∧ c ≠ '}') (r : Text) : format (w ++ '"' :: r) = some (w, '"' :: r) := by
  unfold format
  have h := span_append (p := fun c => decide (c ≠ '"')) (x := '"') (r := r) (fun c hc => by simpa using (hw c hc).1) (by simp)
  dsimp only
  rw [h.1, h.2, if_neg]
  rintro (h | h | h)
  · exact (hw _ h).2.1 rfl
  · exact (hw _ h).2.2.1 rfl
  · exact (hw _ h).2.2.2 rfl

theorem readVariant_ok {n : Text} (hg : GoodName n) (i : Nat) : readVariant (enumVariant i (camel n) n) = some (camel n, i) := by
  have e : enumVariant i (camel n) n = "    ".toList ++ (camel n ++ ' ' :: ("= ".toList ++ (Nat.toDigits 10 i ++ ',' :: []))) := by
    unfold enumVariant; simp [List.append_assoc]
  rw [e]
  unfold readVariant
  rw [lit_append]
  simp only [Option.bind_eq_bind, Option.bind_some]
  rw [ident_append (camel_letters n) hg.2.1 hg.2.2 (by decide)]
  simp only [Option.bind_some]
  rw [show ∀ t : Text, ' ' :: ("= ".toList ++ t) = " = ".toList ++ t from fun _ => rfl, lit_append]
  simp only [Option.bind_some]
  rw [number_append i (by decide)]
  simp

theorem readCase_ok {n : Text} (hg : GoodName n) (i : Nat) : readCase (matchCase i (camel n) n) = some (camel n, n) := by
  have e : matchCase i (camel n) n = "            EventType::".toList ++ (camel n ++ ' ' :: ("=> write!(f, \"".toList ++ (n ++ '"' :: "),".toList))) := by
    unfold matchCase; simp [List.append_assoc]
  rw [e]
  unfold readCase
  rw [lit_append]
  simp only [Option.bind_eq_bind, Option.bind_some]
  rw [ident_append (camel_letters n) hg.2.1 hg.2.2 (by decide)]
  simp only [Option.bind_some]
  rw [show ∀ t : Text, ' ' :: ("=> write!(f, \"".toList ++ t) = " => write!(f, \"".toList ++ t from fun _ => rfl, lit_append]
  simp only [Option.bind_some]
  rw [format_append (fun c hc => ⟨(hg.1 c hc).2.1, (hg.1 c hc).2.2.1, (hg.1 c hc).2.2.2.1, (hg.1 c hc).2.2.2.2.1⟩)]
  simp

theorem readFrom_ok {n : Text} (hg : GoodName n) (i : Nat) : readFrom (fromInt i (camel n) n) = some (i, camel n) := by
  have e : fromInt i (camel n) n = "            ".toList ++ (Nat.toDigits 10 i ++ ' ' :: ("=> Ok(EventType::".toList ++ (camel n ++ ')' :: ",".toList))) := by
    unfold fromInt; simp [List.append_assoc]
  rw [e]
  unfold readFrom
  rw [lit_append]
  simp only [Option.bind_eq_bind, Option.bind_some]
  rw [number_append i (by decide)]
  simp only [Option.bind_some]
  rw [show ∀ t : Text, ' ' :: ("=> Ok(EventType::".toList ++ t) = " => Ok(EventType::".toList ++ t from fun _ => rfl, lit_append]
  simp only [Option.bind_some]
  rw [ident_append (camel_letters n) hg.2.1 hg.2.2 (by decide)]
  simp

theorem section_ok {α β : Type} (f : Text → Option α) (stop : Text) (hs : f stop = none) (line : β → Text) (val : β → α) :
    ∀ (xs : List β) (r : List Text), (∀ x ∈ xs, f (line x) = some (val x)) → section_ f stop (xs.map line ++ stop :: r) = some (xs.map val, r)
  | [], r, _ => by simp [section_]
  | x :: xs, r, h => by
    have hx := h x (by simp)
    have hne : line x ≠ stop := fun e => by rw [e, hs] at hx; cases hx
    rw [List.map_cons, List.cons_append]
    unfold section_
    rw [if_neg hne, hx, section_ok f stop hs line val xs r (fun y hy => h y (List.mem_cons_of_mem _ hy))]
    rfl

theorem expect_ok : ∀ (ss : List String) (r : List Text), expect ss (ss.map String.toList ++ r) = some r
  | [], _ => rfl
  | s :: ss, r => by
    rw [List.map_cons, List.cons_append]
    unfold expect
    rw [if_pos rfl]; exact expect_ok ss r

/-! ## Finding -/

theorem find_index {β : Type} (g : Text → β) (i : Nat) : ∀ (ns : List Text) (k : Nat), k ≤ i →
    (((ns.zipIdx k).map (fun x => (x.2, g x.1))).find? (fun x => decide (x.1 = i))).map (·.2) = ns[i - k]?.map g
  | [], k, _ => by simp
  | n :: ns, k, h => by
    rw [List.zipIdx_cons, List.map_cons]
    by_cases hk : k = i
    · subst hk
      rw [List.find?_cons_of_pos (by simp), Nat.sub_self]
      rfl
    · rw [List.find?_cons_of_neg (by simpa using hk), find_index g i ns (k + 1) (by omega), show i - k = (i - (k + 1)) + 1 by omega, List.getElem?_cons_succ]

theorem find_name {β : Type} (v : Nat → Text → β) : ∀ (ns : List Text) (k i : Nat) (n : Text), (ns.map camel).Nodup → ns[i]? = some n →
    (((ns.zipIdx k).map (fun x => (camel x.1, v x.2 x.1))).find? (fun x => decide (x.1 = camel n))).map (·.2) = some (v (k + i) n)
  | [], _, i, _, _, h => by simp at h
  | m :: ns, k, i, n, hd, h => by
    rw [List.zipIdx_cons, List.map_cons]
    rw [List.map_cons, List.nodup_cons] at hd
    cases i with
    | zero =>
      rw [List.getElem?_cons_zero, Option.some.injEq] at h
      subst h
      rw [List.find?_cons_of_pos (by simp)]; rfl
    | succ i =>
      rw [List.getElem?_cons_succ] at h
      have hne : camel m ≠ camel n := fun e => hd.1 (by rw [e]; exact List.mem_map.2 ⟨n, List.mem_of_getElem? h, rfl⟩)
      rw [List.find?_cons_of_neg (by simpa using hne), find_name v ns (k + 1) i n hd.2 h, show k + 1 + i = k + (i + 1) by omega]

end ReactorC.Rust
