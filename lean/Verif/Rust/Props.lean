import Verif.Rust.Inv

/-!
# C95: generated Rust code names, shows and converts the types of trace events
-/

namespace ReactorC.Rust

/-- **C95** The name made from a description consists of its words, each with its first letter in upper case and the others in lower case;
it is made in place within the memory of the copy. -/
theorem C95_camel_case (s : Text) (h : nul ∉ s) : camelCase s = some (camel s) ∧ ∀ c ∈ camel s, Letter c := ⟨camelCase_eq h, camel_letters s⟩

example : camel "Sending P2P_TAGGED_MSG".toList = "SendingP2pTaggedMsg".toList ∧ nul ∉ "Sending P2P_TAGGED_MSG".toList := by decide +kernel

theorem line_ok {l : Text} (h : ∀ c ∈ l, c ≠ '\n') : '\n' ∉ l := fun hx => h _ hx rfl

theorem camel_no_lf (n : Text) : '\n' ∉ camel n := fun h => letter_ne (camel_letters n _ h) (by decide) rfl

theorem digits_no_lf (i : Nat) : '\n' ∉ Nat.toDigits 10 i := by
  intro h
  have := Nat.isDigit_of_mem_toDigits (b := 10) (by decide) (by decide) h
  revert this; decide

/-- **C95** The code is read as what was meant: for every type a variant with its number, the text that it is displayed with, and the
conversion of its number. -/
theorem C95_code_is_read_partial (names : List Text) (hg : ∀ n ∈ names, GoodName n) :
    ∃ t, printed names = some t ∧ readCode t = some
      { variants := names.zipIdx.map (fun x => (camel x.1, x.2)), display := names.map (fun n => (camel n, n)), from_ := names.zipIdx.map (fun x => (x.2, camel x.1)) } := by
  have hn : ∀ n ∈ names, nul ∉ n := fun n h hx => ((hg n h).1 _ hx).1 rfl
  have hz : ∀ x ∈ names.zipIdx, GoodName x.1 := by
    rintro ⟨n, i⟩ hx
    exact hg n (List.mem_of_getElem? (List.mem_zipIdx_iff_getElem?.1 hx))
  refine ⟨_, by unfold printed generate; rw [forEach_eq _ _ _ hn, forEach_eq _ _ _ hn, forEach_eq _ _ _ hn]; rfl, ?_⟩
  have hl : ∀ l ∈ warning ++ [[]] ++ rsEnum (names.zipIdx.map (fun x => enumVariant x.2 (camel x.1) x.1)) ++ [[]] ++
      displayImpl (names.zipIdx.map (fun x => matchCase x.2 (camel x.1) x.1)) ++ [[]] ++ rsFromInt (names.zipIdx.map (fun x => fromInt x.2 (camel x.1) x.1)), '\n' ∉ l := by
    have h1 : ∀ l ∈ names.zipIdx.map (fun x => enumVariant x.2 (camel x.1) x.1), '\n' ∉ l := by
      intro l hx
      obtain ⟨x, _, rfl⟩ := List.mem_map.1 hx
      have a := camel_no_lf x.1; have b := digits_no_lf x.2
      unfold enumVariant
      simp only [List.mem_append, not_or]
      exact ⟨⟨⟨⟨by decide, a⟩, by decide⟩, b⟩, by decide⟩
    have h2 : ∀ l ∈ names.zipIdx.map (fun x => matchCase x.2 (camel x.1) x.1), '\n' ∉ l := by
      intro l hx
      obtain ⟨x, hm, rfl⟩ := List.mem_map.1 hx
      have a := camel_no_lf x.1
      have b : '\n' ∉ x.1 := fun h => ((hz x hm).1 _ h).2.2.2.2.2 rfl
      unfold matchCase
      simp only [List.mem_append, not_or]
      exact ⟨⟨⟨⟨by decide, a⟩, by decide⟩, b⟩, by decide⟩
    have h3 : ∀ l ∈ names.zipIdx.map (fun x => fromInt x.2 (camel x.1) x.1), '\n' ∉ l := by
      intro l hx
      obtain ⟨x, _, rfl⟩ := List.mem_map.1 hx
      have a := camel_no_lf x.1; have b := digits_no_lf x.2
      unfold fromInt
      simp only [List.mem_append, not_or]
      exact ⟨⟨⟨⟨by decide, b⟩, by decide⟩, a⟩, by decide⟩
    have w : ∀ l ∈ warning, '\n' ∉ l := by decide
    intro l h
    simp only [rsEnum, displayImpl, rsFromInt, List.mem_append] at h
    rcases h with ((((((h | h) | ((h | h) | h)) | h) | ((h | h) | h)) | h) | ((h | h) | h))
    · exact w l h
    · revert l; decide
    · revert l; decide
    · exact h1 l h
    · revert l; decide
    · revert l; decide
    · revert l; decide
    · exact h2 l h
    · revert l; decide
    · revert l; decide
    · revert l; decide
    · exact h3 l h
    · revert l; decide
  unfold readCode
  rw [linesOf_all _ hl]
  have e : warning ++ [[]] ++ rsEnum (names.zipIdx.map (fun x => enumVariant x.2 (camel x.1) x.1)) ++ [[]] ++
      displayImpl (names.zipIdx.map (fun x => matchCase x.2 (camel x.1) x.1)) ++ [[]] ++ rsFromInt (names.zipIdx.map (fun x => fromInt x.2 (camel x.1) x.1)) =
    ["/// Do not edit. Code in this file is generated from", "/// reactor-c/util/tracing/codegen/src/tracepoint_to_rs.c", "", "#[derive(Debug)]", "pub enum EventType {"].map String.toList ++
    (names.zipIdx.map (fun x => enumVariant x.2 (camel x.1) x.1) ++ "}".toList ::
    (["", "impl std::fmt::Display for EventType {", "    fn fmt(&self, f: &mut std::fmt::Formatter<'_>) -> std::fmt::Result {", "        match self {"].map String.toList ++
    (names.zipIdx.map (fun x => matchCase x.2 (camel x.1) x.1) ++ "        }".toList ::
    (["    }", "}", "", "impl EventType {", "    pub fn try_from_int(i: i32) -> Result<Self, &'static str> {", "        match i {"].map String.toList ++
    (names.zipIdx.map (fun x => fromInt x.2 (camel x.1) x.1) ++ "            _ => Err(\"invalid event type\"),".toList ::
    (["        }", "    }", "}"].map String.toList ++ [])))))) := by
    unfold warning rsEnum displayImpl rsFromInt
    simp only [List.append_assoc, List.cons_append, List.nil_append, List.map_cons, List.map_nil, List.append_nil]
    rfl
  rw [e, expect_ok]
  simp only [Option.bind_eq_bind, Option.bind_some]
  rw [section_ok readVariant _ (by decide) _ (fun x => (camel x.1, x.2)) _ _ (fun x hx => readVariant_ok (hz x hx) x.2)]
  simp only [Option.bind_some]
  rw [expect_ok]
  simp only [Option.bind_some]
  rw [section_ok readCase _ (by decide) _ (fun x => (camel x.1, x.1)) _ _ (fun x hx => readCase_ok (hz x hx) x.2)]
  simp only [Option.bind_some]
  rw [expect_ok]
  simp only [Option.bind_some]
  rw [section_ok readFrom _ (by decide) _ (fun x => (x.2, camel x.1)) _ _ (fun x hx => readFrom_ok (hz x hx) x.2)]
  simp only [Option.bind_some]
  rw [expect_ok]
  simp only [Option.bind_some]
  rw [if_pos trivial]
  have hd : names.zipIdx.map (fun x => (camel x.1, x.1)) = names.map (fun n => (camel n, n)) := by
    rw [show (fun x : Text × Nat => (camel x.1, x.1)) = (fun n : Text => (camel n, n)) ∘ Prod.fst from rfl, ← List.map_map, List.zipIdx_map_fst]
  rw [hd]

/-- What was meant. -/
def meant (names : List Text) : Code where
  variants := names.zipIdx.map (fun x => (camel x.1, x.2))
  display := names.map (fun n => (camel n, n))
  from_ := names.zipIdx.map (fun x => (x.2, camel x.1))

/-- **C95** The code that is generated compiles and does what it should: every number of a type is converted to its variant, which is
displayed with the description of the type and has this number; other numbers are not converted. -/
theorem C95_code_works_partial (names : List Text) (hg : ∀ n ∈ names, GoodName n) (hd : (names.map camel).Nodup) :
    ∃ t code, printed names = some t ∧ readCode t = some code ∧ code.Accepted ∧
      (∀ i n, names[i]? = some n → ∃ v, code.tryFromInt i = some v ∧ code.toString v = some n ∧ code.asInt v = some i) ∧
      (∀ i, names.length ≤ i → code.tryFromInt i = none) := by
  obtain ⟨t, h1, h2⟩ := C95_code_is_read_partial names hg
  refine ⟨t, meant names, h1, h2, ⟨?_, ?_, ?_, ?_, ?_⟩, ?_, ?_⟩
  · unfold meant; dsimp only
    rw [List.map_map, show ((fun x : Text × Nat => x.1) ∘ fun x : Text × Nat => (camel x.1, x.2)) = camel ∘ Prod.fst from rfl, ← List.map_map, List.zipIdx_map_fst]
    exact hd
  · unfold meant; dsimp only
    rw [List.map_map, show ((fun x : Text × Nat => x.2) ∘ fun x : Text × Nat => (camel x.1, x.2)) = Prod.snd from rfl, List.zipIdx_map_snd]
    exact List.nodup_range'
  · intro v hv
    unfold meant at *; dsimp only at *
    rw [List.map_map, show ((fun x : Text × Nat => x.1) ∘ fun x : Text × Nat => (camel x.1, x.2)) = camel ∘ Prod.fst from rfl, ← List.map_map, List.zipIdx_map_fst] at hv
    rw [List.map_map]; exact hv
  · intro v hv
    unfold meant at *; dsimp only at *
    rw [List.map_map, show ((fun x : Text × Nat => x.1) ∘ fun x : Text × Nat => (camel x.1, x.2)) = camel ∘ Prod.fst from rfl, ← List.map_map, List.zipIdx_map_fst]
    rw [List.map_map] at hv; exact hv
  · intro v hv
    unfold meant at *; dsimp only at *
    rw [List.map_map] at *
    exact hv
  · intro i n hn
    refine ⟨camel n, ?_, ?_, ?_⟩
    · have := find_index camel i names 0 (Nat.zero_le _)
      unfold Code.tryFromInt meant; dsimp only
      rw [this, Nat.sub_zero, hn]; rfl
    · have := find_name (fun _ n => n) names 0 i n hd hn
      unfold Code.toString meant; dsimp only
      have hz : names.zipIdx.map (fun x => (camel x.1, x.1)) = names.map (fun n => (camel n, n)) := by
        rw [show (fun x : Text × Nat => (camel x.1, x.1)) = (fun n : Text => (camel n, n)) ∘ Prod.fst from rfl, ← List.map_map, List.zipIdx_map_fst]
      rw [hz] at this; exact this
    · have := find_name (fun k _ => k) names 0 i n hd hn
      unfold Code.asInt meant; dsimp only
      rw [this, Nat.zero_add]
  · intro i hi
    have := find_index camel i names 0 (Nat.zero_le _)
    unfold Code.tryFromInt meant; dsimp only
    rw [this, Nat.sub_zero, List.getElem?_eq_none hi]; rfl

/-- **C95** For the types of trace events there are: as many descriptions as types, and code that works. -/
theorem C95_event_types : eventNames.length = NUM_EVENT_TYPES ∧ ∃ t code, printed (eventNames.map String.toList) = some t ∧ readCode t = some code ∧ code.Accepted ∧
    (∀ i s, eventNames[i]? = some s → ∃ v, code.tryFromInt i = some v ∧ code.toString v = some s.toList ∧ code.asInt v = some i) ∧
    (∀ i, NUM_EVENT_TYPES ≤ i → code.tryFromInt i = none) := by
  refine ⟨by decide, ?_⟩
  obtain ⟨t, code, h1, h2, h3, h4, h5⟩ := C95_code_works_partial (eventNames.map String.toList) (by decide +kernel) (by decide +kernel)
  refine ⟨t, code, h1, h2, h3, fun i s hs => h4 i s.toList (by rw [List.getElem?_map, hs]; rfl), fun i hi => h5 i (by rw [List.length_map]; exact hi)⟩

/-- **C95** (limit) Descriptions with the same words make the same name, and the compiler does not accept the code. -/
theorem C95_same_words_not_accepted (names : List Text) (hg : ∀ n ∈ names, GoodName n) (hd : ¬ (names.map camel).Nodup) :
    ∃ t code, printed names = some t ∧ readCode t = some code ∧ ¬ code.Accepted := by
  obtain ⟨t, h1, h2⟩ := C95_code_is_read_partial names hg
  refine ⟨t, _, h1, h2, fun h => hd ?_⟩
  have := h.1
  dsimp only at this
  rw [List.map_map, show ((fun x : Text × Nat => x.1) ∘ fun x : Text × Nat => (camel x.1, x.2)) = camel ∘ Prod.fst from rfl, ← List.map_map, List.zipIdx_map_fst] at this
  exact this

example : (∀ n ∈ ["Sending TAG".toList, "sending_tag".toList], GoodName n) ∧ ¬ (["Sending TAG".toList, "sending_tag".toList].map camel).Nodup := by decide +kernel

/-- **C95** (limit) Descriptions are not escaped, and need a letter: with a quotation mark, with a brace, or without letters, what is
generated is no such code. -/
theorem C95_descriptions_not_escaped : (printed ["Say \"x\"".toList]).bind readCode = none ∧ (printed ["Set {x}".toList]).bind readCode = none ∧
    (printed ["???".toList]).bind readCode = none ∧ (printed ["3 times".toList]).bind readCode = none := by decide +kernel

end ReactorC.Rust
