import Verif.Trace.File
import Verif.Trace.Props

/-!
# The tools read what tracing has written (C63)
-/

set_option linter.unusedVariables false

namespace ReactorC.Trace.File

/-! ## Specification -/

/-- The machines on which it works: pointers of 4 or 8 bytes, 64-bit numbers aligned to 8 bytes, the least significant byte
first. -/
def Abi.Usual (A : Abi) : Prop := (A.ptr = 4 ∨ A.ptr = 8) ∧ A.wide = 8 ∧ A.big = false

/-- The values fit into the fields of a record. -/
def Record.Fits (A : Abi) (r : Record) : Prop :=
  r.event < 256 ^ 4 ∧ r.pointer < 256 ^ A.ptr ∧ r.src < 256 ^ 4 ∧ r.dst < 256 ^ 4 ∧ r.logical < 256 ^ 8 ∧
  r.microstep < 256 ^ 4 ∧ r.physical < 256 ^ 8 ∧ r.trigger < 256 ^ A.ptr ∧ r.extra < 256 ^ 8

/-- The values fit into the fields of a description, which is a string of at most 1023 characters. -/
def Object.Fits (A : Abi) (x : Object) : Prop :=
  x.pointer < 256 ^ A.ptr ∧ x.trigger < 256 ^ A.ptr ∧ x.type < 256 ^ 4 ∧ x.description.length < bufferSize ∧ 0 ∉ x.description

/-! ## Proofs -/

theorem little_length : ∀ n v, (little n v).length = n
  | 0, _ => rfl
  | n + 1, v => by show _ + 1 = n + 1; rw [little_length n]

theorem fromLittle_little : ∀ n v, v < 256 ^ n → fromLittle (little n v) = v
  | 0, v, h => by simp at h; subst h; rfl
  | n + 1, v, h => by
    show (UInt8.ofNat v).toNat + 256 * fromLittle (little n (v / 256)) = v
    rw [fromLittle_little n (v / 256) (by rw [Nat.pow_succ] at h; omega)]
    have : (UInt8.ofNat v).toNat = v % 256 := by simp
    omega

theorem bytes_length (A : Abi) (n v : Nat) : (A.bytes n v).length = n := by
  unfold Abi.bytes; split <;> simp [little_length]

theorem value_bytes (A : Abi) {n v : Nat} (h : v < 256 ^ n) : A.value (A.bytes n v) = v := by
  unfold Abi.value Abi.bytes
  cases A.big
  · exact fromLittle_little n v h
  · simp [fromLittle_little n v h]

theorem noise_length (junk : Nat → UInt8) (o n : Nat) : (noise junk o n).length = n := by simp [noise]

/-- Reading the fields of a struct back. -/
theorem parse_fields (A : Abi) (junk : Nat → UInt8) : ∀ (l : List (Field × Nat)) (o : Nat) (tail : List UInt8),
    (∀ x ∈ l, x.2 < 256 ^ x.1.size) → A.parse o (l.map Prod.fst) (A.fields junk o l ++ tail) = l.map Prod.snd
  | [], _, _, _ => rfl
  | (f, v) :: l, o, tail, h => by
    have e : A.fields junk o ((f, v) :: l) ++ tail =
        (noise junk o (pad o f.align) ++ A.bytes f.size v) ++ (A.fields junk (o + pad o f.align + f.size) l ++ tail) := by
      show _ ++ _ ++ _ ++ tail = _; simp only [List.append_assoc]
    have hl : (noise junk o (pad o f.align) ++ A.bytes f.size v).length = pad o f.align + f.size := by
      rw [List.length_append, noise_length, bytes_length]
    show A.value (((A.fields junk o ((f, v) :: l) ++ tail).drop (pad o f.align)).take f.size) ::
      A.parse _ (l.map Prod.fst) ((A.fields junk o ((f, v) :: l) ++ tail).drop (pad o f.align + f.size)) = v :: l.map Prod.snd
    rw [e, ← hl, List.drop_left, parse_fields A junk l _ tail fun x hx => h x (List.mem_cons_of_mem _ hx)]
    congr 1
    rw [List.append_assoc, List.drop_append_of_le_length (by rw [noise_length]; omega),
      show (noise junk o (pad o f.align)).drop (pad o f.align) = [] by
        rw [List.drop_eq_nil_iff, noise_length]; omega]
    rw [List.nil_append, List.take_append_of_le_length (by rw [bytes_length]; omega),
      List.take_of_length_le (by rw [bytes_length]; omega)]
    exact value_bytes A (h (f, v) List.mem_cons_self)

theorem fields_length (A : Abi) (junk : Nat → UInt8) : ∀ (l : List (Field × Nat)) (o : Nat),
    o + (A.fields junk o l).length = after o (l.map Prod.fst)
  | [], o => rfl
  | (f, v) :: l, o => by
    show o + (noise junk o (pad o f.align) ++ A.bytes f.size v ++ A.fields junk (o + pad o f.align + f.size) l).length =
      after (o + pad o f.align + f.size) (l.map Prod.fst)
    rw [List.length_append, List.length_append, noise_length, bytes_length, ← fields_length A junk l]
    omega

theorem image_length (A : Abi) (junk : Nat → UInt8) (l : List (Field × Nat)) :
    (A.image junk l).length = sizeOf (l.map Prod.fst) := by
  have := fields_length A junk l 0
  unfold Abi.image sizeOf
  rw [List.length_append, noise_length]
  omega

theorem usual_size {A : Abi} (h : A.Usual) : sizeOf A.record = sizeOf A.recordNodeps ∧ sizeOf A.record ≠ 0 := by
  obtain ⟨p, w, b⟩ := A
  obtain ⟨h1, h2, h3⟩ := h
  dsimp only at h1 h2 h3
  subst h2; subst h3
  rcases h1 with h1 | h1 <;> subst h1 <;> decide

theorem zip_fst (A : Abi) (r : Record) : (A.record.zip r.values).map Prod.fst = A.record := rfl
theorem zip_snd (A : Abi) (r : Record) : (A.record.zip r.values).map Prod.snd = r.values := rfl

theorem copied_image {A : Abi} (h : A.Usual) (junk : Nat → UInt8) (r : Record) :
    A.copied junk r = A.image junk (A.record.zip r.values) := by
  have hl := image_length A junk (A.record.zip r.values)
  rw [zip_fst, (usual_size h).1] at hl
  unfold Abi.copied
  dsimp only
  rw [hl, Nat.sub_self, ← hl, List.take_length]
  show _ ++ [] = _
  rw [List.append_nil]

theorem copied_length {A : Abi} (h : A.Usual) (junk : Nat → UInt8) (r : Record) : (A.copied junk r).length = sizeOf A.record := by
  rw [copied_image h, image_length, zip_fst]

theorem readRecord_copied {A : Abi} (h : A.Usual) (junk : Nat → UInt8) {r : Record} (hr : r.Fits A) :
    A.readRecord (A.copied junk r) = r := by
  rw [copied_image h]
  unfold Abi.readRecord Abi.image
  have := parse_fields A junk (A.record.zip r.values) 0
    (noise junk (after 0 ((A.record.zip r.values).map Prod.fst))
      (pad (after 0 ((A.record.zip r.values).map Prod.fst)) (alignment ((A.record.zip r.values).map Prod.fst)))) (by
      obtain ⟨h1, h2, h3, h4, h5, h6, h7, h8, h9⟩ := hr
      intro x hx
      simp only [Abi.record, Record.values, List.zip_cons_cons, List.zip_nil_left, List.mem_cons, List.not_mem_nil,
        or_false] at hx
      rcases hx with rfl | rfl | rfl | rfl | rfl | rfl | rfl | rfl | rfl <;> assumption)
  rw [zip_snd] at this
  rw [show A.parse 0 A.record _ = r.values from this]
  rfl

theorem readRecords_copied {A : Abi} (h : A.Usual) : ∀ (l : List ((Nat → UInt8) × Record)), (∀ x ∈ l, x.2.Fits A) →
    A.readRecords l.length ((l.map fun x => A.copied x.1 x.2).flatten) = l.map Prod.snd
  | [], _ => rfl
  | x :: l, hl => by
    show A.readRecord ((A.copied x.1 x.2 ++ _).take (sizeOf A.record)) :: A.readRecords l.length ((A.copied x.1 x.2 ++ _).drop (sizeOf A.record)) = _
    rw [← copied_length h x.1 x.2, List.take_left, List.drop_left, readRecord_copied h x.1 (hl x List.mem_cons_self),
      readRecords_copied h l fun y hy => hl y (List.mem_cons_of_mem _ hy)]
    rfl

theorem flatten_length {A : Abi} (h : A.Usual) : ∀ (l : List ((Nat → UInt8) × Record)),
    ((l.map fun x => A.copied x.1 x.2).flatten).length = l.length * sizeOf A.record
  | [] => by simp
  | x :: l => by
    rw [List.map_cons, List.flatten_cons, List.length_append, copied_length h, flatten_length h l, List.length_cons, Nat.add_mul]
    omega

theorem fread_append {n : Nat} {a b : List UInt8} (h : a.length = n) : fread n (a ++ b) = some (a, b) := by
  subst h
  unfold fread
  rw [if_pos (by simp), List.take_left, List.drop_left]

/-- Four bytes of a `size_t`. -/
theorem count_bytes {A : Abi} (h : A.Usual) {n : Nat} (hn : n < 2 ^ 31) :
    ((A.bytes A.ptr n).take 4).length = 4 ∧ A.value ((A.bytes A.ptr n).take 4) = n := by
  obtain ⟨p, w, b⟩ := A
  obtain ⟨h1, h2, h3⟩ := h
  dsimp only at h1 h2 h3 ⊢
  subst h2; subst h3
  have ht : ∀ p, (little (4 + p) n).take 4 = little 4 n := fun p => by rw [show 4 + p = p + 1 + 1 + 1 + 1 by omega]; rfl
  have hv : fromLittle (little 4 n) = n := fromLittle_little 4 n (by omega)
  rcases h1 with h1 | h1 <;> subst h1
  · show ((little (4 + 0) n).take 4).length = 4 ∧ fromLittle ((little (4 + 0) n).take 4) = n
    rw [ht]; exact ⟨rfl, hv⟩
  · show ((little (4 + 4) n).take 4).length = 4 ∧ fromLittle ((little (4 + 4) n).take 4) = n
    rw [ht]; exact ⟨rfl, hv⟩

theorem fread_take {n : Nat} (a b : List UInt8) (m : Nat) (h : a.length = n) :
    fread n ((a ++ b).take m) = if m < n then none else some (a, b.take (m - n)) := by
  subst h
  by_cases hm : m < a.length
  · rw [if_pos hm]
    unfold fread
    rw [if_neg (by rw [List.length_take]; omega)]
  · rw [if_neg hm, List.take_append, List.take_of_length_le (by omega), fread_append rfl]

theorem chunk_length {A : Abi} (h : A.Usual) (c : List ((Nat → UInt8) × Record)) (hc : c.length ≤ 2048) :
    (A.chunk c).length = 4 + c.length * sizeOf A.record := by
  unfold Abi.chunk
  rw [List.length_append, (count_bytes h (by omega)).1, flatten_length h]

/-- Reading the chunks of a file that has been cut off after `m` bytes. -/
theorem readTraces_take {A : Abi} (h : A.Usual) : ∀ (chunks : List (List ((Nat → UInt8) × Record))) (n m : Nat),
    (((chunks.map A.chunk).flatten).take m).length ≤ n →
    (∀ c ∈ chunks, 0 < c.length ∧ c.length ≤ 2048 ∧ ∀ x ∈ c, x.2.Fits A) →
    ∃ k ≤ chunks.length, (((chunks.take k).map A.chunk).flatten).length ≤ m ∧
      (k < chunks.length → m < (((chunks.take (k + 1)).map A.chunk).flatten).length) ∧
      ∃ e, A.readTraces n (((chunks.map A.chunk).flatten).take m) = (((chunks.take k).map fun c => c.map Prod.snd).flatten, e) ∧
        e ≠ .overrun ∧ (k = chunks.length → e = .done)
  | [], n, m, _, _ => ⟨0, by simp, by simp, by simp, .done, by cases n <;> simp [Abi.readTraces, fread], by decide, fun _ => rfl⟩
  | c :: chunks, n, m, hn, hc => by
    obtain ⟨h1, h2, h3⟩ := hc c List.mem_cons_self
    obtain ⟨e1, e2⟩ := count_bytes h (n := c.length) (by omega)
    have hlen := chunk_length h c h2
    have hz : ∀ e, ((([] : List Record), e) : List Record × End) =
        ((((c :: chunks).take 0).map fun c => c.map Prod.snd).flatten, e) := fun e => rfl
    rw [List.map_cons, List.flatten_cons] at hn ⊢
    match n, hn with
    | 0, hn =>
      rw [List.length_take, List.length_append] at hn
      refine ⟨0, by omega, by simp, fun _ => ?_, .done, rfl, by decide, fun _ => rfl⟩
      show m < ((([c].map A.chunk)).flatten).length
      simp only [List.map_cons, List.map_nil, List.flatten_cons, List.flatten_nil, List.append_nil]
      omega
    | n + 1, hn =>
      have hshort : m < (A.chunk c).length → ∃ k ≤ (c :: chunks).length,
          ((((c :: chunks).take k).map A.chunk).flatten).length ≤ m ∧
          (k < (c :: chunks).length → m < ((((c :: chunks).take (k + 1)).map A.chunk).flatten).length) ∧
          ∃ e, A.readTraces (n + 1) ((A.chunk c ++ (chunks.map A.chunk).flatten).take m) =
            ((((c :: chunks).take k).map fun c => c.map Prod.snd).flatten, e) ∧ e ≠ .overrun ∧
            (k = (c :: chunks).length → e = .done) := by
        intro hm
        refine ⟨0, by omega, by simp, fun _ => ?_, ?_⟩
        · show m < ((([c].map A.chunk)).flatten).length
          simpa using hm
        · unfold Abi.readTraces Abi.chunk
          rw [List.append_assoc, fread_take _ _ _ e1]
          by_cases h4 : m < 4
          · rw [if_pos h4]; exact ⟨.done, rfl, by decide, fun _ => rfl⟩
          · rw [if_neg h4]
            dsimp only
            rw [e2, if_neg (by omega), if_neg (by unfold capacity; omega), if_neg (by omega),
              fread_take _ _ _ (flatten_length h c), if_pos (by omega)]
            exact ⟨.failure, rfl, by decide, fun h => absurd h (by simp)⟩
      by_cases hm : m < (A.chunk c).length
      · exact hshort hm
      · clear hshort
        obtain ⟨k, g1, g2, g3, e, g4, g5, g6⟩ := readTraces_take h chunks n (m - (A.chunk c).length) (by
          rw [List.length_take, List.length_append] at hn
          rw [List.length_take]
          omega) fun c hx => hc c (List.mem_cons_of_mem _ hx)
        refine ⟨k + 1, by simp; omega, ?_, ?_, e, ?_, g5, fun h => g6 (by simpa using h)⟩
        · rw [List.take_succ_cons, List.map_cons, List.flatten_cons, List.length_append]; omega
        · intro hk
          rw [List.take_succ_cons, List.map_cons, List.flatten_cons, List.length_append]
          have := g3 (by simpa using hk)
          omega
        · unfold Abi.readTraces
          conv_lhs => rw [show A.chunk c ++ (chunks.map A.chunk).flatten = (A.bytes A.ptr c.length).take 4 ++
            ((c.map fun x => A.copied x.1 x.2).flatten ++ (chunks.map A.chunk).flatten) by
              unfold Abi.chunk; rw [List.append_assoc]]
          rw [fread_take _ _ _ e1, if_neg (by omega)]
          dsimp only
          rw [e2, if_neg (by omega), if_neg (by unfold capacity; omega), if_neg (by omega),
            fread_take _ _ _ (flatten_length h c), if_neg (by omega)]
          dsimp only
          rw [show m - 4 - c.length * sizeOf A.record = m - (A.chunk c).length by omega, g4, readRecords_copied h c h3,
            List.take_succ_cons, List.map_cons, List.flatten_cons]

theorem readString_append : ∀ (d : List UInt8) (room : Nat) (b : List UInt8), 0 ∉ d → d.length ≤ room →
    readString room (d ++ 0 :: b) = some (d, b)
  | [], 0, b, _, _ => rfl
  | [], n + 1, b, _, _ => by unfold readString; dsimp only [List.nil_append]; rw [if_pos rfl]
  | c :: d, 0, b, _, h => absurd h (by simp)
  | c :: d, n + 1, b, h0, h => by
    rw [List.cons_append]
    unfold readString
    rw [if_neg (fun e => h0 (by rw [e]; exact List.mem_cons_self)),
      readString_append d n b (fun k => h0 (List.mem_cons_of_mem _ k)) (by simpa using h)]
    rfl

theorem readString_short : ∀ (d : List UInt8) (room m : Nat), 0 ∉ d → d.length ≤ room → readString room (d.take m) = none
  | [], _, _, _, _ => by simp [readString]
  | _ :: _, _, 0, _, _ => by simp [readString]
  | c :: d, 0, _ + 1, _, h => absurd h (by simp)
  | c :: d, n + 1, m + 1, h0, h => by
    rw [List.take_succ_cons]
    unfold readString
    rw [if_neg (fun e => h0 (by rw [e]; exact List.mem_cons_self)),
      readString_short d n m (fun k => h0 (List.mem_cons_of_mem _ k)) (by simpa using h)]
    rfl

/-- An entry of the table in the file. -/
def Abi.entry (A : Abi) (x : Object) : List UInt8 :=
  A.bytes A.ptr x.pointer ++ A.bytes A.ptr x.trigger ++ A.bytes 4 x.type ++ x.description ++ [0]

theorem entry_length (A : Abi) (x : Object) : (A.entry x).length = A.ptr + A.ptr + 4 + x.description.length + 1 := by
  unfold Abi.entry; simp only [List.length_append, bytes_length]; rfl

theorem readObject_take {A : Abi} {x : Object} (hx : x.Fits A) (b : List UInt8) (m : Nat) :
    A.readObject ((A.entry x ++ b).take m) =
      if m < (A.entry x).length then none else some (x, b.take (m - (A.entry x).length)) := by
  obtain ⟨h1, h2, h3, h4, h5⟩ := hx
  have hl := entry_length A x
  have he : A.entry x ++ b = A.bytes A.ptr x.pointer ++ (A.bytes A.ptr x.trigger ++ (A.bytes 4 x.type ++
      (x.description ++ 0 :: b))) := by unfold Abi.entry; simp
  unfold Abi.readObject
  simp only [Option.bind_eq_bind]
  rw [he, fread_take _ _ _ (bytes_length A _ _)]
  by_cases g1 : m < A.ptr
  · rw [if_pos g1, if_pos (by omega)]; rfl
  rw [if_neg g1]
  simp only [Option.bind_some]
  rw [fread_take _ _ _ (bytes_length A _ _)]
  by_cases g2 : m - A.ptr < A.ptr
  · rw [if_pos g2, if_pos (by omega)]; rfl
  rw [if_neg g2]
  simp only [Option.bind_some]
  rw [fread_take _ _ _ (bytes_length A _ _)]
  by_cases g3 : m - A.ptr - A.ptr < 4
  · rw [if_pos g3, if_pos (by omega)]; rfl
  rw [if_neg g3]
  simp only [Option.bind_some]
  by_cases g4 : m - A.ptr - A.ptr - 4 ≤ x.description.length
  · rw [List.take_append_of_le_length g4, readString_short _ _ _ h5 (by omega), if_pos (by omega)]; rfl
  · rw [List.take_append, List.take_of_length_le (by omega),
      show m - A.ptr - A.ptr - 4 - x.description.length = (m - (A.entry x).length) + 1 by omega, List.take_succ_cons,
      readString_append _ _ _ h5 (by omega), if_neg (by omega)]
    simp only [Option.bind_some, value_bytes A h1, value_bytes A h2, value_bytes A h3]

theorem readObjects_take (A : Abi) : ∀ (table : List Object) (b : List UInt8) (m : Nat), (∀ x ∈ table, x.Fits A) →
    A.readObjects table.length (((table.map A.entry).flatten ++ b).take m) =
      if m < ((table.map A.entry).flatten).length then none
      else some (table, b.take (m - ((table.map A.entry).flatten).length))
  | [], b, m, _ => by simp [Abi.readObjects]
  | x :: table, b, m, h => by
    show A.readObjects (table.length + 1) _ = _
    unfold Abi.readObjects
    simp only [Option.bind_eq_bind]
    rw [List.map_cons, List.flatten_cons, List.append_assoc, readObject_take (h x List.mem_cons_self), List.length_append]
    by_cases g : m < (A.entry x).length
    · rw [if_pos g, if_pos (by omega)]; rfl
    rw [if_neg g]
    simp only [Option.bind_some]
    rw [readObjects_take A table b _ fun y hy => h y (List.mem_cons_of_mem _ hy)]
    by_cases g' : m - (A.entry x).length < ((table.map A.entry).flatten).length
    · rw [if_pos g', if_pos (by omega)]; rfl
    rw [if_neg g', if_neg (by omega)]
    simp only [Option.bind_some]
    rw [Nat.sub_sub]

theorem header_length {A : Abi} (hA : A.Usual) (start : Nat) {table : List Object} (ht : table.length ≤ 1024) :
    (A.header start table).length = 12 + ((table.map A.entry).flatten).length := by
  unfold Abi.header
  rw [List.length_append, List.length_append, bytes_length, (count_bytes hA (by omega)).1]
  rfl

theorem readHeader_take {A : Abi} (hA : A.Usual) {start : Nat} (hs : start < 2 ^ 64) {table : List Object}
    (ht : table.length ≤ 1024) (hf : ∀ x ∈ table, x.Fits A) (b : List UInt8) (m : Nat) :
    A.readHeader ((A.header start table ++ b).take m) =
      if m < (A.header start table).length then none
      else some (start, table, b.take (m - (A.header start table).length)) := by
  obtain ⟨e1, e2⟩ := count_bytes hA (n := table.length) (by omega)
  have hl := header_length hA start ht
  have he : A.header start table ++ b = A.bytes 8 start ++ ((A.bytes A.ptr table.length).take 4 ++
      ((table.map A.entry).flatten ++ b)) := by
    show A.bytes 8 start ++ _ ++ (table.map A.entry).flatten ++ b = _
    simp only [List.append_assoc]
  unfold Abi.readHeader
  simp only [Option.bind_eq_bind]
  rw [he, fread_take _ _ _ (bytes_length A _ _)]
  by_cases g1 : m < 8
  · rw [if_pos g1, if_pos (by omega)]; rfl
  rw [if_neg g1]
  simp only [Option.bind_some]
  rw [fread_take _ _ _ e1]
  by_cases g2 : m - 8 < 4
  · rw [if_pos g2, if_pos (by omega)]; rfl
  rw [if_neg g2]
  simp only [Option.bind_some, e2]
  rw [if_neg (by omega)]
  rw [readObjects_take A table b _ hf]
  by_cases g3 : m - 8 - 4 < ((table.map A.entry).flatten).length
  · rw [if_pos g3, if_pos (by omega)]; rfl
  rw [if_neg g3, if_neg (by omega)]
  simp only [Option.bind_some, value_bytes A (n := 8) (v := start) (by omega)]
  rw [show m - 8 - 4 - ((table.map A.entry).flatten).length = m - (A.header start table).length by omega]

/-! ## Theorems -/

/-- The program may stop existing at any time, with any part of what it has written in the file.  Without the whole header the
tools report a failure; otherwise they read exactly the records of the flushes that are in the file as a whole. -/
theorem C63_file_cut_off {A : Abi} (hA : A.Usual) {start : Nat} (hs : start < 2 ^ 64) {table : List Object}
    (ht : table.length ≤ 1024) (hf : ∀ x ∈ table, x.Fits A) {chunks : List (List ((Nat → UInt8) × Record))}
    (hc : ∀ c ∈ chunks, 0 < c.length ∧ c.length ≤ 2048 ∧ ∀ x ∈ c, x.2.Fits A) (m : Nat) :
    (m < (A.file start table []).length → A.read ((A.file start table chunks).take m) = none) ∧
    ((A.file start table []).length ≤ m → ∃ k ≤ chunks.length, (A.file start table (chunks.take k)).length ≤ m ∧
      (k < chunks.length → m < (A.file start table (chunks.take (k + 1))).length) ∧ ∃ e, e ≠ .overrun ∧
      A.read ((A.file start table chunks).take m) =
        some (start, table, ((chunks.take k).map fun c => c.map Prod.snd).flatten, e) ∧ (k = chunks.length → e = .done)) := by
  have h0 : A.file start table [] = A.header start table := by simp [Abi.file]
  rw [h0]
  unfold Abi.read Abi.file
  simp only [Option.bind_eq_bind]
  rw [readHeader_take hA hs ht hf]
  constructor
  · intro hm; rw [if_pos hm]; rfl
  · intro hm
    rw [if_neg (by omega)]
    obtain ⟨k, g1, g2, g3, e, g4, g5, g6⟩ := readTraces_take hA chunks _ (m - (A.header start table).length) (Nat.le_refl _) hc
    refine ⟨k, g1, by rw [List.length_append]; omega, fun h => by rw [List.length_append]; have := g3 h; omega, e, g5, ?_, g6⟩
    simp only [Option.bind_some]
    rw [g4]

/-- Whatever the start time, the objects and the records, and whatever lies between the fields of records in memory: what the
tools read is what has been written. -/
theorem C63_trace_file_reads_back {A : Abi} (hA : A.Usual) {start : Nat} (hs : start < 2 ^ 64) {table : List Object}
    (ht : table.length ≤ 1024) (hf : ∀ x ∈ table, x.Fits A) {chunks : List (List ((Nat → UInt8) × Record))}
    (hc : ∀ c ∈ chunks, 0 < c.length ∧ c.length ≤ 2048 ∧ ∀ x ∈ c, x.2.Fits A) :
    A.read (A.file start table chunks) = some (start, table, (chunks.map fun c => c.map Prod.snd).flatten, .done) := by
  have hle : (A.file start table []).length ≤ (A.file start table chunks).length := by unfold Abi.file; simp
  obtain ⟨k, g1, g2, g3, e, g5, g4, g6⟩ :=
    (C63_file_cut_off hA hs ht hf hc (A.file start table chunks).length).2 hle
  rw [List.take_length] at g4
  have hk : k = chunks.length := by
    rcases Nat.lt_or_ge k chunks.length with hk | hk
    · exfalso
      have := g3 hk
      have h2 : A.file start table chunks = A.file start table (chunks.take (k + 1)) ++
          ((chunks.drop (k + 1)).map A.chunk).flatten := by
        unfold Abi.file
        rw [List.append_assoc, ← List.flatten_append, ← List.map_append, List.take_append_drop]
      rw [h2, List.length_append] at this
      omega
    · omega
  rw [g4, g6 hk, hk, List.take_length]

/-- The objects registered before the first flush, and the flushes. -/
def registered : List Act → List Object
  | [] => []
  | .register x :: l => x :: registered l
  | .flush r :: l => if r = [] then registered l else []

/-- The flushes of buffers with records. -/
def flushes (l : List Act) : List (List ((Nat → UInt8) × Record)) :=
  l.filterMap fun a => match a with
    | .register _ => none
    | .flush r => if r = [] then none else some r

theorem run_after (A : Abi) (start : Nat) : ∀ (l : List Act) (w : Writer), w.headerWritten = true →
    (l.foldl (Writer.step A start) w).bytes = w.bytes ++ ((flushes l).map A.chunk).flatten
  | [], w, _ => by simp [flushes]
  | .register x :: l, w, h => by
    rw [List.foldl_cons, run_after A start l _ (by unfold Writer.step; dsimp only; split <;> exact h)]
    have : (w.step A start (.register x)).bytes = w.bytes := by unfold Writer.step; dsimp only; split <;> rfl
    rw [this]; rfl
  | .flush r :: l, w, h => by
    rw [List.foldl_cons]
    by_cases hr : r = []
    · have e : w.step A start (.flush r) = w := by unfold Writer.step; dsimp only; rw [if_pos hr]
      rw [e, run_after A start l w h]
      simp [flushes, hr]
    · have e : w.step A start (.flush r) = { w with bytes := w.bytes ++ A.chunk r } := by
        unfold Writer.step; dsimp only; rw [if_neg hr, if_pos h]
      rw [e, run_after A start l { w with bytes := w.bytes ++ A.chunk r } h]
      simp [flushes, hr]

theorem run_before (A : Abi) (start : Nat) : ∀ (l : List Act) (w : Writer), w.headerWritten = false → w.bytes = [] →
    w.table.length ≤ 1024 → (l.foldl (Writer.step A start) w).bytes =
      if flushes l = [] then [] else A.file start (w.table ++ (registered l).take (1024 - w.table.length)) (flushes l)
  | [], w, _, hb, _ => by simp [flushes, hb]
  | .register x :: l, w, h, hb, hl => by
    rw [List.foldl_cons]
    show _ = if flushes l = [] then [] else A.file start (w.table ++ (x :: registered l).take (1024 - w.table.length)) (flushes l)
    by_cases hx : 1024 ≤ w.table.length
    · have e : w.step A start (.register x) = w := by unfold Writer.step; dsimp only; rw [if_pos hx]
      rw [e, run_before A start l w h hb hl, show 1024 - w.table.length = 0 by omega]
      rfl
    · have e : w.step A start (.register x) = { w with table := w.table ++ [x] } := by unfold Writer.step; dsimp only; rw [if_neg hx]
      rw [e, run_before A start l { w with table := w.table ++ [x] } h hb (by simp; omega)]
      rw [show 1024 - w.table.length = (1024 - (w.table ++ [x]).length) + 1 by simp; omega, List.take_succ_cons]
      simp only [List.append_assoc, List.singleton_append]
  | .flush r :: l, w, h, hb, hl => by
    rw [List.foldl_cons]
    by_cases hr : r = []
    · have e : w.step A start (.flush r) = w := by unfold Writer.step; dsimp only; rw [if_pos hr]
      rw [e, run_before A start l w h hb hl]
      simp [flushes, registered, hr]
    · have e : w.step A start (.flush r) =
          { w with headerWritten := true, bytes := w.bytes ++ A.header start w.table ++ A.chunk r } := by
        unfold Writer.step; dsimp only; rw [if_neg hr, if_neg (by rw [h]; decide)]
      rw [e, run_after A start l _ rfl]
      simp [flushes, registered, hr, hb, Abi.file]

/-- What a program writes and the tools read, whatever the program does: the first 1024 objects among those registered before
the first flush, and the records of all flushes. -/
theorem C63_tools_read_what_programs_trace {A : Abi} (hA : A.Usual) {start : Nat} (hs : start < 2 ^ 64) (l : List Act)
    (hf : ∀ x, .register x ∈ l → x.Fits A) (hc : ∀ c, .flush c ∈ l → c.length ≤ 2048 ∧ ∀ x ∈ c, x.2.Fits A)
    (some_record : flushes l ≠ []) :
    A.read (Writer.run A start l).bytes =
      some (start, (registered l).take 1024, ((flushes l).map fun c => c.map Prod.snd).flatten, .done) := by
  unfold Writer.run
  rw [run_before A start l ⟨[], false, []⟩ rfl rfl (by simp), if_neg some_record]
  have hreg : ∀ l : List Act, ∀ x ∈ registered l, Act.register x ∈ l := by
    intro l
    induction l with
    | nil => simp [registered]
    | cons a l ih =>
      cases a with
      | register y =>
        intro x hx
        rcases List.mem_cons.1 hx with hx | hx
        · rw [hx]; exact List.mem_cons_self
        · exact List.mem_cons_of_mem _ (ih x hx)
      | flush r =>
        intro x hx
        unfold registered at hx
        split at hx
        · exact List.mem_cons_of_mem _ (ih x hx)
        · simp at hx
  have hfl : ∀ c ∈ flushes l, c ≠ [] ∧ Act.flush c ∈ l := by
    intro c hcm
    obtain ⟨a, ha, hac⟩ := List.mem_filterMap.1 hcm
    cases a with
    | register y => simp at hac
    | flush r =>
      dsimp only at hac
      split at hac
      · simp at hac
      · rename_i hr
        cases hac
        exact ⟨hr, ha⟩
  refine C63_trace_file_reads_back hA hs (by simp; omega) ?_ ?_
  · intro x hx
    refine hf x (hreg l x (List.mem_of_mem_take (i := 1024) ?_))
    simpa using hx
  · intro c hcm
    obtain ⟨h1, h2⟩ := hfl c hcm
    exact ⟨List.length_pos_iff.2 h1, hc c h2⟩

/-- The records in a file with the slot that each comes from. -/
def marked (content : List (Chunk ((Nat → UInt8) × Record))) : List (Nat × Record) :=
  (content.map fun c => c.records.map fun x => (c.slot, x.2)).flatten

theorem marked_records (content : List (Chunk ((Nat → UInt8) × Record))) :
    (marked content).map Prod.snd = ((content.map Chunk.records).map fun c => c.map Prod.snd).flatten := by
  unfold marked
  rw [List.map_flatten]
  simp only [List.map_map]
  congr 1
  refine List.map_congr_left fun c _ => ?_
  simp

theorem marked_slot (k : Nat) : ∀ content : List (Chunk ((Nat → UInt8) × Record)),
    ((marked content).filter fun x => x.1 == k).map Prod.snd = (recordsOf k content).map Prod.snd
  | [] => rfl
  | c :: content => by
    have ih := marked_slot k content
    unfold marked recordsOf at ih ⊢
    rw [List.map_cons, List.flatten_cons, List.filter_append, List.map_append, ih, List.filter_cons]
    by_cases h : c.slot = k
    · rw [if_pos (by simp [h]), List.map_cons, List.flatten_cons, List.map_append]
      congr 1
      rw [List.filter_eq_self.2 (by intro x hx; obtain ⟨y, _, rfl⟩ := List.mem_map.1 hx; simp [h]), List.map_map]
      rfl
    · rw [if_neg (by simp [h]), List.filter_eq_nil_iff.2 (by intro x hx; obtain ⟨y, _, rfl⟩ := List.mem_map.1 hx; simp [h])]
      rfl

/-- Programs of any number of threads, in any interleaving: when tracing has ended, the tools read the records of all
tracepoints, and those of each thread in the order in which it made them. -/
theorem C63_every_tracepoint_is_read {A : Abi} (hA : A.Usual) {start : Nat} (hs : start < 2 ^ 64) {table : List Object}
    (ht : table.length ≤ 1024) (hf : ∀ x ∈ table, x.Fits A) {number : Nat} {s : State ((Nat → UInt8) × Record)}
    (r : Reach 2048 True number true s) (running : s.stopped = false) (ok : Nat → Bool) (hok : ∀ k, ok k = true)
    (hfit : ∀ k, ∀ x ∈ s.written k, x.2.Fits A) :
    ∃ l : List (Nat × Record),
      A.read (A.file start table ((stop ok s).content.map Chunk.records)) = some (start, table, l.map Prod.snd, .done) ∧
      ∀ k ≤ s.number, (l.filter fun x => x.1 == k).map Prod.snd = (s.written k).map Prod.snd := by
  have hst := (inv_flushAll hok (s.number + 1) (inv_reach (by decide) r) running)
  have hinv : Inv 2048 (flushAll ok (s.number + 1) s) := hst.1
  have hcont : (stop ok s).content = (flushAll ok (s.number + 1) s).content := by unfold stop; simp [running]
  refine ⟨marked (stop ok s).content, ?_, fun k hk => ?_⟩
  · rw [marked_records]
    refine C63_trace_file_reads_back hA hs ht hf ?_
    intro c hc
    obtain ⟨c, hc', rfl⟩ := List.mem_map.1 hc
    clear hc
    rw [hcont] at hc'
    rename' hc' => hc
    refine ⟨(hinv.chunks c hc).1, (hinv.chunks c hc).2, fun x hx => ?_⟩
    have h1 : x ∈ recordsOf c.slot (flushAll ok (s.number + 1) s).content := by
      unfold recordsOf
      exact List.mem_flatten.2 ⟨_, List.mem_map.2 ⟨c, List.mem_filter.2 ⟨hc, by simp⟩, rfl⟩, hx⟩
    refine hfit c.slot x ?_
    rw [← hst.2.2.2.2.1, ← hinv.kept c.slot]
    exact List.mem_append_left _ h1
  · rw [marked_slot, (C49_complete_after_stop (by decide) r running ok hok k hk).1]

/-- The description that a tool shows for a pointer is the one under which it was registered first, and it shows none if there
is no such object. -/
theorem C63_lookup (table : List Object) (pointer : Nat) :
    (∀ before x after, table = before ++ x :: after → x.pointer = pointer → (∀ y ∈ before, y.pointer ≠ pointer) →
      getObjectDescription table pointer = (some x.description, before.length)) ∧
    ((∀ x ∈ table, x.pointer ≠ pointer) → (getObjectDescription table pointer).1 = none) := by
  constructor
  · rintro before x after rfl hx hb
    have h : (before ++ x :: after).findIdx? (fun x => decide (x.pointer = pointer)) = some before.length := by
      rw [List.findIdx?_append, List.findIdx?_eq_none_iff.2 (by intro y hy; simpa using hb y hy)]
      simp [List.findIdx?_cons, hx]
    unfold getObjectDescription
    rw [h]
    simp
  · intro h
    unfold getObjectDescription
    rw [List.findIdx?_eq_none_iff.2 (by intro y hy; simpa using h y hy)]

/-- The same for triggers: of the objects registered as triggers. -/
theorem C63_trigger_lookup (table : List Object) (trigger : Nat) :
    (∀ before x after, table = before ++ x :: after → x.trigger = trigger → x.type = 1 →
      (∀ y ∈ before, y.type = 1 → y.trigger ≠ trigger) →
      getTriggerName table trigger = (some x.description, before.length)) ∧
    ((∀ x ∈ table, x.type = 1 → x.trigger ≠ trigger) → (getTriggerName table trigger).1 = none) := by
  constructor
  · rintro before x after rfl hx h1 hb
    have h : (before ++ x :: after).findIdx? (fun x => decide (x.trigger = trigger) && decide (x.type = 1)) =
        some before.length := by
      rw [List.findIdx?_append, List.findIdx?_eq_none_iff.2 (by
        intro y hy
        have := hb y hy
        by_cases h : y.type = 1
        · simp [h, this h]
        · simp [h])]
      simp [List.findIdx?_cons, hx, h1]
    unfold getTriggerName
    rw [h]
    simp
  · intro h
    unfold getTriggerName
    rw [List.findIdx?_eq_none_iff.2 (by
      intro y hy
      have := h y hy
      by_cases h : y.type = 1
      · simp [h, this h]
      · simp [h])]

/-! ## Examples -/

/-- x86-64 and most others. -/
def lp64 : Abi := ⟨8, 8, false⟩

example : lp64.Usual ∧ (⟨4, 8, false⟩ : Abi).Usual ∧ sizeOf lp64.record = 64 ∧ sizeOf (⟨4, 8, false⟩ : Abi).record = 56 := by
  refine ⟨⟨.inr rfl, rfl, rfl⟩, ⟨.inl rfl, rfl, rfl⟩, by decide +kernel, by decide +kernel⟩

def sample : Record := ⟨3, 0x7ffe00001000, 1, 0xffffffff, 1700000000000000000, 2, 1700000000000000123, 0, 0⟩
def other : Record := ⟨14, 0x7ffe00002000, 0, 1, 1700000000000000005, 0, 1700000000000000456, 0x55, 7⟩
def named : Object := ⟨0x7ffe00001000, 0, 0, [77, 97, 105, 110]⟩
def late : Object := ⟨0x7ffe00002000, 0x55, 1, [116]⟩

instance (A : Abi) (r : Record) : Decidable (r.Fits A) := by unfold Record.Fits; infer_instance
instance (A : Abi) (x : Object) : Decidable (x.Fits A) := by unfold Object.Fits; infer_instance

example : sample.Fits lp64 ∧ other.Fits lp64 ∧ named.Fits lp64 ∧ late.Fits lp64 := by decide +kernel

/-- A program that registers two objects, flushes and registers another object. -/
def session : List Act :=
  [.register named, .flush [], .register late, .flush [(fun _ => 0xaa, sample)], .flush [(fun i => UInt8.ofNat i, other),
    (fun _ => 0, sample)]]

example : flushes session ≠ [] ∧ registered session = [named, late] ∧
    lp64.read (Writer.run lp64 1700000000000000000 session).bytes =
      some (1700000000000000000, [named, late], [sample, other, sample], .done) := by
  refine ⟨by simp [session, flushes], rfl, by decide +kernel⟩

/-- The file of the session cut off in the middle of the second flush. -/
example : lp64.read ((Writer.run lp64 5 session).bytes.take 200) = some (5, [named, late], [sample], .failure) ∧
    lp64.read ((Writer.run lp64 5 session).bytes.take 30) = none := by decide +kernel

example : getObjectDescription [late, named] 0x7ffe00001000 = (some [77, 97, 105, 110], 1) ∧
    getTriggerName [named, late] 0x55 = (some [116], 1) := by decide +kernel

example : ∃ s : State ((Nat → UInt8) × Record), Reach 2048 True 2 true s ∧ s.stopped = false ∧
    s.written 1 = [(fun _ => 0, sample), (fun _ => 1, other)] :=
  ⟨_, tracepoint_reach (tracepoint_reach .start 1 true (fun _ => 0, sample) rfl (by simp [start]) (fun _ => rfl)) 1 true
    (fun _ => 1, other) rfl (by simp [tracepoint, append, flushIfFull, start]) (fun _ => rfl), rfl, rfl⟩

/-! ## Where it does not hold -/

/-- A program whose tracing ends before there is any record leaves an empty file, which the tools do not read. -/
theorem C63_no_record_no_header (A : Abi) (start : Nat) (l : List Act) (h : flushes l = []) :
    (Writer.run A start l).bytes = [] ∧ A.read [] = none := by
  unfold Writer.run
  rw [run_before A start l ⟨[], false, []⟩ rfl rfl (by simp), if_pos h]
  exact ⟨rfl, rfl⟩

/-- An object that is registered after the first flush is not in the file, although there are records that refer to it. -/
theorem C63_objects_registered_late_are_missing :
    lp64.read (Writer.run lp64 5 [.register named, .flush [(fun _ => 0, sample)], .register late,
      .flush [(fun _ => 0, other)]]).bytes = some (5, [named], [sample, other], .done) ∧
    (getObjectDescription [named] other.pointer).1 = none := by decide +kernel

/-- A lookup without success gives the index of the first object instead of -1. -/
theorem C63_lookup_without_success_gives_the_first_index :
    getObjectDescription [named] 77 = (none, 0) ∧ getTriggerName [named] 77 = (none, 0) := by decide +kernel

/-- With 64-bit numbers that are aligned to 4 bytes, as on 32-bit x86, the structs that the program and the tools use have
different sizes, and the tools read something else. -/
theorem C63_other_layouts_are_garbled : sizeOf (⟨4, 4, false⟩ : Abi).record = 48 ∧ sizeOf (⟨4, 4, false⟩ : Abi).recordNodeps = 52 ∧
    ∃ r r' : Record, r.Fits ⟨4, 4, false⟩ ∧ r'.Fits ⟨4, 4, false⟩ ∧ r.event = 3 ∧ r'.event = 14 ∧
      ((⟨4, 4, false⟩ : Abi).read ((⟨4, 4, false⟩ : Abi).file 5 [] [[(fun _ => 0xaa, r), (fun _ => 0xaa, r')]])).map
        (fun x => (x.2.2.1.map Record.event, x.2.2.2)) = some ([3, 0xaaaaaaaa], .done) := by
  refine ⟨by decide +kernel, by decide +kernel, ⟨3, 1, 0, 0, 5, 0, 6, 0, 0⟩, ⟨14, 1, 0, 0, 5, 0, 6, 0, 0⟩, ?_⟩
  decide +kernel

/-- With the most significant byte first and 8-byte `size_t`, the numbers of objects and of records that are written are 0. -/
theorem C63_big_endian_reads_nothing : ∀ start table chunks, start < 2 ^ 64 → table.length < 2 ^ 32 →
    (∀ c ∈ chunks, c.length < 2 ^ 32) →
    (⟨8, 8, true⟩ : Abi).readHeader ((⟨8, 8, true⟩ : Abi).file start table chunks) =
      some (start, [], ((⟨8, 8, true⟩ : Abi).file start table chunks).drop 12) := by
  intro start table chunks hs ht hc
  have h4 : ∀ n < 2 ^ 32, ((⟨8, 8, true⟩ : Abi).bytes 8 n).take 4 = [0, 0, 0, 0] := by
    intro n hn
    have e : n / 256 / 256 / 256 / 256 = 0 := by omega
    simp [Abi.bytes, little, e]
  unfold Abi.file Abi.header
  dsimp only
  rw [h4 _ ht]
  unfold Abi.readHeader
  simp only [List.append_assoc, Option.bind_eq_bind]
  have h8 := bytes_length ⟨8, 8, true⟩ 8 start
  rw [fread_append h8]
  simp only [Option.bind_some]
  rw [fread_append (n := 4) rfl]
  have hv := value_bytes ⟨8, 8, true⟩ (n := 8) (v := start) (by omega)
  rw [List.drop_append, show ([0, 0, 0, 0] : List UInt8) ++ _ = 0 :: 0 :: 0 :: 0 :: _ from rfl, h8,
    List.drop_eq_nil_of_le (by omega)]
  show some (_, [], _) = _
  rw [hv]
  rfl

/-- A description with more than 1023 characters is cut off, and what follows it in the file is misread: here the second object
is read as another one. -/
theorem C63_long_descriptions_garble : ∃ d : List UInt8, d.length = 1025 ∧ 0 ∉ d ∧
    ∃ x, (lp64.read (lp64.file 5 [⟨1, 0, 0, d⟩, named] [])).map (fun x => x.2.1) = some [⟨1, 0, 0, d.take 1023⟩, x] ∧
      x ≠ named := by
  refine ⟨List.replicate 1025 65, by decide +kernel, by decide +kernel, ⟨9222809087169790017, 0, 0, []⟩, ?_⟩
  decide +kernel

/-- A negative length in a file, which no program writes, makes the tools write outside of their buffer: it is compared as a
signed number with the capacity, and `fread` gets it as an unsigned one. -/
theorem C63_negative_length_overruns : lp64.read (lp64.file 5 [] [] ++ [0xff, 0xff, 0xff, 0xff, 1, 2, 3]) =
    some (5, [], [], .overrun) := by decide +kernel

end ReactorC.Trace.File
