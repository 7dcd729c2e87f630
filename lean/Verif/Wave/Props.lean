import Verif.Wave.Spec

/-!
# C89: waveform files are read
-/

namespace ReactorC.Wave

theorem getD_at (a l : List Byte) (i : Nat) : (a ++ l).getD (a.length + i) 0 = l.getD i 0 := by
  simp only [List.getD_eq_getElem?_getD]
  rw [List.getElem?_append_right (Nat.le_add_right _ _), Nat.add_sub_cancel_left]

theorem get16_le16 {n : Nat} (h : n < 65536) (a b : List Byte) : get16 (a ++ (le16 n ++ b)) a.length = n := by
  unfold get16
  rw [← Nat.add_zero a.length, getD_at, Nat.add_assoc, getD_at]
  have h0 : (le16 n ++ b).getD 0 0 = UInt8.ofNat n := rfl
  have h1 : (le16 n ++ b).getD (0 + 1) 0 = UInt8.ofNat (n / 256) := rfl
  rw [h0, h1, UInt8.toNat_ofNat', UInt8.toNat_ofNat']
  omega

theorem get32_le32 {n : Nat} (h : n < 4294967296) (a b : List Byte) : get32 (a ++ (le32 n ++ b)) a.length = n := by
  unfold get32 get16
  rw [← Nat.add_zero a.length]
  simp only [Nat.add_assoc, getD_at]
  have h0 : (le32 n ++ b).getD 0 0 = UInt8.ofNat n := rfl
  have h1 : (le32 n ++ b).getD (0 + 1) 0 = UInt8.ofNat (n / 256) := rfl
  have h2 : (le32 n ++ b).getD (0 + 2) 0 = UInt8.ofNat (n / 65536) := rfl
  have h3 : (le32 n ++ b).getD (0 + (2 + 1)) 0 = UInt8.ofNat (n / 16777216) := rfl
  rw [h0, h1, h2, h3, UInt8.toNat_ofNat', UInt8.toNat_ofNat', UInt8.toNat_ofNat', UInt8.toNat_ofNat']
  omega

theorem le32_length (n : Nat) : (le32 n).length = 4 := rfl
theorem le16_length (n : Nat) : (le16 n).length = 2 := rfl

theorem samples_read : ∀ (xs : List Nat), (∀ x ∈ xs, x < 65536) → ∀ rest : List Byte, samplesOf xs.length (xs.flatMap le16 ++ rest) = xs := by
  intro xs
  induction xs with
  | nil => intro _ _; rfl
  | cons x xs ih =>
    intro h rest
    rw [List.flatMap_cons, List.length_cons, List.append_assoc]
    show get16 (le16 x ++ (xs.flatMap le16 ++ rest)) 0 :: samplesOf xs.length ((le16 x ++ (xs.flatMap le16 ++ rest)).drop 2) = _
    have h0 := get16_le16 (h x (List.mem_cons_self ..)) [] (xs.flatMap le16 ++ rest)
    rw [List.nil_append, List.length_nil] at h0
    rw [h0, List.drop_left' (le16_length x), ih (fun y hy => h y (List.mem_cons_of_mem _ hy))]

theorem flat16_length (xs : List Nat) : (xs.flatMap le16).length = 2 * xs.length := by
  induction xs with
  | nil => rfl
  | cons x xs ih => rw [List.flatMap_cons, List.length_append, ih, le16_length, List.length_cons]; omega

/-- The chunks of other kinds are skipped. -/
theorem skip_chunks (stack n : Nat) (hn : n < 4294967296) (tail : List Byte) : ∀ (cs : List Chunk) (fuel : Nat), cs.length < fuel →
    (∀ c ∈ cs, c.id.length = 4 ∧ c.id ≠ dataId ∧ c.body.length < 4294967296) → (∀ c ∈ cs, c.body.length % 2 = 0 ∧ 0 < c.body.length ∧ c.body.length ≤ stack) →
    ∀ all : List Byte, all = cs.flatMap Chunk.bytes ++ (dataId ++ (le32 n ++ tail)) →
    skip stack fuel (all.take 8) (all.drop 8) = some (dataId ++ le32 n, tail) := by
  intro cs
  induction cs with
  | nil =>
    intro fuel hf _ _ all ha
    cases fuel with
    | zero => simp at hf
    | succ fuel =>
      subst ha
      have h1 : (List.flatMap Chunk.bytes [] ++ (dataId ++ (le32 n ++ tail))).take 8 = dataId ++ le32 n := rfl
      have h2 : (List.flatMap Chunk.bytes [] ++ (dataId ++ (le32 n ++ tail))).drop 8 = tail := rfl
      rw [h1, h2]
      unfold skip
      rw [if_pos (by rfl)]
  | cons c cs ih =>
    intro fuel hf hc he all ha
    cases fuel with
    | zero => simp at hf
    | succ fuel =>
      obtain ⟨c1, c2, c3⟩ := hc c (List.mem_cons_self ..)
      obtain ⟨e1, e2, e3⟩ := he c (List.mem_cons_self ..)
      generalize hB : cs.flatMap Chunk.bytes ++ (dataId ++ (le32 n ++ tail)) = B
      have hall : all = c.id ++ (le32 c.body.length ++ (c.body ++ B)) := by
        rw [ha, List.flatMap_cons, List.append_assoc, hB]
        unfold Chunk.bytes
        rw [if_neg (by omega)]
        simp only [List.append_assoc, List.nil_append]
      have h8 : (c.id ++ le32 c.body.length).length = 8 := by rw [List.length_append, c1, le32_length]
      have ht : all.take 8 = c.id ++ le32 c.body.length := by
        rw [hall, ← List.append_assoc, List.take_left' h8]
      have hd : all.drop 8 = c.body ++ B := by
        rw [hall, ← List.append_assoc, List.drop_left' h8]
      rw [ht, hd]
      have hBl : 8 ≤ B.length := by
        rw [← hB]
        simp only [List.length_append, le32_length]
        have : dataId.length = 4 := rfl
        omega
      have hs : get32 (c.id ++ le32 c.body.length) 4 = c.body.length := by
        have := get32_le32 c3 c.id []
        rw [List.append_nil, c1] at this
        exact this
      unfold skip
      rw [if_neg (by rw [List.take_left' c1]; exact c2)]
      dsimp only
      rw [hs, if_neg (by omega), if_neg (by rw [List.length_append]; omega), List.drop_left, if_neg (by omega)]
      unfold fread
      dsimp only
      have hl : (List.take 8 B).length = 8 := by rw [List.length_take]; omega
      rw [List.take_left' hl]
      exact ih fuel (by rw [List.length_cons] at hf; omega) (fun d hd => hc d (List.mem_cons_of_mem _ hd)) (fun d hd => he d (List.mem_cons_of_mem _ hd)) B hB.symm

theorem chunks_length (cs : List Chunk) (h : ∀ c ∈ cs, c.id.length = 4) : cs.length ≤ (cs.flatMap Chunk.bytes).length := by
  induction cs with
  | nil => simp
  | cons c cs ih =>
    rw [List.flatMap_cons, List.length_append, List.length_cons]
    have := ih fun d hd => h d (List.mem_cons_of_mem _ hd)
    have h4 := h c (List.mem_cons_self ..)
    have h5 : c.id.length ≤ c.bytes.length := by
      unfold Chunk.bytes
      simp only [List.length_append]
      omega
    omega

theorem get16_append (a b : List Byte) (i : Nat) (h : i + 2 ≤ a.length) : get16 (a ++ b) i = get16 a i := by
  unfold get16
  simp only [List.getD_eq_getElem?_getD]
  rw [List.getElem?_append_left (by omega), List.getElem?_append_left (by omega)]

/-- The file up to the samples. -/
def File.head (f : File) : List Byte :=
  riffId ++ le32 f.size ++ waveId ++ fmtId ++ le32 16 ++ le16 1 ++ le16 f.channels ++ le32 f.rate ++ le32 f.byteRate ++ le16 f.align ++ le16 f.bits ++
    (f.chunks.flatMap Chunk.bytes) ++ dataId ++ le32 (2 * f.samples.length)

theorem read_head (stack : Nat) (mem : List Byte) (f : File) (hf : f.Ok)
    (he : ∀ c ∈ f.chunks, c.body.length % 2 = 0 ∧ 0 < c.body.length ∧ c.body.length ≤ stack) (T : List Byte) :
    readOpen stack mem (f.head ++ T) = .ok ⟨f.samples.length, f.channels, samplesOf f.samples.length (T.take (2 * f.samples.length))⟩ false := by
  obtain ⟨hch, hr, hb, _, hn, hc⟩ := hf
  generalize hA : f.chunks.flatMap Chunk.bytes ++ (dataId ++ (le32 (2 * f.samples.length) ++ T)) = A
  generalize hH : riffId ++ le32 f.size ++ waveId ++ fmtId ++ le32 16 ++ le16 1 ++ le16 f.channels ++ le32 f.rate ++ le32 f.byteRate ++ le16 f.align ++ le16 f.bits = H
  have hHl : H.length = 36 := by rw [← hH]; rfl
  have hbytes : f.head ++ T = H ++ A := by
    unfold File.head
    rw [← hA, ← hH]
    simp only [List.append_assoc]
  have hAl : 8 ≤ A.length := by
    rw [← hA]
    simp only [List.length_append, le32_length]
    have : dataId.length = 4 := rfl
    omega
  have hwav : (fread 44 (f.head ++ T) mem).1 = H ++ A.take 8 := by
    unfold fread
    dsimp only
    have h1 : (f.head ++ T).take 44 = H ++ A.take 8 := by
      rw [hbytes, List.take_append, hHl, List.take_of_length_le (by omega)]
    rw [h1, List.take_left' (by rw [List.length_append, List.length_take]; omega)]
  have hfuel : f.chunks.length < (f.head ++ T).length + 1 := by
    have := chunks_length f.chunks fun c hc' => (hc c hc').1
    rw [hbytes, List.length_append, ← hA, List.length_append]
    omega
  have hdrop : (f.head ++ T).drop 44 = A.drop 8 := by
    rw [hbytes, List.drop_append, hHl, List.drop_eq_nil_of_le (by omega), List.nil_append]
  have hsk := skip_chunks stack (2 * f.samples.length) (by omega) T f.chunks ((f.head ++ T).length + 1) hfuel hc he A hA.symm
  unfold readOpen
  dsimp only
  rw [hwav, List.drop_left' hHl, hdrop, hsk]
  dsimp only
  have hsz : get32 (dataId ++ le32 (2 * f.samples.length)) 4 = 2 * f.samples.length := by
    have := get32_le32 (n := 2 * f.samples.length) (by omega) dataId []
    rw [List.append_nil] at this
    exact this
  have hchan : get16 (H ++ A.take 8) 22 = f.channels := by
    rw [get16_append _ _ _ (by omega), ← hH]
    have := get16_le16 hch (riffId ++ le32 f.size ++ waveId ++ fmtId ++ le32 16 ++ le16 1) (le32 f.rate ++ le32 f.byteRate ++ le16 f.align ++ le16 f.bits)
    simp only [List.append_assoc] at this ⊢
    exact this
  have hsup : supported (H ++ A.take 8) = true := by
    have hx : H ++ A.take 8 = riffId ++ le32 f.size ++ waveId ++ fmtId ++ le32 16 ++ le16 1 ++ le16 f.channels ++ le32 44100 ++ le32 f.byteRate ++ le16 f.align ++ le16 16 ++ A.take 8 := by
      rw [← hH, hr, hb]
    have g1 := get32_le32 (n := 16) (by omega) (riffId ++ le32 f.size ++ waveId ++ fmtId) (le16 1 ++ le16 f.channels ++ le32 44100 ++ le32 f.byteRate ++ le16 f.align ++ le16 16 ++ A.take 8)
    have g2 := get16_le16 (n := 1) (by omega) (riffId ++ le32 f.size ++ waveId ++ fmtId ++ le32 16) (le16 f.channels ++ le32 44100 ++ le32 f.byteRate ++ le16 f.align ++ le16 16 ++ A.take 8)
    have g3 := get32_le32 (n := 44100) (by omega) (riffId ++ le32 f.size ++ waveId ++ fmtId ++ le32 16 ++ le16 1 ++ le16 f.channels) (le32 f.byteRate ++ le16 f.align ++ le16 16 ++ A.take 8)
    have g4 := get16_le16 (n := 16) (by omega) (riffId ++ le32 f.size ++ waveId ++ fmtId ++ le32 16 ++ le16 1 ++ le16 f.channels ++ le32 44100 ++ le32 f.byteRate ++ le16 f.align) (A.take 8)
    have l1 : (riffId ++ le32 f.size ++ waveId ++ fmtId).length = 16 := rfl
    have l2 : (riffId ++ le32 f.size ++ waveId ++ fmtId ++ le32 16).length = 20 := rfl
    have l3 : (riffId ++ le32 f.size ++ waveId ++ fmtId ++ le32 16 ++ le16 1 ++ le16 f.channels).length = 24 := rfl
    have l4 : (riffId ++ le32 f.size ++ waveId ++ fmtId ++ le32 16 ++ le16 1 ++ le16 f.channels ++ le32 44100 ++ le32 f.byteRate ++ le16 f.align).length = 34 := rfl
    rw [l1] at g1
    rw [l2] at g2
    rw [l3] at g3
    rw [l4] at g4
    have t1 : (H ++ A.take 8).take 4 = riffId := by rw [hx]; simp only [List.append_assoc]; rfl
    have t2 : ((H ++ A.take 8).drop 8).take 4 = waveId := by rw [hx]; simp only [List.append_assoc]; rfl
    have t3 : ((H ++ A.take 8).drop 12).take 4 = fmtId := by rw [hx]; simp only [List.append_assoc]; rfl
    unfold supported
    rw [t1, t2, t3, hx]
    simp only [List.append_assoc] at g1 g2 g3 g4 ⊢
    rw [g1, g2, g3, g4]
    rfl
  rw [hsz, Nat.mul_div_cancel_left _ (by omega), hchan, hsup]
  rfl

/-- C89.  A file in the supported format is read as it is: the samples, their number, the number of channels, without a warning; whatever chunks come before the data, if none is empty, of odd size or
larger than the stack. -/
theorem C89_files_are_read_partial (stack : Nat) (mem : List Byte) (f : File) (hf : f.Ok)
    (he : ∀ c ∈ f.chunks, c.body.length % 2 = 0 ∧ 0 < c.body.length ∧ c.body.length ≤ stack) :
    readOpen stack mem f.bytes = .ok ⟨f.samples.length, f.channels, f.samples⟩ false := by
  have hb : f.bytes = f.head ++ (f.samples.flatMap le16 ++ f.rest) := by
    unfold File.bytes File.head
    simp only [List.append_assoc]
  rw [hb, read_head stack mem f hf he, List.take_left' (flat16_length _)]
  have := samples_read f.samples hf.samples []
  rw [List.append_nil] at this
  rw [this]

theorem samplesOf_nil (n : Nat) : samplesOf n [] = List.replicate n 0 := by
  induction n with
  | zero => rfl
  | succ n ih =>
    show get16 [] 0 :: samplesOf n [] = _
    rw [ih]
    rfl

theorem samples_some : ∀ (xs : List Nat), (∀ x ∈ xs, x < 65536) → ∀ n, xs.length ≤ n → samplesOf n (xs.flatMap le16) = xs ++ List.replicate (n - xs.length) 0 := by
  intro xs
  induction xs with
  | nil => intro _ n _; exact samplesOf_nil n
  | cons x xs ih =>
    intro h n hn
    rw [List.length_cons] at hn
    obtain ⟨n, rfl⟩ : ∃ m, n = m + 1 := ⟨n - 1, by omega⟩
    rw [List.flatMap_cons]
    show get16 (le16 x ++ xs.flatMap le16) 0 :: samplesOf n ((le16 x ++ xs.flatMap le16).drop 2) = _
    have h0 := get16_le16 (h x (List.mem_cons_self ..)) [] (xs.flatMap le16)
    rw [List.nil_append, List.length_nil] at h0
    rw [h0, List.drop_left' (le16_length x), ih (fun y hy => h y (List.mem_cons_of_mem _ hy)) n (by omega), List.length_cons, Nat.add_sub_add_right]
    rfl

/-- C89.  If the file ends after `k` samples, these are read, and the missing ones are 0; the length is what the file has announced. -/
theorem C89_missing_samples_are_zero_partial (stack : Nat) (mem : List Byte) (f : File) (hf : f.Ok)
    (he : ∀ c ∈ f.chunks, c.body.length % 2 = 0 ∧ 0 < c.body.length ∧ c.body.length ≤ stack) {k : Nat} (hk : k ≤ f.samples.length) :
    readOpen stack mem (f.head ++ (f.samples.take k).flatMap le16) =
      .ok ⟨f.samples.length, f.channels, f.samples.take k ++ List.replicate (f.samples.length - k) 0⟩ false := by
  have hl : (f.samples.take k).length = k := by rw [List.length_take]; omega
  rw [read_head stack mem f hf he, List.take_of_length_le (by rw [flat16_length, hl]; omega),
    samples_some _ (fun x hx => hf.samples x (List.mem_of_mem_take hx)) _ (by omega), hl]

theorem samplesOf_length (n : Nat) : ∀ l, (samplesOf n l).length = n := by
  induction n with
  | zero => intro l; rfl
  | succ n ih => intro l; show (_ :: samplesOf n (l.drop 2)).length = _; rw [List.length_cons, ih]

/-- C89.  Whatever is in the file, there are as many samples in memory as the result says. -/
theorem C89_length_is_that_of_the_memory (stack : Nat) (mem file : List Byte) {w : Waveform} {b : Bool} (h : readOpen stack mem file = .ok w b) : w.samples.length = w.length := by
  unfold readOpen at h
  dsimp only at h
  split at h
  · cases h
  · cases h
    exact samplesOf_length _ _

/-- C89.  A file is looked for at its path and then in src-gen; if it is at neither, the result is NULL. -/
theorem C89_where_files_are_looked_for (stack : Nat) (mem : List Byte) (w : World) (path : List Char) (hw : w.opened < w.limit) :
    (read_wave_file stack mem w path).1 = match w.files path, w.files ("src-gen/".toList ++ path) with
      | some f, _ => readOpen stack mem f
      | none, some f => readOpen stack mem f
      | none, none => .null := by
  unfold read_wave_file fopen
  cases h1 : w.files path with
  | some f => simp only [if_pos hw]
  | none =>
    dsimp only
    cases h2 : w.files ("src-gen/".toList ++ path) with
    | some f => simp only [if_pos hw]
    | none => rfl

/-! ### Where the code does not do what the header file says -/

/-- C89.  The result is NULL only if the file cannot be opened: unsupported formats are not refused. -/
theorem C89_null_not_for_unsupported_formats (stack : Nat) (mem file : List Byte) : readOpen stack mem file ≠ .null := by
  unfold readOpen
  dsimp only
  split <;> simp

/-- A file with 8 bits per sample, 8000 samples per second: the result is twice two of its samples. -/
def eightBit : File := ⟨40, 1, 8000, 8000, 1, 8, [], [0x8180, 0x8382], []⟩

/-- C89.  So the bytes of a file with 8-bit samples are returned as if they were 16-bit samples. -/
theorem C89_unsupported_formats_not_refused : eightBit.bits = 8 ∧ readOpen 8000000 [] eightBit.bytes = .ok ⟨2, 1, [0x8180, 0x8382]⟩ true := by
  decide +kernel

/-- C89.  What the result is for an empty file depends on what was in memory before. -/
theorem C89_empty_files_not_refused (n ch : Nat) (hn : n < 2147483648) (hc : ch < 65536) : ∃ mem, ∀ stack, readOpen stack mem [] = .ok ⟨n, ch, List.replicate n 0⟩ true := by
  refine ⟨List.replicate 22 0 ++ (le16 ch ++ (List.replicate 12 0 ++ (dataId ++ le32 (2 * n)))), fun stack => ?_⟩
  have hl : (List.replicate 22 (0 : Byte) ++ (le16 ch ++ (List.replicate 12 0 ++ (dataId ++ le32 (2 * n))))).length = 44 := rfl
  have hw : (fread 44 [] (List.replicate 22 0 ++ (le16 ch ++ (List.replicate 12 0 ++ (dataId ++ le32 (2 * n)))))).1 =
      List.replicate 22 0 ++ (le16 ch ++ (List.replicate 12 0 ++ (dataId ++ le32 (2 * n)))) := by
    unfold fread
    dsimp only
    rw [List.take_nil, List.length_nil, List.drop_zero, List.nil_append, List.take_of_length_le (by omega)]
  have hd : (List.replicate 22 (0 : Byte) ++ (le16 ch ++ (List.replicate 12 0 ++ (dataId ++ le32 (2 * n))))).drop 36 = dataId ++ le32 (2 * n) := rfl
  have hsz : get32 (dataId ++ le32 (2 * n)) 4 = 2 * n := by
    have := get32_le32 (n := 2 * n) (by omega) dataId []
    rw [List.append_nil] at this
    exact this
  have hch := get16_le16 hc (List.replicate 22 0) (List.replicate 12 0 ++ (dataId ++ le32 (2 * n)))
  rw [List.length_replicate] at hch
  have hsup : supported (List.replicate 22 0 ++ (le16 ch ++ (List.replicate 12 0 ++ (dataId ++ le32 (2 * n))))) = false := by
    unfold supported
    rw [decide_eq_false (p := List.take 4 _ = riffId)]
    · rfl
    · intro h
      have : (List.replicate 22 (0 : Byte) ++ (le16 ch ++ (List.replicate 12 0 ++ (dataId ++ le32 (2 * n))))).take 4 = [0, 0, 0, 0] := rfl
      rw [this] at h
      revert h
      decide
  unfold readOpen
  dsimp only
  rw [hw, hd, List.drop_nil]
  unfold skip
  rw [if_pos (by rfl)]
  dsimp only
  rw [hsz, Nat.mul_div_cancel_left _ (by omega), hch, hsup, List.take_nil, samplesOf_nil]
  rfl

/-- Two samples after a chunk of one byte, and after one of two. -/
def odd : File := ⟨60, 2, 44100, 176400, 4, 16, [⟨[76, 73, 83, 84], [1]⟩], [7, 8], []⟩
def even : File := ⟨60, 2, 44100, 176400, 4, 16, [⟨[76, 73, 83, 84], [1, 2]⟩], [7, 8], []⟩

/-- C89.  The byte after a chunk of odd size is not skipped: such a file, although it is in the supported format, is not read; the result is 560 zeros. -/
theorem C89_chunks_of_odd_size_not_skipped : odd.Ok ∧ readOpen 8000000 [] odd.bytes = .ok ⟨560, 2, List.replicate 560 0⟩ false ∧ odd.samples = [7, 8] := by
  refine ⟨⟨by decide, rfl, rfl, by decide, by decide, by decide⟩, by decide +kernel, rfl⟩

/-- C89.  An empty chunk, and one that is larger than the stack, are undefined behaviour. -/
theorem C89_chunks_not_safe (stack : Nat) (mem rest : List Byte) (H id : List Byte) (size : Nat) (hH : H.length = 36) (hid : id.length = 4) (hd : id ≠ dataId)
    (hs : size < 4294967296) (hz : size = 0 ∨ stack < size) : readOpen stack mem (H ++ (id ++ (le32 size ++ rest))) = .undefined := by
  have h8 : (H ++ (id ++ le32 size)).length = 44 := by simp only [List.length_append, le32_length]; omega
  have e : H ++ (id ++ (le32 size ++ rest)) = (H ++ (id ++ le32 size)) ++ rest := by simp only [List.append_assoc]
  have hw : (fread 44 (H ++ (id ++ (le32 size ++ rest))) mem).1 = H ++ (id ++ le32 size) := by
    unfold fread
    dsimp only
    rw [e, List.take_left' h8, List.take_left' h8]
  have hsz : get32 (id ++ le32 size) 4 = size := by
    have := get32_le32 hs id []
    rw [List.append_nil, hid] at this
    exact this
  unfold readOpen
  dsimp only
  rw [hw, List.drop_left' hH]
  unfold skip
  rw [if_neg (by rw [List.take_left' hid]; exact hd)]
  dsimp only
  rw [hsz, if_pos hz]

/-- C89.  A file without data is not refused: the result has as many zeros as fit in the last chunk. -/
theorem C89_files_without_data_not_refused : readOpen 8000000 [] ({ even with samples := [] }.bytes.take 46) = .ok ⟨1, 2, [0]⟩ false := by decide +kernel

/-- C89.  The number of samples is not always a multiple of the number of channels. -/
theorem C89_length_not_a_multiple : readOpen 8000000 [] { even with samples := [1, 2, 3] }.bytes = .ok ⟨3, 2, [1, 2, 3]⟩ false := by decide +kernel

/-- Reading the same file again and again. -/
def again (stack : Nat) (mem : List Byte) (path : List Char) : Nat → World → World
  | 0, w => w
  | n + 1, w => again stack mem path n (read_wave_file stack mem w path).2

/-- C89.  The file is never closed: after as many calls as files may be open at a time, each further call returns NULL. -/
theorem C89_files_not_closed (stack : Nat) (mem : List Byte) (path : List Char) (f : List Byte) : ∀ (k : Nat) (w : World), w.files path = some f → w.opened + k = w.limit →
    ∀ n, (n < k → (read_wave_file stack mem (again stack mem path n w) path).1 = readOpen stack mem f) ∧
      (k ≤ n → (read_wave_file stack mem (again stack mem path n w) path).1 = .null) := by
  intro k
  induction k with
  | zero =>
    intro w hf hl n
    have h1 : ∀ p, fopen w p = (none, w) := by
      intro p
      unfold fopen
      cases w.files p with
      | none => rfl
      | some f => simp only [if_neg (show ¬ w.opened < w.limit by omega)]
    have h2 : read_wave_file stack mem w path = (.null, w) := by
      unfold read_wave_file
      simp only [h1]
    have h3 : ∀ n, again stack mem path n w = w := by
      intro n
      induction n with
      | zero => rfl
      | succ n ih => show again stack mem path n (read_wave_file stack mem w path).2 = w; rw [h2]; exact ih
    exact ⟨fun h => absurd h (Nat.not_lt_zero n), fun _ => by rw [h3, h2]⟩
  | succ k ih =>
    intro w hf hl n
    have h1 : read_wave_file stack mem w path = (readOpen stack mem f, { w with opened := w.opened + 1 }) := by
      unfold read_wave_file fopen
      simp only [hf, if_pos (show w.opened < w.limit by omega)]
    cases n with
    | zero => exact ⟨fun _ => by show (read_wave_file stack mem w path).1 = _; rw [h1], fun h => absurd h (by omega)⟩
    | succ n =>
      have h2 : again stack mem path (n + 1) w = again stack mem path n { w with opened := w.opened + 1 } := by
        show again stack mem path n (read_wave_file stack mem w path).2 = _
        rw [h1]
      have h3 := ih { w with opened := w.opened + 1 } hf (by show w.opened + 1 + k = w.limit; omega) n
      rw [h2]
      exact ⟨fun h => h3.1 (by omega), fun h => h3.2 (by omega)⟩

/-- A stereo file with a chunk before the data is in order, and is read. -/
example : even.Ok ∧ (∀ c ∈ even.chunks, c.body.length % 2 = 0 ∧ 0 < c.body.length ∧ c.body.length ≤ 8000000) ∧
    readOpen 8000000 [] even.bytes = .ok ⟨2, 2, [7, 8]⟩ false ∧ readOpen 8000000 [] (even.head ++ [7, 0]) = .ok ⟨2, 2, [7, 0]⟩ false := by
  have h1 : even.Ok := ⟨by decide, rfl, rfl, by decide, by decide, by decide⟩
  have h2 : ∀ c ∈ even.chunks, c.body.length % 2 = 0 ∧ 0 < c.body.length ∧ c.body.length ≤ 8000000 := by decide
  exact ⟨h1, h2, C89_files_are_read_partial _ _ even h1 h2, C89_missing_samples_are_zero_partial 8000000 [] even h1 h2 (k := 1) (by decide)⟩

/-- The conditions of the other theorems. -/
example : (⟨fun p => if p = "a.wav".toList then some even.bytes else none, 20, 3⟩ : World).opened + 17 = 20 ∧
    ((List.replicate 36 0 : List Byte).length = 36 ∧ ([76, 73, 83, 84] : List Byte).length = 4 ∧ ([76, 73, 83, 84] : List Byte) ≠ dataId) := by decide

end ReactorC.Wave
