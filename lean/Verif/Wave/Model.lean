import Mathlib.Data.List.Basic

/-!
# The reader of waveform files

Models util/wave_file_reader.c on a little-endian machine where `int` has 32 bits and the structs of the header have no padding (44 bytes together).
Memory that the function does not initialize has any content (`mem`); an array on the stack that is larger than the stack (`stack` bytes), or has no element, is undefined
behaviour.  `calloc` and `malloc` are taken to succeed.
-/

namespace ReactorC.Wave

abbrev Byte := UInt8

/-- A number of 16 bits, little-endian. -/
def le16 (n : Nat) : List Byte := [UInt8.ofNat n, UInt8.ofNat (n / 256)]

/-- A number of 32 bits, little-endian. -/
def le32 (n : Nat) : List Byte := [UInt8.ofNat n, UInt8.ofNat (n / 256), UInt8.ofNat (n / 65536), UInt8.ofNat (n / 16777216)]

/-- The number of 16 bits at offset `i`. -/
def get16 (l : List Byte) (i : Nat) : Nat := (l.getD i 0).toNat + 256 * (l.getD (i + 1) 0).toNat

/-- The number of 32 bits at offset `i`. -/
def get32 (l : List Byte) (i : Nat) : Nat := get16 l i + 65536 * get16 l (i + 2)

/-- The characters `data`, and the others that the function compares with: on a little-endian machine the constants `'atad'`, `'FFIR'`, `'EVAW'` and `' tmf'`. -/
def dataId : List Byte := [100, 97, 116, 97]
def riffId : List Byte := [82, 73, 70, 70]
def waveId : List Byte := [87, 65, 86, 69]
def fmtId : List Byte := [102, 109, 116, 32]

/-- `fread(p, 1, n, fp)` into memory with content `mem`: what is there afterwards, what follows in the file. -/
def fread (n : Nat) (file mem : List Byte) : List Byte × List Byte :=
  ((file.take n ++ mem.drop (file.take n).length).take n, file.drop n)

/-- `lf_waveform_t`, util/wave_file_reader.h:47-51.  A sample is given by its 16 bits. -/
structure Waveform where
  length : Nat
  channels : Nat
  samples : List Nat
deriving DecidableEq, Repr

inductive Result
  | null
  | ok (w : Waveform) (warned : Bool)
  | undefined
deriving DecidableEq, Repr

/-- The loop that skips chunks, util/wave_file_reader.c:119-132.  The result is `data` and the rest of the file, or `none` if the behaviour is undefined.  `fuel` is more than the length of the file. -/
def skip (stack : Nat) : Nat → List Byte → List Byte → Option (List Byte × List Byte)
  | 0, data, file => some (data, file)
  | fuel + 1, data, file =>
    if data.take 4 = dataId then some (data, file)
    else
      let size := get32 data 4
      if size = 0 ∨ stack < size then none
      else if file.length < size then some (data, [])
      else
        let rest := file.drop size
        if rest.length < 8 then some ((fread 8 rest data).1, [])
        else skip stack fuel (fread 8 rest data).1 (fread 8 rest data).2

/-- The samples in an array of `n` elements that was cleared; an odd last byte is the low one. -/
def samplesOf : Nat → List Byte → List Nat
  | 0, _ => []
  | n + 1, l => get16 l 0 :: samplesOf n (l.drop 2)

/-- Whether there is no warning about the format, util/wave_file_reader.c:98-101. -/
def supported (wav : List Byte) : Bool :=
  decide (wav.take 4 = riffId) && decide ((wav.drop 8).take 4 = waveId) && decide ((wav.drop 12).take 4 = fmtId) &&
    decide (get32 wav 16 = 16) && decide (get16 wav 20 = 1) && decide (get32 wav 24 = 44100) && decide (get16 wav 34 = 16)

/-- `read_wave_file` after the file has been opened, util/wave_file_reader.c:88-151. -/
def readOpen (stack : Nat) (mem file : List Byte) : Result :=
  let wav := (fread 44 file mem).1
  match skip stack (file.length + 1) (wav.drop 36) (file.drop 44) with
  | none => .undefined
  | some (data, rest) =>
    .ok ⟨get32 data 4 / 2, get16 wav 22, samplesOf (get32 data 4 / 2) (rest.take (2 * (get32 data 4 / 2)))⟩
      (!supported wav)

/-- The files, by their paths, how many files may be open at the same time, and how many are. -/
structure World where
  files : List Char → Option (List Byte)
  limit : Nat
  opened : Nat

/-- `fopen` for reading. -/
def fopen (w : World) (path : List Char) : Option (List Byte) × World :=
  match w.files path with
  | none => (none, w)
  | some f => if w.opened < w.limit then (some f, { w with opened := w.opened + 1 }) else (none, w)

/-- `read_wave_file`, util/wave_file_reader.c:70-152.  No call of `fclose` is in it. -/
def read_wave_file (stack : Nat) (mem : List Byte) (w : World) (path : List Char) : Result × World :=
  match fopen w path with
  | (some f, w) => (readOpen stack mem f, w)
  | (none, w) =>
    match fopen w ("src-gen/".toList ++ path) with
    | (some f, w) => (readOpen stack mem f, w)
    | (none, w) => (.null, w)

end ReactorC.Wave
