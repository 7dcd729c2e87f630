import Verif.Wave.Model

/-!
# C89: what a waveform file is

Files with 16-bit linear PCM, as the description says that util/wave_file_reader.c refers to: a RIFF chunk with a format chunk, chunks of other kinds, and a data chunk.
-/

namespace ReactorC.Wave

/-- A chunk of another kind: its identifier, what is in it. -/
structure Chunk where
  id : List Byte
  body : List Byte

/-- A chunk in the file.  RIFF says that a byte follows a chunk of odd size, so that the next one has an even offset. -/
def Chunk.bytes (c : Chunk) : List Byte := c.id ++ le32 c.body.length ++ c.body ++ (if c.body.length % 2 = 1 then [0] else [])

/-- What a file has: the format, the chunks before the data, the samples, the rest. -/
structure File where
  size : Nat
  channels : Nat
  rate : Nat
  byteRate : Nat
  align : Nat
  bits : Nat
  chunks : List Chunk
  samples : List Nat
  rest : List Byte

def File.bytes (f : File) : List Byte :=
  riffId ++ le32 f.size ++ waveId ++ fmtId ++ le32 16 ++ le16 1 ++ le16 f.channels ++ le32 f.rate ++ le32 f.byteRate ++ le16 f.align ++ le16 f.bits ++
    (f.chunks.flatMap Chunk.bytes) ++ dataId ++ le32 (2 * f.samples.length) ++ f.samples.flatMap le16 ++ f.rest

/-- The file is in the format that is supported. -/
structure File.Ok (f : File) : Prop where
  channels : f.channels < 65536
  rate : f.rate = 44100
  bits : f.bits = 16
  samples : ∀ x ∈ f.samples, x < 65536
  number : f.samples.length < 2147483648
  chunks : ∀ c ∈ f.chunks, c.id.length = 4 ∧ c.id ≠ dataId ∧ c.body.length < 4294967296

end ReactorC.Wave
