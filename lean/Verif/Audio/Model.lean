import Mathlib.Data.List.Basic

/-!
# The audio loop

Models util/audio_loop_mac.c and util/audio_loop_linux.c: notes that are added to buffers, one buffer after the other, by `lf_play_audio_waveform` and by the callback of the audio system.
Samples have numbers: buffer `b` has the samples from `b * SIZE` on.  What the audio system does with a buffer is not modelled.  The part of `lf_play_audio_waveform` after its
waits and the callback are steps, as both hold the mutex; times are integers without bound (in the code, a time that is 58 hours ahead overflows).  The computation with floating-point numbers is any function.
-/

namespace ReactorC.Audio

/-- `AUDIO_BUFFER_SIZE`, `BUFFER_DURATION_NS`, `SAMPLE_RATE`, `MAX_AMPLITUDE`, util/audio_loop.h:44-49. -/
def SIZE : Nat := 4410
def DURATION : Int := 100000000
def RATE : Int := 44100
def MAX : Int := 32765

/-- `lf_waveform_t`, util/wave_file_reader.h:47-51. -/
structure Wave where
  length : Nat
  channels : Nat
  data : Nat → Int

/-- Computation with `double`: `mix x y v` is `x + y * v`, converted to `int`; whether a volume is 0.0, and 0.0. -/
structure Config (Vol : Type) where
  mix : Int → Int → Vol → Int
  silent : Vol → Bool
  zero : Vol
  zero_silent : silent zero = true

/-- `struct note`, util/audio_loop_linux.c:40-44; `play` is the number of the call of `lf_play_audio_waveform` that it belongs to. -/
structure Note (Vol : Type) where
  play : Nat
  wave : Option Wave
  pos : Nat
  vol : Vol

/-- What has been written: the samples; which call has written which sample from which position of its waveform, in order; whether memory outside of a waveform was read or a number was divided by 0. -/
structure Out where
  sound : Nat → Int
  log : List (Nat × Nat × Nat)
  fault : Bool

structure State (Vol : Type) where
  notes : Nat → Note Vol
  /-- `note_counter` -/
  counter : Nat
  /-- the calls with a waveform so far: what is to be played, and the sample at which it begins -/
  calls : List (Wave × Vol × Nat)
  /-- the number of the buffer that `next_buffer` points to; `none` for NULL -/
  buf : Option Nat
  /-- `next_buffer_start_time` -/
  start : Int
  out : Out
  /-- Linux: the buffer has been handed over -/
  delivered : Bool

def upd {α : Type} (f : Nat → α) (i : Nat) (v : α) : Nat → α := fun j => if j = i then v else f j

/-- The limits of `add_to_sound`, util/audio_loop_linux.c:62-70. -/
def clamp (x : Int) : Int := if x > MAX then MAX else if x < -MAX then -MAX else x

variable {Vol : Type}

/-- `add_to_sound`, util/audio_loop_linux.c:62-70. -/
def add (C : Config Vol) (sound : Nat → Int) (a : Nat) (x : Int) (v : Vol) : Nat → Int := upd sound a (clamp (C.mix (sound a) x v))

/-- The average of the channels, util/audio_loop_linux.c:102-107. -/
def average (w : Wave) (pos : Nat) : Int := (((List.range w.channels).map fun c => w.data (pos + c)).sum).tdiv w.channels

/-- `position >= length - num_channels`, in numbers of 32 bits without a sign, util/audio_loop_linux.c:111. -/
@[irreducible] def ended (w : Wave) (pos : Nat) : Bool := decide (pos % 4294967296 ≥ (w.length + 4294967296 - w.channels) % 4294967296)

/-- The loop that adds a note to a buffer, `k` samples from sample `a` on, util/audio_loop_linux.c:98-118, 350-366.  The result has the new position, or `none` at the end of the note. -/
def fill (C : Config Vol) (p : Nat) (w : Wave) (v : Vol) : Nat → Nat → Nat → Out → Out × Option Nat
  | 0, _, pos, o => (o, some pos)
  | k + 1, a, pos, o =>
    let o' : Out :=
      { sound := add C o.sound a (average w pos) v
        log := o.log ++ [(p, a, pos)]
        fault := o.fault || decide (w.channels = 0 ∨ w.length < pos + w.channels) }
    if ended w (pos + w.channels) then (o', none) else fill C p w v k (a + 1) (pos + w.channels) o'

/-- The callback adds what is left of the note in slot `j` to buffer `b`, util/audio_loop_linux.c:95-118. -/
def contSlot (C : Config Vol) (b : Nat) (s : State Vol) (j : Nat) : State Vol :=
  match (s.notes j).wave with
  | none => s
  | some w =>
    if C.silent (s.notes j).vol then s
    else
      let r := fill C (s.notes j).play w (s.notes j).vol SIZE (b * SIZE) (s.notes j).pos s.out
      { s with
        out := r.1
        notes := upd s.notes j (match r.2 with
          | none => ⟨(s.notes j).play, none, 0, C.zero⟩
          | some pos => { s.notes j with pos := pos }) }

/-- The loop over the notes, `NUM_NOTES` = 8, util/audio_loop_linux.c:94-119. -/
def contAll (C : Config Vol) (b : Nat) (s : State Vol) : State Vol := (List.range 8).foldl (contSlot C b) s

/-- The index in the buffer, util/audio_loop_linux.c:304-331; the call is late if the time is before that of the buffer. -/
def index (s : State Vol) (t : Int) : Nat := (max 0 (t - s.start) * RATE / 1000000000).toNat

/-- `lf_play_audio_waveform` (util/audio_loop_linux.c:336-370) after its waits, with buffer `b`, for a waveform; a waveform without samples leaves position and volume of the slot as they are. -/
def play (C : Config Vol) (s : State Vol) (b : Nat) (w : Wave) (v : Vol) (t : Int) : State Vol :=
  let i := index s t
  let j := s.counter
  let p := s.calls.length
  let s := { s with counter := if s.counter + 1 ≥ 8 then 0 else s.counter + 1, calls := s.calls ++ [(w, v, b * SIZE + i)] }
  if w.length > 0 then
    let r := fill C (p) w v (SIZE - i) (b * SIZE + i) 0 s.out
    { s with
      out := r.1
      notes := upd s.notes j (match r.2 with
        | none => ⟨p, some w, 0, C.zero⟩
        | some pos => ⟨p, some w, pos, v⟩) }
  else { s with notes := upd s.notes j { s.notes j with play := p, wave := some w } }

/-- The same without a waveform: a tick, util/audio_loop_linux.c:333-335. -/
def tick (C : Config Vol) (s : State Vol) (b : Nat) (v : Vol) (t : Int) : State Vol :=
  { s with out := { s.out with sound := add C s.out.sound (b * SIZE + index s t) MAX v } }

/-- The result of `lf_play_audio_waveform` if it has not waited: 1 if it is late, util/audio_loop_linux.c:306-311. -/
def late (s : State Vol) (t : Int) : Bool := decide (t < s.start)

/-- The number of the buffer after the current one. -/
def following : Option Nat → Nat
  | none => 0
  | some b => b + 1

/-- On macOS the callback clears a buffer, which becomes the next one, and adds what is left of the notes, util/audio_loop_mac.c:68-118. -/
def callbackMac (C : Config Vol) (s : State Vol) : State Vol :=
  let b := following s.buf
  contAll C b { s with buf := some b, start := s.start + DURATION }

/-- On Linux the callback adds what is left of the notes to the buffer into which the notes have been written, and hands it over, util/audio_loop_linux.c:81-132. -/
def callbackLinux (C : Config Vol) (s : State Vol) : State Vol :=
  let b := s.buf.getD 0
  { contAll C b { s with buf := some b, start := s.start + DURATION } with delivered := true }

/-- Then the next buffer is cleared and used, util/audio_loop_linux.c:254-261. -/
def advanceLinux (s : State Vol) : State Vol := { s with buf := s.buf.map (· + 1), delivered := false }

/-- `lf_start_audio_loop`, util/audio_loop_linux.c:272-292. -/
def initial (C : Config Vol) (t : Int) : State Vol :=
  { notes := fun _ => ⟨0, none, 0, C.zero⟩
    counter := 0
    calls := []
    buf := none
    start := t - 2 * DURATION
    out := ⟨fun _ => 0, [], false⟩
    delivered := false }

/-- On macOS. -/
inductive StepMac (C : Config Vol) : State Vol → State Vol → Prop
  | callback {s} : StepMac C s (callbackMac C s)
  | play {s} {b : Nat} (w : Wave) (v : Vol) (t : Int) : s.buf = some b → index s t < SIZE → StepMac C s (play C s b w v t)
  | tick {s} {b : Nat} (v : Vol) (t : Int) : s.buf = some b → index s t < SIZE → StepMac C s (tick C s b v t)

/-- On Linux. -/
inductive StepLinux (C : Config Vol) : State Vol → State Vol → Prop
  | callback {s} : s.delivered = false → StepLinux C s (callbackLinux C s)
  | advance {s} : s.delivered = true → StepLinux C s (advanceLinux s)
  | play {s} {b : Nat} (w : Wave) (v : Vol) (t : Int) : s.buf = some b → index s t < SIZE → StepLinux C s (play C s b w v t)
  | tick {s} {b : Nat} (v : Vol) (t : Int) : s.buf = some b → index s t < SIZE → StepLinux C s (tick C s b v t)

end ReactorC.Audio
