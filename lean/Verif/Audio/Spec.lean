import Verif.Audio.Model

/-!
# C90: specification of the audio loop
-/

namespace ReactorC.Audio
variable {Vol : Type}

/-- A waveform that can be played: there is a channel, and a sample for each channel; the position fits in an `int`. -/
def Wave.Ok (w : Wave) : Prop := 1 ≤ w.channels ∧ w.channels ≤ w.length ∧ w.length < 2147483648

/-- How many frames of a waveform are played: all but the last one, or the only one (see `C90_last_frame_not_played`). -/
def frames (w : Wave) : Nat := max 1 ((w.length - 1) / w.channels)

/-- What call `p` has played so far: samples, with the positions in the waveform, in the order in which they were written. -/
def played (s : State Vol) (p : Nat) : List (Nat × Nat) := (s.out.log.filter fun e => e.1 = p).map (·.2)

/-- The executions on macOS in which all waveforms can be played; the audio loop was started with time `t0`. -/
inductive ReachMac (C : Config Vol) (t0 : Int) : State Vol → Prop
  | init : ReachMac C t0 (initial C t0)
  | callback {s} : ReachMac C t0 s → ReachMac C t0 (callbackMac C s)
  | play {s} {b : Nat} (w : Wave) (v : Vol) (t : Int) : ReachMac C t0 s → w.Ok → s.buf = some b → index s t < SIZE → ReachMac C t0 (play C s b w v t)
  | tick {s} {b : Nat} (v : Vol) (t : Int) : ReachMac C t0 s → s.buf = some b → index s t < SIZE → ReachMac C t0 (tick C s b v t)

/-- All executions on Linux. -/
inductive ReachLinux (C : Config Vol) (t0 : Int) : State Vol → Prop
  | init : ReachLinux C t0 (initial C t0)
  | step {s s'} : ReachLinux C t0 s → StepLinux C s s' → ReachLinux C t0 s'

end ReactorC.Audio
