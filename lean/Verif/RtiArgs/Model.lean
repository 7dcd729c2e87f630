import Verif.Args.Model

/-!
# The command line of the RTI

Models `process_args` and `process_clock_sync_args` of core/federated/RTI/main.c.  Strings are lists of characters (without the terminating
zero), and the arguments that have not been looked at are a list: `argc < i + 2` says that there is no other one after
the current one.  What is printed is left out.
-/

namespace ReactorC.RtiArgs
open ReactorC.Args (Str isSpace digits atoll)

/-- `clock_sync_stat`, core/federated/RTI/rti_remote.h:27. -/
inductive Sync
  | off
  | init
  | on
deriving DecidableEq, Repr

/-- The parameters that are set: `federation_id`, `number_of_scheduling_nodes` (`int32_t`, core/federated/RTI/rti_common.h:79),
`user_specified_port`, `clock_sync_global_status`, `clock_sync_period_ns` (`uint64_t`), `clock_sync_exchanges_per_interval`
(`int32_t`), core/federated/RTI/rti_remote.h:120-160, `authentication_enabled` and `tracing_enabled`. -/
structure Settings where
  federation : Str
  number : Int
  port : Nat
  sync : Sync
  period : Nat
  exchanges : Int
  auth : Bool
  tracing : Bool
deriving DecidableEq, Repr

/-- How the RTI is built: `__RTI_AUTH__` and the number of bits of `long`. -/
structure Build where
  auth : Bool
  long : Nat

/-- `initialize_RTI`, core/federated/RTI/rti_remote.c:1726-1741; the number of federates is 0, core/federated/RTI/rti_common.c:25-32. -/
def defaults : Settings where
  federation := "Unidentified Federation".toList
  number := 0
  port := 0
  sync := .init
  period := 10000000
  exchanges := 10
  auth := false
  tracing := false

/-- The greatest number of `bits` bits with a sign (`LONG_MAX`, `LLONG_MAX`). -/
def most (bits : Nat) : Int := 2 ^ (bits - 1) - 1

def least (bits : Nat) : Int := - 2 ^ (bits - 1)

/-- The C library's `strtol` and `strtoll` with base 10: what is out of range is replaced by the greatest or least number. -/
def strtol (bits : Nat) (s : Str) : Int := max (least bits) (min (most bits) (atoll s))

/-- The C library's `strtoul` with base 10: a minus sign is accepted, and the number is taken modulo `2 ^ bits`; what is out of range is replaced by the
greatest number. -/
def strtoul (bits : Nat) (s : Str) : Nat :=
  if (atoll s).natAbs < 2 ^ bits then (atoll s % 2 ^ bits).toNat else 2 ^ bits - 1

/-- Conversion to `int32_t`. -/
def toInt32 (x : Int) : Int := (x + 2147483648) % 4294967296 - 2147483648

/-- `process_clock_sync_args`, core/federated/RTI/main.c:147-206: the settings, and the arguments from the first one that it does not know. -/
def clockArgs (b : Build) : List Str → Settings → Settings × List Str
  | [], s => (s, [])
  | a :: l, s =>
    if a = "off".toList then clockArgs b l { s with sync := .off }
    else if a = "init".toList ∨ a = "initial".toList then clockArgs b l { s with sync := .init }
    else if a = "on".toList then clockArgs b l { s with sync := .on }
    else if a = "period".toList then
      match l with
      | [] => (s, [])
      | v :: l' =>
        if s.sync ≠ .on then clockArgs b l' s
        else if strtol 64 v = 0 ∨ strtol 64 v = most 64 ∨ strtol 64 v = least 64 then clockArgs b l' s
        else clockArgs b l' { s with period := (strtol 64 v % 2 ^ 64).toNat }
    else if a = "exchanges-per-interval".toList then
      if s.sync = .off then clockArgs b l s
      else
        match l with
        | [] => (s, [])
        | v :: l' =>
          if strtol b.long v = 0 ∨ strtol b.long v = most b.long ∨ strtol b.long v = least b.long then clockArgs b l' s
          else clockArgs b l' { s with exchanges := toInt32 (strtol b.long v) }
    else if a = " ".toList then clockArgs b l s
    else (s, a :: l)

/-- The loop of `process_args`, core/federated/RTI/main.c:208-281; `none` if it returns 0.  After `process_clock_sync_args` the index is that of the first
argument that this function does not know, and is then incremented by the loop.  `fuel` is at least the number of arguments. -/
def process (b : Build) : Nat → List Str → Settings → Option Settings
  | _, [], s => some s
  | 0, _ :: _, _ => none
  | fuel + 1, a :: l, s =>
    if a = "-i".toList ∨ a = "--id".toList then
      match l with
      | [] => none
      | v :: l' => process b fuel l' { s with federation := v }
    else if a = "-n".toList ∨ a = "--number_of_federates".toList then
      match l with
      | [] => none
      | v :: l' =>
        if strtol b.long v ≤ 0 ∨ strtol b.long v = most b.long ∨ strtol b.long v = least b.long then none
        else process b fuel l' { s with number := toInt32 (strtol b.long v) }
    else if a = "-p".toList ∨ a = "--port".toList then
      match l with
      | [] => none
      | v :: l' =>
        if strtoul b.long v % 4294967296 ≤ 0 ∨ strtoul b.long v % 4294967296 ≥ 65535 then none
        else process b fuel l' { s with port := strtoul b.long v % 4294967296 }
    else if a = "-c".toList ∨ a = "--clock_sync".toList then
      match l with
      | [] => none
      | _ :: _ => process b fuel ((clockArgs b l s).2.drop 1) (clockArgs b l s).1
    else if a = "-a".toList ∨ a = "--auth".toList then
      if b.auth = true then process b fuel l { s with auth := true } else none
    else if a = "-t".toList ∨ a = "--tracing".toList then process b fuel l { s with tracing := true }
    else if a = " ".toList then process b fuel l s
    else none

/-- `process_args`, core/federated/RTI/main.c:208-281; `args` are the arguments after the name of the program. -/
def process_args (b : Build) (args : List Str) (s : Settings) : Option Settings := process b args.length args s

end ReactorC.RtiArgs
