import Verif.RtiArgs.Model

/-!
# C87: specification

The options as `usage` explains them, core/federated/RTI/main.c:118-145.
-/

namespace ReactorC.RtiArgs
open ReactorC.Args (Str)

/-- A decimal numeral and its value. -/
def value : List Nat → Nat := List.foldl (fun v d => 10 * v + d) 0

def Numeral (n : Nat) (w : Str) : Prop :=
  ∃ ds : List Nat, ds ≠ [] ∧ (∀ d ∈ ds, d ≤ 9) ∧ w = ds.map (fun d => Char.ofNat (48 + d)) ∧ value ds = n

/-- What the user asks for. -/
inductive Opt
  | id (x : Str)
  | number (n : Nat)
  | port (n : Nat)
  | auth
  | tracing
  /-- the status, the period and the number of exchanges, if given -/
  | clock (m : Sync) (period exchanges : Option Nat)

/-- Permitted: a federation of at most 65534 federates (core/federated/RTI/main.c:316), a port above 0 and below 65535, numbers of 64 and 32 bits
for clock synchronization, where they apply. -/
def Opt.Ok (b : Build) : Opt → Prop
  | .id _ => True
  | .number n => 0 < n ∧ n < 65535
  | .port n => 0 < n ∧ n < 65535
  | .auth => b.auth = true
  | .tracing => True
  | .clock m p e => (∀ n, p = some n → m = .on ∧ 0 < n ∧ n < 2 ^ 63 - 1) ∧ ∀ n, e = some n → m ≠ .off ∧ 0 < n ∧ n < 2 ^ 31 - 1

/-- What it means. -/
def Opt.apply (s : Settings) : Opt → Settings
  | .id x => { s with federation := x }
  | .number n => { s with number := n }
  | .port n => { s with port := n }
  | .auth => { s with auth := true }
  | .tracing => { s with tracing := true }
  | .clock m p e => { s with
      sync := m
      period := p.getD s.period
      exchanges := (e.map Int.ofNat).getD s.exchanges }

def syncWord : Sync → Str
  | .off => "off".toList
  | .init => "init".toList
  | .on => "on".toList

/-- The words after `-c`. -/
def ClockWords : Sync → Option Nat → Option Nat → List Str → Prop
  | m, p, e, ws => ∃ wp we,
      (match p with
        | none => wp = []
        | some n => ∃ w, Numeral n w ∧ wp = ["period".toList, w]) ∧
      (match e with
        | none => we = []
        | some n => ∃ w, Numeral n w ∧ we = ["exchanges-per-interval".toList, w]) ∧
      ws = syncWord m :: (wp ++ we)

/-- How it is written. -/
def Written : Opt → List Str → Prop
  | .id x, ws => ws = ["-i".toList, x] ∨ ws = ["--id".toList, x]
  | .number n, ws => ∃ w, Numeral n w ∧ (ws = ["-n".toList, w] ∨ ws = ["--number_of_federates".toList, w])
  | .port n, ws => ∃ w, Numeral n w ∧ (ws = ["-p".toList, w] ∨ ws = ["--port".toList, w])
  | .auth, ws => ws = ["-a".toList] ∨ ws = ["--auth".toList]
  | .tracing, ws => ws = ["-t".toList] ∨ ws = ["--tracing".toList]
  | .clock m p e, ws => ∃ f c, (f = "-c".toList ∨ f = "--clock_sync".toList) ∧ ClockWords m p e c ∧ ws = f :: c

/-- A command line. -/
inductive Line : List Opt → List Str → Prop
  | nil : Line [] []
  | cons {o os ws rest} : Written o ws → Line os rest → Line (o :: os) (ws ++ rest)

/-- The words with which options begin. -/
def flags : List Str := ["-i", "--id", "-n", "--number_of_federates", "-p", "--port", "-c", "--clock_sync", "-a", "--auth", "-t", "--tracing", " "].map
  String.toList

/-- The words of clock synchronization. -/
def clockWords : List Str := ["off", "init", "initial", "on", "period", "exchanges-per-interval", " "].map String.toList

def Opt.isClock : Opt → Bool
  | .clock _ _ _ => true
  | _ => false

end ReactorC.RtiArgs
