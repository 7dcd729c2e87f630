import Verif.Cycle.RunSpec

/-!
# C86: specification of fair executions

An execution without end is fair if the RTI does not withhold a grant that is due, no federate stops working, and no message is on the way for ever.
-/

namespace ReactorC.Cycle.Run
open ReactorC
variable {S V : Type}

/-- Who acts: the RTI, which grants federate `j` the tag that it waits for; federate `j`; connection `k`. -/
inductive Actor
  | grant (j : Nat)
  | work (j : Nat)
  | arrive (k : Nat)
deriving DecidableEq

/-- The steps of `Step`, by who acts.  Further grants to federates that do not wait belong to nobody: they are possible, but no execution has to have them. -/
inductive Does (M : Federation S V) : Actor → State S V → State S V → Prop
  | ptag {s} {j : Nat} : j < M.P.n → M.P.zdc j = true → (s.fed j).lv.lastTAG < M.tau (s.fed j).n → PtagIn M s j (s.fed j).n →
      Does M (.grant j) s { s with fed := upd s.fed j { s.fed j with lv := Level.handlePtag (M.P.cfg j) (s.fed j).lv (M.tau (s.fed j).n) } }
  | tag {s} {j i : Nat} : j < M.P.n → (s.fed j).n ≤ i → (s.fed j).lv.lastTAG < M.tau (s.fed j).n → AllIn M s j i →
      Does M (.grant j) s { s with fed := upd s.fed j { s.fed j with lv := Level.handleTag (M.P.cfg j) (s.fed j).lv (M.tau i) } }
  | start {s} {j : Nat} : j < M.P.n → (s.fed j).pc = .before → M.tau (s.fed j).n ≤ (s.fed j).lv.lastTAG →
      Does M (.work j) s { s with fed := upd s.fed j { s.fed j with
        pc := .level 0
        lv := Level.nextTag (M.P.cfg j) (s.fed j).lv (M.tau (s.fed j).n) (fun _ => false)
          (fun p => ((s.fed j).inp (M.tau (s.fed j).n) p).isSome) } }
  | stall {s} {j L : Nat} : j < M.P.n → (s.fed j).pc = .level L → L < M.P.levels j → (s.fed j).lv.asleep L = false →
      Does M (.work j) s { s with fed := upd s.fed j { s.fed j with
        pc := if L ≥ (s.fed j).lv.mlaa then .level L else .passed L
        lv := Level.stall (s.fed j).lv L } }
  | exec {s} {j L : Nat} : j < M.P.n → (s.fed j).pc = .passed L → Does M (.work j) s (execLevel M s j L)
  | finish {s} {j : Nat} : j < M.P.n → (s.fed j).pc = .level (M.P.levels j) →
      Does M (.work j) s { s with fed := upd s.fed j (toNext M j (s.fed j)) }
  | deliver {s} {k : Nat} {t : Tag} {o : Option V} {rest : List (Tag × Option V)} : k < M.P.nc → s.chan k = (t, o) :: rest →
      Does M (.arrive k) s (deliver M s k t o rest)

/-- An execution without end; in between, nothing may happen for any time.  It is fair: who can act from some point on for ever acts at some time. -/
structure Fair (M : Federation S V) (x : Nat → S) (run : Nat → State S V) : Prop where
  reach : Reach M x (run 0)
  next : ∀ i, run (i + 1) = run i ∨ Step M (run i) (run (i + 1))
  fair : ∀ a i0, (∀ i, i0 ≤ i → ∃ s', Does M a (run i) s') → ∃ i, i0 ≤ i ∧ Does M a (run i) (run (i + 1))

end ReactorC.Cycle.Run
