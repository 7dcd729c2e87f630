import Verif.Encl.Live

/-!
# C55: the local RTI admits only safe tags

The history `σ.hist e` of an enclave lists, in order, the tags that its calls of `rti_next_event_tag_locked` returned and
the messages that other enclaves put on its event queue.
-/

set_option linter.unusedVariables false

namespace ReactorC.Encl
open ReactorC ReactorC.Rti

section
variable {T : Topology} {start : Int}

/-- C55, first part.  Whatever the enclaves do, and in whatever order: a tag returned to an enclave that depends on others
is covered by a grant. -/
theorem C55_returned_tags_are_granted (hT : T.Ok) (hD : T.DownOk) (h0 : 0 ≤ start) (hn : T.n ≠ 1) {races : Bool} {σ : Sys}
    (h : Reach T start races σ) {e : Nat} (hu : T.up e ≠ []) {r : Tag} (hr : Ev.ret r ∈ σ.hist e) :
    ∃ g, Down.tag g ∈ σ.rti.out e ∧ r ≤ g :=
  ((h.binv hT hD h0 hn).rets e r hr).resolve_left hu

/-- C55, second part.  Once a tag has been returned to an enclave, no message at or before this tag is put on its event
queue (except one at the end of time, which is never handled), provided that no enclave gets a message that is earlier than
its next event tag while it is about to report that tag.  What is missing to the full property is this race: see
`C55_race_breaks_the_promise`. -/
theorem C55_message_after_return_is_later_partial (hT : T.Ok) (hD : T.DownOk) (h0 : 0 ≤ start) (h1 : start < FOREVER)
    (hn : T.n ≠ 1) {σ : Sys} (h : Reach T start false σ) {e : Nat} {a b c : List Ev} {r m : Tag}
    (he : σ.hist e = a ++ .ret r :: b ++ .msg m :: c) : r < m ∨ m = FOREVER_TAG := by
  have hp := (h.einv hT hD h0 h1 hn).order e
  rw [he, List.append_assoc, List.pairwise_append] at hp
  have := hp.2.1
  rw [List.cons_append, List.pairwise_cons] at this
  exact this.1 (.msg m) (by simp)

/-- C55, third part.  An enclave without upstream enclaves is not made to wait. -/
theorem C55_without_upstream_returns_at_once (hT : T.Ok) (hD : T.DownOk) (h0 : 0 ≤ start) (hn : T.n ≠ 1) {races : Bool}
    {σ σ' : Sys} (h : Reach T start races σ) {e : Nat} (hu : T.up e = []) {t : Tag} (hc : σ.call e = .entering t)
    (he : exec T start σ (.update e) = some σ') : σ'.hist e = σ.hist e ++ [.ret t] ∧ σ'.call e = .idle := by
  have hb := h.binv hT hD h0 hn
  obtain ⟨_, _, _, l4⟩ := updateNextEvent_linv (start := start) hT hD h0 hb.linv (hb.call e (by rw [hc]; simp)) (t := t)
  unfold exec at he
  dsimp only at he
  rw [hc] at he
  dsimp only at he
  rw [if_pos ((cmp_ge_zero _ _).2 (l4 hu))] at he
  cases he
  exact ⟨put_same _ _ _, put_same _ _ _⟩

/-- C55, fourth part.  Enclaves do not block each other: if there are no cycles without delay and all enclaves wait for the
RTI, not all of them for the end of time, then one of them can return. -/
theorem C55_somebody_returns (hT : T.Ok) (hD : T.DownOk) (hz : T.NoZeroDelayCycle) (hK : T.Consistent) (h0 : 0 ≤ start)
    (h1 : start < FOREVER) (hn : T.n ≠ 1) {σ : Sys} (h : Reach T start false σ)
    (hall : ∀ e, e < T.n → ∃ p t, σ.call e = .waiting p t)
    (hsome : ∃ e, e < T.n ∧ ∃ p t, σ.call e = .waiting p t ∧ t < FOREVER_TAG) :
    ∃ e, e < T.n ∧ ∃ σ' r, exec T start σ (.wake e) = some σ' ∧ σ'.hist e = σ.hist e ++ [.ret r] := by
  have hb := h.binv hT hD h0 hn
  have hi := h.einv hT hD h0 h1 hn
  have hv := h.winv hT hD hz hK h0 h1 hn
  obtain ⟨i, hi', p', t', hc', hF⟩ := hsome
  obtain ⟨e, he, _, _, hg⟩ := least_granted (s := σ.rti) hT hz (fun x hx => (hi.rti.next x).1.resolve_left hx)
    (fun x hx => by rw [hb.linv.conn x] at hx; cases hx)
    (fun x hx _ => by
      obtain ⟨p, t, hc⟩ := hall x hx
      exact hv.cur x (waits_of hc))
    ⟨i, hi', hb.linv.conn i, Tag.lt_of_le_of_lt (hv.wait i p' t' hc').2.2 hF⟩
  obtain ⟨p, t, hc⟩ := hall e he
  have hlt : lf_tag_compare p (σ.rti.node e).lastGranted < 0 :=
    (cmp_lt_zero _ _).2 (Tag.lt_of_lt_of_le (hv.wait e p t hc).2.1 hg)
  refine ⟨e, he, { σ.see e (.ret (σ.rti.node e).lastGranted) with call := put σ.call e .idle }, (σ.rti.node e).lastGranted, ?_,
    put_same _ _ _⟩
  unfold exec
  dsimp only
  rw [hc]
  dsimp only
  rw [if_pos hlt]

end

/-- C55: with a single enclave, every tag is returned at once. -/
theorem C55_single_enclave {T : Topology} {start : Int} (hn : T.n = 1) (σ : Sys) (e : Nat) (t : Tag) :
    ∃ σ', exec T start σ (.enter e t) = some σ' ∧ σ'.hist e = σ.hist e ++ [.ret t] ∧ σ'.call = σ.call := by
  refine ⟨{ σ.see e (.ret t) with net := put σ.net e t }, ?_, put_same _ _ _, rfl⟩
  show (if T.n = 1 then _ else _) = _
  rw [if_pos hn]

/-! ## Runs -/

/-- `Act.undisturbed`, computed. -/
def calm (σ : Sys) : Act → Bool
  | .update e => match σ.call e with
    | .entering t => decide (t ≤ σ.net e)
    | _ => true
  | _ => true

theorem undisturbed_of_calm {σ : Sys} {a : Act} (h : calm σ a = true) : a.undisturbed σ := by
  cases a with
  | update e =>
    intro t ht
    unfold calm at h
    dsimp only at h
    rw [ht] at h
    exact of_decide_eq_true h
  | _ => trivial

def execAll (T : Topology) (start : Int) (races : Bool) : Sys → List Act → Option Sys
  | σ, [] => some σ
  | σ, a :: l =>
    if a.allowed T start σ ∧ (races = true ∨ calm σ a = true) then
      match exec T start σ a with
      | some σ' => execAll T start races σ' l
      | none => none
    else none

theorem execAll_reach {T : Topology} {start : Int} {races : Bool} {l : List Act} : ∀ {σ σ' : Sys},
    Reach T start races σ → execAll T start races σ l = some σ' → Reach T start races σ' := by
  induction l with
  | nil => intro σ σ' h e; unfold execAll at e; cases e; exact h
  | cons a l ih =>
    intro σ σ' h e
    unfold execAll at e
    split at e
    · rename_i hg
      split at e
      · rename_i σ1 he
        exact ih (.step a h hg.1 (hg.2.imp id undisturbed_of_calm) he) e
      · cases e
    · cases e

/-- 0 sends to 1 with a delay of 5, and 1 to 2 without delay. -/
def chain : Topology :=
  { n := 3
    up := fun i => if i = 1 then [(0, 5)] else if i = 2 then [(1, NEVER)] else []
    down := fun i => if i = 0 then [1] else if i = 1 then [2] else [] }

theorem chain_ok : chain.Ok ∧ chain.DownOk ∧ chain.Consistent ∧ chain.NoZeroDelayCycle := by
  refine ⟨⟨by decide, fun i u w h => ?_, fun i u w h => ?_⟩, fun i j h => ?_, fun i u w h => ?_, fun e ws hp => ?_⟩
  · unfold chain at h ⊢; dsimp only at h ⊢
    repeat' split at h
    all_goals simp at h
    all_goals omega
  · unfold chain at h; dsimp only at h
    have : ∀ x ∈ ([5, NEVER] : List Int), IsI64 x := by decide
    refine this w ?_
    repeat' split at h
    all_goals simp at h
    all_goals simp
    all_goals omega
  · unfold chain at h ⊢; dsimp only at h ⊢
    repeat' split at h
    all_goals simp at h
    all_goals omega
  · unfold chain at h ⊢; dsimp only at h ⊢
    repeat' split at h
    all_goals simp at h
    all_goals simp_all
  · have key : ∀ {u : Nat} {ws : List Int}, Path chain (fun _ => true) e u ws → u < e := by
      have up : ∀ i u w, (u, w) ∈ chain.up i → u < i := by
        intro i u w h
        unfold chain at h; dsimp only at h
        repeat' split at h
        all_goals simp at h
        all_goals omega
      intro u ws h
      induction h with
      | last u w _ hm => exact up _ _ _ hm
      | step u i w ws _ hm _ ih => exact Nat.lt_trans (up _ _ _ hm) ih
    exact absurd (key hp) (Nat.lt_irrefl _)

/-- All three start.  While 2 waits for 15, 1 looks at its event queue, whose first event is at 20, and 0, at tag 0, sends it a message for 5. -/
def beginning : List Act :=
  [.enter 0 ⟨0, 0⟩, .update 0, .enter 1 ⟨0, 0⟩, .update 1, .enter 2 ⟨0, 0⟩, .update 2, .complete 1 ⟨0, 0⟩, .wake 2,
   .complete 2 ⟨0, 0⟩, .enter 2 ⟨15, 0⟩, .update 2]

/-- The message arrives before 1 gives up its mutex. -/
def goodRun : List Act :=
  beginning ++ [.message 0 1 ⟨0, 0⟩ 5 ⟨5, 0⟩, .enter 1 ⟨5, 0⟩, .update 1, .complete 0 ⟨0, 0⟩, .enter 0 ⟨30, 0⟩, .update 0,
    .wake 1, .message 1 2 ⟨5, 0⟩ NEVER ⟨5, 0⟩, .complete 1 ⟨5, 0⟩, .wake 2]

/-- The message arrives when 1 has given up its own mutex but does not yet have the one of the RTI. -/
def badRun : List Act :=
  beginning ++ [.enter 1 ⟨20, 0⟩, .message 0 1 ⟨0, 0⟩ 5 ⟨5, 0⟩, .update 1, .complete 0 ⟨0, 0⟩, .enter 0 ⟨30, 0⟩, .update 0,
    .wake 2, .wake 1, .message 1 2 ⟨5, 0⟩ NEVER ⟨5, 0⟩]

theorem histories {T : Topology} {start : Int} {races : Bool} {l : List Act} {h : List (List Ev)}
    (e : (execAll T start races (initSys start) l).map (fun σ => (List.range T.n).map σ.hist) = some h) :
    ∃ σ, Reach T start races σ ∧ (List.range T.n).map σ.hist = h := by
  rw [Option.map_eq_some_iff] at e
  obtain ⟨σ, h1, h2⟩ := e
  exact ⟨σ, execAll_reach .init h1, h2⟩

/-- The hypotheses of the theorems above are met by a run in which messages arrive between tags that are returned. -/
example : ∃ σ, Reach chain 0 false σ ∧ (List.range 3).map σ.hist =
    [[.ret ⟨0, 0⟩, .ret ⟨30, 0⟩],
     [.ret ⟨0, 0⟩, .msg ⟨5, 0⟩, .ret ⟨5, 0⟩],
     [.ret ⟨0, 0⟩, .msg ⟨5, 0⟩, .ret ⟨5, 0⟩]] :=
  histories (T := chain) (l := goodRun) (by decide +kernel)

/-- The code does not have the property of `C55_message_after_return_is_later_partial` without its restriction.
`rti_next_event_tag_locked` gives up the mutex of the enclave (line 89) before it takes the one of the RTI (line 90).  If a
message arrives in between, `rti_update_other_net_locked` lowers the next event tag of the enclave, and line 99 then
overwrites it with the tag determined before the message arrived.  So the RTI believes that enclave 1 has no events before
20 although it will act at 5, and lets enclave 2, which depends on 1, advance to 15; later 2 gets a message with tag 5. -/
theorem C55_race_breaks_the_promise : ∃ σ, Reach chain 0 true σ ∧
    σ.hist 2 = [.ret ⟨0, 0⟩, .ret ⟨15, 0⟩, .msg ⟨5, 0⟩] := by
  obtain ⟨σ, h1, h2⟩ := histories (T := chain) (start := 0) (races := true) (l := badRun) (h :=
    [[.ret ⟨0, 0⟩, .ret ⟨30, 0⟩], [.ret ⟨0, 0⟩, .msg ⟨5, 0⟩, .ret ⟨20, 0⟩],
      [.ret ⟨0, 0⟩, .ret ⟨15, 0⟩, .msg ⟨5, 0⟩]]) (by decide +kernel)
  refine ⟨σ, h1, ?_⟩
  have : (List.range chain.n) = [0, 1, 2] := by decide
  rw [this] at h2
  simp only [List.map_cons, List.map_nil, List.cons.injEq] at h2
  exact h2.2.2.1

/-! ## Enclaves with nothing to do -/

/-- The assumption that an enclave acts only from the tag on that it reported last is violated by the code itself.  An enclave without
events reports FOREVER_TAG; when this tag is returned (core/threaded/reactor_threaded.c:338-341) it sets its stop tag to the
microstep after its current tag and executes its shutdown reactions there, without reporting this tag.  Here enclave 0, at
(0, 0), is told to go on to FOREVER_TAG, enclave 1 goes on to 20, and the message that a shutdown reaction of 0 sends at (0, 1)
then arrives at 1 with the tag 5.  All that is not allowed of this message is that its sender reported FOREVER_TAG. -/
theorem C55_shutdown_of_a_starving_enclave_breaks_the_promise : ∃ σ σ', Reach chain 0 false σ ∧
    σ.hist 0 = [.ret ⟨0, 0⟩, .ret FOREVER_TAG] ∧ σ.done 0 = ⟨0, 0⟩ ∧ (0, 5) ∈ chain.up 1 ∧ lf_delay_tag ⟨0, 1⟩ 5 = ⟨5, 0⟩ ∧
    exec chain 0 σ (.message 0 1 ⟨0, 1⟩ 5 ⟨5, 0⟩) = some σ' ∧ σ'.hist 1 = [.ret ⟨0, 0⟩, .ret ⟨20, 0⟩, .msg ⟨5, 0⟩] := by
  have h : (execAll chain 0 false (initSys 0) [.enter 0 ⟨0, 0⟩, .update 0, .enter 1 ⟨0, 0⟩, .update 1, .complete 0 ⟨0, 0⟩,
      .complete 1 ⟨0, 0⟩, .enter 0 FOREVER_TAG, .update 0, .enter 1 ⟨20, 0⟩, .update 1]).map
      (fun σ => (σ.hist 0, σ.done 0, σ.hist 1)) =
      some ([.ret ⟨0, 0⟩, .ret FOREVER_TAG], ⟨0, 0⟩, [.ret ⟨0, 0⟩, .ret ⟨20, 0⟩]) := by decide +kernel
  rw [Option.map_eq_some_iff] at h
  obtain ⟨σ, h1, h2⟩ := h
  rw [Prod.mk.injEq, Prod.mk.injEq] at h2
  refine ⟨σ, _, execAll_reach .init h1, h2.1, h2.2.1, by decide, by decide, rfl, ?_⟩
  show put σ.hist 1 (σ.hist 1 ++ [.msg ⟨5, 0⟩]) 1 = _
  rw [put_same, h2.2.2]
  rfl

/-- 0 and 1 send to each other with a delay. -/
def ring : Topology :=
  { n := 2
    up := fun i => if i = 0 then [(1, 1)] else if i = 1 then [(0, 1)] else []
    down := fun i => if i = 0 then [1] else if i = 1 then [0] else [] }

theorem ring_ok : ring.Ok ∧ ring.DownOk := by
  refine ⟨⟨by decide, fun i u w h => ?_, fun i u w h => ?_⟩, fun i j h => ?_⟩
  all_goals unfold ring at h; dsimp only at h
  all_goals try show _ < 2
  all_goals repeat' split at h
  all_goals simp at h
  all_goals first | omega | (rw [h.2]; decide)

def ringRun : List Act :=
  [.enter 0 ⟨0, 0⟩, .update 0, .enter 1 ⟨0, 0⟩, .update 1, .complete 0 ⟨0, 0⟩, .complete 1 ⟨0, 0⟩,
    .enter 0 FOREVER_TAG, .update 0, .enter 1 FOREVER_TAG, .update 1]

/-- The hypotheses of `C55_somebody_returns` are met: both enclaves wait, the first one for 10. -/
example : ∃ σ, Reach ring 0 false σ ∧ (∀ e, e < 2 → ∃ p t, σ.call e = .waiting p t ∧ t < FOREVER_TAG) := by
  have h : (execAll ring 0 false (initSys 0) [.enter 0 ⟨0, 0⟩, .update 0, .enter 1 ⟨0, 0⟩, .update 1, .complete 0 ⟨0, 0⟩,
      .complete 1 ⟨0, 0⟩, .enter 0 ⟨10, 0⟩, .update 0, .enter 1 ⟨20, 0⟩, .update 1]).map (fun σ => (σ.call 0, σ.call 1)) =
      some (.waiting ⟨0, 4294967295⟩ ⟨10, 0⟩, .waiting ⟨0, 4294967295⟩ ⟨20, 0⟩) := by decide +kernel
  rw [Option.map_eq_some_iff] at h
  obtain ⟨σ, h1, h2⟩ := h
  rw [Prod.mk.injEq] at h2
  refine ⟨σ, execAll_reach .init h1, fun e he => ?_⟩
  have : e = 0 ∨ e = 1 := by omega
  rcases this with h | h <;> subst h
  · exact ⟨_, _, h2.1, by decide⟩
  · exact ⟨_, _, h2.2, by decide⟩

/-- The exception in `C55_somebody_returns` occurs: two enclaves that send to each other, with delays, and have no more
events wait for each other for ever, so that the program does not end although nothing can happen any more. -/
theorem C55_idle_cycle_waits_forever : ∃ σ, Reach ring 0 false σ ∧
    ∀ a, a.allowed ring 0 σ → exec ring 0 σ a = none := by
  have h : (execAll ring 0 false (initSys 0) ringRun).map (fun σ =>
      ((List.range 2).map fun i => (σ.call i, (σ.rti.node i).lastGranted))) =
      some [(.waiting ⟨0, 4294967295⟩ FOREVER_TAG, ⟨0, 4294967295⟩), (.waiting ⟨0, 4294967295⟩ FOREVER_TAG, ⟨0, 4294967295⟩)] := by decide +kernel
  rw [Option.map_eq_some_iff] at h
  obtain ⟨σ, h1, h2⟩ := h
  have hr : Reach ring 0 false σ := execAll_reach .init h1
  have hb := hr.binv ring_ok.1 ring_ok.2 (by decide) (by decide)
  have hrange : List.range 2 = [0, 1] := by decide
  rw [hrange] at h2
  simp only [List.map_cons, List.map_nil, List.cons.injEq, Prod.mk.injEq, and_true] at h2
  have hw : ∀ e, e < 2 → σ.call e = .waiting ⟨0, 4294967295⟩ FOREVER_TAG ∧ (σ.rti.node e).lastGranted = ⟨0, 4294967295⟩ := by
    intro e he
    have : e = 0 ∨ e = 1 := by omega
    rcases this with h | h <;> subst h
    · exact h2.1
    · exact h2.2
  have hi : ∀ e, e < 2 → σ.call e ≠ .idle := fun e he hc => by rw [(hw e he).1] at hc; cases hc
  have hi' : ∀ e, ¬ e < 2 → σ.call e = .idle := fun e he => Classical.byContradiction fun hc => he (hb.call e hc)
  refine ⟨σ, hr, fun a ha => ?_⟩
  cases a with
  | enter e t => exact absurd ha.2.1 (hi e ha.1)
  | complete e c => exact absurd ha.2.1 (hi e ha.1)
  | message i d s w m => exact absurd ha.2.2.2.1 (hi i ha.1)
  | update e =>
    unfold exec; dsimp only
    by_cases he : e < 2
    · rw [(hw e he).1]
    · rw [hi' e he]
  | wake e =>
    unfold exec; dsimp only
    by_cases he : e < 2
    · rw [(hw e he).1]; dsimp only; rw [(hw e he).2]
      rfl
    · rw [hi' e he]

end ReactorC.Encl
