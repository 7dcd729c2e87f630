import Verif.ClockSync.UdpProps

/-!
# C78: the guard band

An exchange counts only if T4 and the coded probe after it were delayed alike.
-/

namespace ReactorC.ClockSync.Udp
open ReactorC.ClockSync

/-- When T4 and the coded probe were received in fact, and that their delays differ by less than `G`.  `b` is by how much the clock of the federate is behind. -/
def DelayedAlike (G : Int) (x : Exchange) (b : Int) : Prop :=
  ∃ t5 r5 at4 at5, x.link = .udp (some (t5, r5)) ∧ x.r4 = at4 - b ∧ r5 = at5 - b ∧ x.t4 ≤ at4 ∧ at4 ≤ at5 ∧
    (((at5 - t5) - (at4 - x.t4)).natAbs : Int) < G

structure Guard (C : Config) (s : State) (f : Nat) : Prop where
  sent : ∀ t, .T4 t ∈ s.down f → t ≤ s.now
  probing : ∀ t4 r4, (s.fed f).probing = some (t4, r4) → t4 ≤ r4 + behind C s f ∧ r4 + behind C s f ≤ s.now
  log : ∀ x ∈ s.log f, DelayedAlike C.p.G x.1 x.2

theorem guard_step {C : Config} {s s' : State} (h : ∀ f, Guard C s f) (st : Step C s s') (f : Nat) : Guard C s' f := by
  have hf := h f
  cases st with
  | tick ht =>
    exact ⟨fun t hm => Int.le_trans (hf.sent t hm) ht, fun a b hp => ⟨(hf.probing a b hp).1, Int.le_trans (hf.probing a b hp).2 ht⟩, hf.log⟩
  | sleep _ _ _ => exact ⟨hf.sent, hf.probing, hf.log⟩
  | sendT1 _ _ =>
    refine ⟨fun t hm => ?_, hf.probing, hf.log⟩
    dsimp only [put] at hm
    split at hm
    · rename_i e
      rcases List.mem_append.1 hm with k | k
      · exact hf.sent t (e ▸ k)
      · simp at k
    · exact hf.sent t hm
  | recvT3 _ _ _ _ =>
    refine ⟨fun t hm => ?_, hf.probing, hf.log⟩
    dsimp only [put] at hm ⊢
    split at hm
    · rename_i e
      rcases List.mem_append.1 hm with k | k
      · exact hf.sent t (e ▸ k)
      · simp at k
        omega
    · exact hf.sent t hm
  | recvOther _ _ _ => exact ⟨hf.sent, hf.probing, hf.log⟩
  | @receive g m rest dev hg hd hr hi =>
    have hsent : ∀ t, .T4 t ∈ put s.down g rest f → t ≤ s.now := by
      intro t hm
      unfold put at hm
      split at hm
      · rename_i e
        subst e
        exact hf.sent t (hd ▸ List.mem_cons_of_mem _ hm)
      · exact hf.sent t hm
    unfold receive
    dsimp only
    cases hp : (s.fed g).probing with
    | some tr =>
      obtain ⟨t4, r4⟩ := tr
      dsimp only
      unfold endExchange
      dsimp only
      by_cases e : f = g
      · subst e
        refine ⟨hsent, fun a b hq => ?_, ?_⟩
        · simp [put] at hq
        · intro x hx
          have e1 : ∀ y : List (Exchange × Int), put s.log f y f = y := fun y => if_pos rfl
          cases m with
          | T1 t => exact hf.log x hx
          | T4 t => exact hf.log x hx
          | probe t5 =>
            dsimp only at hx
            split at hx
            · rename_i hcount
              rw [e1] at hx
              rcases List.mem_cons.1 hx with k | k
              · subst k
                obtain ⟨h1, h2⟩ := hf.probing t4 r4 hp
                have hb : behind C { s with down := put s.down f rest } f = behind C s f := rfl
                have hc : clock C { s with down := put s.down f rest } f = s.now - behind C s f := rfl
                simp only [counts, decide_eq_true_eq] at hcount
                rw [hc] at hcount
                refine ⟨t5, _, r4 + behind C s f, s.now, rfl, ?_, hc, h1, h2, ?_⟩
                · show r4 = r4 + behind C s f - behind C { s with down := put s.down f rest } f
                  rw [hb]
                  omega
                · show ((((s.now - t5) - (r4 + behind C s f - t4)).natAbs : Nat) : Int) < _
                  have e : (s.now - t5) - (r4 + behind C s f - t4) = s.now - behind C s f - r4 - (t5 - t4) := by omega
                  rw [e]
                  exact hcount
              · exact hf.log x k
            · exact hf.log x hx
      · refine ⟨hsent, fun a b hq => ?_, ?_⟩
        · have e1 : ∀ y : Fed, put s.fed g y f = s.fed f := fun y => if_neg e
          dsimp only at hq
          unfold behind
          dsimp only
          rw [e1] at hq ⊢
          exact hf.probing a b hq
        · intro x hx
          have e1 : ∀ y : List (Exchange × Int), put s.log g y f = s.log f := fun y => if_neg e
          cases m with
          | T1 t => exact hf.log x hx
          | T4 t => exact hf.log x hx
          | probe t5 =>
            dsimp only at hx
            split at hx
            · rw [e1] at hx
              exact hf.log x hx
            · exact hf.log x hx
    | none =>
      dsimp only
      -- the federate stays the same, or only `replying`, `waiting` or `probing` change
      have keep : ∀ y : Fed, y.stat = (s.fed g).stat →
          (∀ a b, y.probing = some (a, b) → a ≤ b + behind C s g ∧ b + behind C s g ≤ s.now) →
          Guard C { s with down := put s.down g rest, fed := put s.fed g y } f := by
        intro y hy hpr
        refine ⟨hsent, fun a b hq => ?_, hf.log⟩
        by_cases e : f = g
        · subst e
          have e1 : put s.fed f y f = y := if_pos rfl
          dsimp only at hq
          rw [e1] at hq
          have hb : behind C { s with down := put s.down f rest, fed := put s.fed f y } f = behind C s f := by
            unfold behind
            dsimp only
            rw [e1, hy]
          rw [hb]
          exact hpr a b hq
        · have e1 : put s.fed g y f = s.fed f := if_neg e
          dsimp only at hq
          unfold behind
          dsimp only
          rw [e1] at hq ⊢
          exact hf.probing a b hq
      have same : Guard C { s with down := put s.down g rest } f := ⟨hsent, hf.probing, hf.log⟩
      split
      · cases m with
        | T1 t => exact keep _ rfl (fun a b hq => (by cases hq))
        | T4 t => exact same
        | probe t => exact same
      · cases m with
        | T1 t => exact keep _ rfl (fun a b hq => (by cases hq))
        | T4 t =>
          refine keep _ rfl (fun a b hq => ?_)
          have ht := (h g).sent t (hd ▸ List.mem_cons_self)
          have hc : clock C { s with down := put s.down g rest } g = s.now - behind C s g := rfl
          simp only [Option.some.injEq, Prod.mk.injEq] at hq
          rw [hc] at hq
          omega
        | probe t => exact keep _ rfl (fun a b hq => (by cases hq))
  | @reply g t1 t2 hr =>
    refine ⟨hf.sent, fun a b hq => ?_, hf.log⟩
    by_cases e : f = g
    · subst e
      have e1 : ∀ y : Fed, put s.fed f y f = y := fun y => if_pos rfl
      unfold behind
      dsimp only at hq ⊢
      rw [e1] at hq ⊢
      exact hf.probing a b hq
    · have e1 : ∀ y : Fed, put s.fed g y f = s.fed f := fun y => if_neg e
      unfold behind
      dsimp only at hq ⊢
      rw [e1] at hq ⊢
      exact hf.probing a b hq
  | @replyFails g t1 t2 hr =>
    refine ⟨hf.sent, fun a b hq => ?_, hf.log⟩
    by_cases e : f = g
    · subst e
      have e1 : ∀ y : Fed, put s.fed f y f = y := fun y => if_pos rfl
      unfold behind
      dsimp only at hq ⊢
      rw [e1] at hq ⊢
      exact hf.probing a b hq
    · have e1 : ∀ y : Fed, put s.fed g y f = s.fed f := fun y => if_neg e
      unfold behind
      dsimp only at hq ⊢
      rw [e1] at hq ⊢
      exact hf.probing a b hq
  | @loseDown g i hi =>
    refine ⟨fun t hm => ?_, hf.probing, hf.log⟩
    dsimp only [put] at hm
    split at hm
    · rename_i e
      subst e
      exact hf.sent t (List.mem_of_mem_eraseIdx hm)
    · exact hf.sent t hm
  | loseUp _ => exact ⟨hf.sent, hf.probing, hf.log⟩

theorem reach_guard {C : Config} {now : Int} {offset : Nat → Int} {s : State} (h : Reach C now offset s) (f : Nat) : Guard C s f := by
  induction h generalizing f with
  | init => exact ⟨by simp [init], by simp [init], by simp [init]⟩
  | step _ st ih => exact guard_step ih st f

/-- C78.  A federate corrects its clock by an exchange only if the coded probe was received, later than T4 and both after they were sent, and if the delays of the two
differ by less than the guard band, however wrong its clock is. -/
theorem C78_only_exchanges_with_equal_delays_count {C : Config} {now : Int} {offset : Nat → Int} {s : State} (h : Reach C now offset s) {f : Nat}
    {x : Exchange} {b : Int} (hx : (x, b) ∈ s.log f) : DelayedAlike C.p.G x b :=
  (reach_guard h f).log (x, b) hx

/-- There are such exchanges. -/
example : ∃ s x b, Reach two 0 (fun _ => 0) s ∧ (x, b) ∈ s.log 0 := by
  obtain ⟨s, h, hm⟩ := two_reach
  obtain ⟨⟨x, b⟩, hx, -⟩ := List.mem_map.1 hm
  exact ⟨s, x, b, h, hx⟩

end ReactorC.ClockSync.Udp
