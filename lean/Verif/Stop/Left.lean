import Verif.Stop.Steps

/-! # The barriers that the stop protocol leaves behind -/

namespace ReactorC.Stop
open ReactorC

/-- How many barriers the stop protocol holds. -/
def own (b : Barrier.State) : Nat := b.out.countP (fun r => decide (r.id = stopId))

/-- A thread of the federate holds a barrier, or the federate has proposed a tag. -/
def Held (f : Fed) (props : List Tag) : Prop := (∃ c, f.rq = .raised c) ∨ (∃ t, f.rx = .blocked t) ∨ props ≠ []

/-- One barrier is held from the proposal to the grant. -/
structure Bar (k : Nat) (held gr : Prop) : Prop where
  after : gr → k = 0
  during : ¬ gr → held → k = 1
  before : ¬ gr → ¬ held → k = 0

def LInv (n : Nat) (y : Sys) : Prop :=
  ∀ i < n, Bar (own (y.fed i).b) (Held (y.fed i) (y.props i)) (∃ t, .granted t ∈ y.got i)

theorem Bar.congr {k k' : Nat} {held held' gr gr' : Prop} (h : Bar k held gr) (h1 : k' = k) (h2 : held' ↔ held)
    (h3 : gr' ↔ gr) : Bar k' held' gr' := by
  refine ⟨fun a => ?_, fun a b => ?_, fun a b => ?_⟩
  · rw [h1]; exact h.after (h3.1 a)
  · rw [h1]; exact h.during (fun c => a (h3.2 c)) (h2.1 b)
  · rw [h1]; exact h.before (fun c => a (h3.2 c)) (fun c => b (h2.2 c))

theorem own_erase {l : List Barrier.Request} {r : Barrier.Request} (hr : r ∈ l) :
    l.countP (fun r => decide (r.id = stopId)) =
      (l.erase r).countP (fun r => decide (r.id = stopId)) + if r.id = stopId then 1 else 0 := by
  rw [(List.perm_cons_erase hr).countP_eq, List.countP_cons]
  simp

theorem own_local {s t : Barrier.State} (h : Local s t) (hc : s.cur ≤ s.stop) : own t = own s := by
  unfold own
  cases h with
  | raise id tag h => show List.countP _ (_ :: _) = _; rw [List.countP_cons]; simp [h]
  | release r h1 h2 => rw [(giveBack_spec s r).1, own_erase h1, if_neg h2]; rfl
  | deliver r h1 h2 => rw [(deliver_spec s r).1, own_erase h1, if_neg h2]; rfl
  | schedule tag h => rfl
  | next h1 h2 => rw [(next_spec s hc).1]
  | wake p h => rw [(wake_spec s p hc).1]

theorem own_raise (s : Barrier.State) (t : Tag) : own (Barrier.raise s stopId t) = own s + 1 := by
  unfold own
  show List.countP _ (_ :: _) = _
  rw [List.countP_cons]; simp

theorem own_grant {stop : Tag} {s : Barrier.State} (o : BOk stop s) {t : Tag} (hb : HasBar s t) :
    own (release (Barrier.stopGranted s t)) + 1 = own s := by
  have hlt : s.cur < t := hb.lt o.reach
  obtain ⟨r, hr, hid, _⟩ := hb
  have e1 : Barrier.stopGranted s t = Barrier.setStop s t := by
    unfold Barrier.stopGranted
    rw [if_neg (by rw [cmp_le_zero]; exact Tag.not_le.2 hlt)]
  have e2 : (Barrier.stopGranted s t).out = s.out := by
    rw [e1]; unfold Barrier.setStop; split <;> rfl
  unfold release
  cases hx : (Barrier.stopGranted s t).out.find? (fun r => r.id = stopId) with
  | none =>
    rw [List.find?_eq_none] at hx
    exact absurd (by simpa using hid) (hx r (by rw [e2]; exact hr))
  | some r' =>
    have hr' : r' ∈ s.out := by
      have := List.mem_of_find?_eq_some hx
      rw [e2] at this; exact this
    have hi' : r'.id = stopId := by
      have := List.find?_some hx
      simpa using this
    simp only []
    unfold own
    rw [(giveBack_spec _ r').1, e2, own_erase hr', if_pos hi']

/-- A federate that is there and has taken a grant has proposed a tag. -/
theorem granted_props {n : Nat} {stop : Nat → Tag} {y : Sys} (s : SInv n stop y) {i : Nat} (hi : i < n)
    (hup : (y.fed i).alive = true) (h : ∃ t, .granted t ∈ y.got i) : y.props i ≠ [] := by
  obtain ⟨t, ht⟩ := h
  have hf := s.feds i hi
  obtain ⟨hg, rfl⟩ := s.rti.core.grant i t (got_sub y i ht)
  rcases s.rti.core.why i hi (s.rti.core.grants.1 hg i hi) with h | h
  · rcases hf.here with h' | h'
    · rw [h] at h'; cases h'
    · rw [hup] at h'; cases h'
  · obtain ⟨t0, ht0⟩ := List.exists_mem_of_ne_nil _ h
    exact List.ne_nil_of_mem (counted_sub y i ht0)

theorem LInv.set {n : Nat} {y : Sys} (h : LInv n y) (i : Nat) (f : Fed) (ms : List Msg)
    (hb : i < n → Bar (own f.b) (Held f (y.props i ++ ms.filterMap propTag)) (∃ t, .granted t ∈ y.got i)) :
    LInv n (y.set i f ms) := by
  intro j hj
  by_cases e : j = i
  · subst e
    have e1 : (y.set j f ms).fed j = f := by simp [Sys.set]
    have e2 : (y.set j f ms).props j = y.props j ++ ms.filterMap propTag := by
      unfold Sys.props; simp [Sys.set, List.filterMap_append]
    rw [e1, e2]
    exact hb hj
  · have e1 : (y.set i f ms).fed j = y.fed j := by simp [Sys.set, e]
    have e2 : (y.set i f ms).props j = y.props j := by unfold Sys.props; simp [Sys.set, e]
    rw [e1, e2]
    exact h j hj

theorem LInv.take {n : Nat} {y : Sys} (h : LInv n y) (i : Nat) (f : Fed) {m : Msg} (hm : (y.rti.out i)[y.taken i]? = some m)
    (hb : i < n → Bar (own f.b) (Held f (y.props i)) (∃ t, .granted t ∈ y.got i ++ [m])) :
    LInv n { y.set i f [] with taken := upd y.taken i (y.taken i + 1) } := by
  intro j hj
  by_cases e : j = i
  · subst e
    generalize hz : ({ y.set j f [] with taken := upd y.taken j (y.taken j + 1) } : Sys) = z
    have e1 : z.fed j = f := by rw [← hz]; simp [Sys.set]
    have e2 : z.props j = y.props j := by unfold Sys.props; rw [← hz]; simp [Sys.set]
    have e3 : z.got j = y.got j ++ [m] := by
      rw [← hz]; unfold Sys.got; simp only [upd_same]; exact take_succ hm
    rw [e1, e2, e3]
    exact hb hj
  · generalize hz : ({ y.set i f [] with taken := upd y.taken i (y.taken i + 1) } : Sys) = z
    have e1 : z.fed j = y.fed j := by rw [← hz]; simp [Sys.set, e]
    have e2 : z.props j = y.props j := by unfold Sys.props; rw [← hz]; simp [Sys.set, e]
    have e3 : z.got j = y.got j := by
      rw [← hz]; unfold Sys.got; simp only [upd_ne _ _ e]; rfl
    rw [e1, e2, e3]
    exact h j hj

theorem LInv.step {n : Nat} {stop : Nat → Tag} {y z : Sys} (s : SInv n stop y) (l : LInv n y) (h : Step n y z) :
    LInv n z := by
  cases h with
  | act i b hi hup hl hm =>
    have hf := s.feds i hi
    refine l.set i _ [] (fun _ => (l i hi).congr (own_local hl hf.env.le) ?_ Iff.rfl)
    simp [Held]
  | callStop i hi hup =>
    have hf := s.feds i hi
    unfold callStop
    split
    · refine l.set i _ [] (fun _ => (l i hi).congr rfl ?_ Iff.rfl)
      simp
    · rename_i hsr
      refine l.set i _ [] (fun _ => (l i hi).congr rfl ?_ Iff.rfl)
      cases hf.phase with
      | fresh p1 p2 p3 p4 p5 => simp [Held, p3]
      | flagged p1 => exact absurd p1 hsr
      | raised c p1 => exact absurd p1 hsr
      | sent c p1 => exact absurd p1 hsr
      | checked c p1 => exact absurd p1 hsr
      | counted c p1 => exact absurd p1 hsr
      | blocked c p1 => exact absurd p1 hsr
  | raiseOwn i hi hup hq =>
    have hf := s.feds i hi
    refine l.set i _ [] (fun _ => ?_)
    rw [List.filterMap_nil, List.append_nil]
    unfold raiseOwn
    cases hf.phase with
    | flagged p1 p2 p3 p4 p5 =>
      have hng : ¬ ∃ t, .granted t ∈ y.got i := fun h => granted_props s hi hup.1 h p5
      have hnh : ¬ Held (y.fed i) (y.props i) := by
        rintro (⟨c, h⟩ | ⟨t, h⟩ | h)
        · rw [hq] at h; cases h
        · rw [h] at p4; exact not_calm_blocked p4
        · exact h p5
      have h0 := (l i hi).before hng hnh
      refine ⟨fun a => absurd a hng, fun _ _ => ?_, fun _ a => absurd (.inl ⟨_, rfl⟩) a⟩
      show own (Barrier.raise _ _ _) = 1
      rw [own_raise, h0]
    | fresh p1 p2 p3 => rw [hq] at p3; cases p3
    | raised c p1 p2 p3 => rw [hq] at p3; cases p3
    | sent c p1 p2 p3 => rw [hq] at p3; rcases p3 with p3 | p3 <;> cases p3
    | checked c p1 p2 p3 => rw [hq] at p3; cases p3
    | counted c p1 p2 p3 => rw [hq] at p3; cases p3
    | blocked c p1 p2 p3 => rw [hq] at p3; cases p3
  | sendOwn i c hi hup hq =>
    have hf := s.feds i hi
    refine l.set i _ _ (fun _ => ?_)
    cases hf.phase with
    | raised c' p1 p2 p3 p4 p5 p6 p7 =>
      unfold sendOwn
      rw [if_pos p2]
      refine (l i hi).congr rfl ?_ Iff.rfl
      refine ⟨fun _ => .inl ⟨_, hq⟩, fun _ => .inr (.inr ?_)⟩
      simp [propTag]
    | fresh p1 p2 p3 => rw [hq] at p3; cases p3
    | flagged p1 p2 p3 => rw [hq] at p3; cases p3
    | sent c p1 p2 p3 => rw [hq] at p3; rcases p3 with p3 | p3 <;> cases p3
    | checked c p1 p2 p3 => rw [hq] at p3; cases p3
    | counted c p1 p2 p3 => rw [hq] at p3; cases p3
    | blocked c p1 p2 p3 => rw [hq] at p3; cases p3
  | takeRequest i t hi hup hx hm =>
    refine l.take i _ hm (fun _ => (l i hi).congr rfl ?_ ?_)
    · simp [Held, hx]
    · simp
  | takeGrant i t hi hup hx hm =>
    have hf := s.feds i hi
    obtain ⟨t0, g1, g2, g3, g4, g5, g6, g7, g8, g9⟩ := s.grantAhead hi hup.1 hm
    refine l.take i _ hm (fun _ => ?_)
    have hng : ¬ ∃ t, .granted t ∈ y.got i := fun ⟨g, h⟩ => g9 g h
    have h1 := (l i hi).during hng (.inr (.inr (by rw [g1]; simp)))
    have h2 := own_grant hf.env (g3.mono g2)
    have hy : ∃ g, .granted g ∈ y.got i ++ [.granted t] := ⟨t, by simp⟩
    refine ⟨fun _ => ?_, fun a => absurd hy a, fun a => absurd hy a⟩
    show own (release _) = 0
    omega
  | check i t hi hup hx =>
    refine l.set i _ [] (fun _ => (l i hi).congr rfl ?_ Iff.rfl)
    simp [Held, check, hx]
  | countOnce i t a hi hup hx =>
    refine l.set i _ [] (fun _ => (l i hi).congr ?_ ?_ Iff.rfl)
    · unfold countOnce; split <;> rfl
    · unfold countOnce; split <;> simp [Held, hx]
  | raiseAsked i t hi hup hx =>
    have hf := s.feds i hi
    refine l.set i _ [] (fun _ => ?_)
    rw [List.filterMap_nil, List.append_nil]
    unfold raiseAsked
    simp only []
    cases hf.phase with
    | counted c p1 p2 p3 p4 p5 =>
      have hng : ¬ ∃ t, .granted t ∈ y.got i := fun h => granted_props s hi hup.1 h p5
      have hnh : ¬ Held (y.fed i) (y.props i) := by
        rintro (⟨c, h⟩ | ⟨t, h⟩ | h)
        · rw [p3] at h; cases h
        · rw [hx] at h; cases h
        · exact h p5
      have h0 := (l i hi).before hng hnh
      refine ⟨fun a => absurd a hng, fun _ _ => ?_, fun _ a => absurd (.inr (.inl ⟨_, rfl⟩)) a⟩
      show own (Barrier.raise _ _ _) = 1
      rw [own_raise, h0]
    | fresh p1 p2 p3 p4 p5 => rw [hx] at p4; rcases p4 with p4 | ⟨_, p4⟩ <;> cases p4
    | flagged p1 p2 p3 p4 => rw [hx] at p4; exact absurd p4 not_calm_counted
    | raised c p1 p2 p3 p4 => rw [hx] at p4; exact absurd p4 not_calm_counted
    | sent c p1 p2 p3 p4 => rw [hx] at p4; exact absurd p4 not_calm_counted
    | checked c p1 p2 p3 p4 => rw [hx] at p4; cases p4
    | blocked c p1 p2 p3 p4 => rw [hx] at p4; cases p4
  | sendReply i t hi hup hx =>
    refine l.set i _ _ (fun _ => (l i hi).congr rfl ?_ Iff.rfl)
    refine ⟨fun _ => .inr (.inl ⟨t, hx⟩), fun _ => .inr (.inr ?_)⟩
    simp [propTag]
  | resign i hi hup =>
    refine l.set i _ _ (fun _ => (l i hi).congr rfl ?_ Iff.rfl)
    simp [Held, propTag]
  | hear i m hi hc hm =>
    intro j hj
    have hg : ({ y with rti := handle n y.rti i m, heard := upd y.heard i (y.heard i + 1) } : Sys).got j = y.got j := by
      obtain ⟨e, he⟩ := handle_ext n y.rti i m j
      unfold Sys.got
      show ((handle n y.rti i m).out j).take (y.taken j) = _
      rw [he, List.take_append_of_le_length (s.feds j hj).taken]
    rw [hg]
    exact l j hj

theorem reach_LInv {n : Nat} {cur stop : Nat → Tag} {q : Nat → List Tag} (h : Start n cur stop) {y : Sys}
    (r : Reach n cur stop q y) : LInv n y := by
  induction r with
  | boot =>
    intro i hi
    refine ⟨fun ⟨t, h⟩ => ?_, fun _ h => ?_, fun _ _ => rfl⟩
    · simp [Sys.got, Stop.boot] at h
    · rcases h with ⟨c, h⟩ | ⟨t, h⟩ | h
      · cases h
      · cases h
      · exact absurd rfl h
  | step r st ih => exact LInv.step (reach_SInv h r) ih st

end ReactorC.Stop
