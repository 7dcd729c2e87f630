import Verif.Fedn.Inv

/-! The invariant of the federation of Verif.Fedn.Model. -/

set_option linter.unusedSimpArgs false
set_option linter.unusedVariables false

namespace ReactorC.Fedn
open ReactorC
open ReactorC.Rti (Topology Down Up Sys Sane put put_same put_other)

theorem split_at {α : Type} {o : List α} {k : Nat} {x : α} (h : o[k]? = some x) :
    o = o.take k ++ x :: o.drop (k + 1) ∧ o.take (k + 1) = o.take k ++ [x] ∧ k + 1 ≤ o.length := by
  obtain ⟨hk, rfl⟩ := List.getElem?_eq_some_iff.1 h
  refine ⟨?_, ?_, hk⟩
  · rw [List.getElem_cons_drop]; exact (List.take_append_drop _ _).symm
  · rw [List.take_succ_eq_append_getElem hk]

/-- There is no cycle of connections without delay. -/
def NoCycle (T : Topology) : Prop := ¬ ∃ u, Rti.OnZeroDelayCycle T u

/-- What holds of the federate `i`. -/
structure Good (C : Config) (i : Nat) (s : State) : Prop where
  taken : (s.fed i).taken ≤ (s.sys.rti.out i).length
  inv : (s.fed i).pc ≠ .gone →
    FInv C i (s.fed i) (s.sys.net i) (s.sys.done i) ((s.sys.rti.out i).take (s.fed i).taken)
  badGrant : hasUp C i = true → (s.fed i).fault ≠ some .badGrant
  tardy : NoCycle C.T → (s.fed i).fault ≠ some .tardy

structure Inv (C : Config) (s : State) : Prop where
  sys : Rti.Reach C.T C.start s.sys
  good : ∀ i < C.T.n, Good C i s

section
variable {C : Config}

theorem hasUp_iff {i : Nat} : hasUp C i = true ↔ C.T.up i ≠ [] := by
  unfold hasUp; cases C.T.up i <;> simp

theorem hasDown_of {i d : Nat} {w : Int} (hd : d < C.T.n) (h : (i, w) ∈ C.T.up d) : hasDown C i = true := by
  unfold hasDown
  rw [List.any_eq_true]
  refine ⟨d, List.mem_range.2 hd, ?_⟩
  rw [List.any_eq_true]
  exact ⟨(i, w), h, by simp⟩

/-- The next message to be read by a federate that has started. -/
theorem next_message (hO : C.Ok) {i : Nat} {s : State} (hr : Rti.Reach C.T C.start s.sys)
    (h : FInv C i (s.fed i) (s.sys.net i) (s.sys.done i) ((s.sys.rti.out i).take (s.fed i).taken)) {m : Tag}
    (hm : (s.sys.rti.out i)[(s.fed i).taken]? = some (.msg m)) (hs : (s.fed i).started = true) :
    (s.fed i).cur < m ∨ (m = (s.fed i).cur ∧ (s.fed i).lastTAG = m ∧ (s.fed i).prov = true ∧
      Down.ptag m ∈ s.sys.rti.out i) := by
  obtain ⟨e, _, _⟩ := split_at hm
  have hmem : Down.msg m ∈ s.sys.rti.out i := by rw [e]; simp
  obtain ⟨_, _, hup⟩ := Rti.reach_msgs hO.topology hO.down hO.start hO.finite hr hmem
  have hg := h.granted hs (hasUp_iff.2 hup)
  obtain ⟨β, hi⟩ := hr.inv hO.topology hO.down hO.start hO.finite
  have ho := hi.rti.order i
  rw [e, List.pairwise_append] at ho
  have hl := fun a ha => ho.2.2 a ha (Down.msg m) List.mem_cons_self
  rcases h.last with k | ⟨_, k⟩ | ⟨k0, k⟩
  · rw [k] at hg
    have := h.start
    have h0 := hO.start
    have hN : NEVER_TAG.time = -9223372036854775808 := rfl
    exfalso; tag_omega
  · rcases hl _ k with k | k
    · exact .inl (Tag.lt_of_le_of_lt hg k)
    · left
      rcases Tag.lt_or_eq_of_le (show (s.fed i).cur ≤ m by rw [k]; exact Rti.le_forever h.sane.delay) with c | c
      · exact c
      · exact absurd (c.trans k) h.finite
  · have k1 : (s.fed i).lastTAG ≤ m := hl _ k
    rcases Tag.lt_or_eq_of_le (Tag.le_trans hg k1) with c | c
    · exact .inl c
    · have e2 : (s.fed i).lastTAG = m := Tag.le_antisymm k1 (by rw [← c]; exact hg)
      refine .inr ⟨c.symm, e2, k0, ?_⟩
      rw [e2] at k
      exact List.mem_of_mem_take k

/-- The next provisional grant to be read. -/
theorem next_ptag (hO : C.Ok) {i : Nat} {s : State} (hr : Rti.Reach C.T C.start s.sys)
    (h : FInv C i (s.fed i) (s.sys.net i) (s.sys.done i) ((s.sys.rti.out i).take (s.fed i).taken)) {g : Tag}
    (hm : (s.sys.rti.out i)[(s.fed i).taken]? = some (.ptag g)) (hu : hasUp C i = true) : (s.fed i).lastTAG < g := by
  obtain ⟨e, _, _⟩ := split_at hm
  have hmem : Down.ptag g ∈ s.sys.rti.out i := by rw [e]; simp
  have hgi := hr.ginv hO.topology hO.down hO.start (hasUp_iff.1 hu)
  have ho := hgi.order
  rw [e, List.pairwise_append] at ho
  have hl := fun a ha => ho.2.2 a ha (Down.ptag g) List.mem_cons_self
  rcases h.last with k | ⟨_, k⟩ | ⟨_, k⟩
  · rw [k]; exact hgi.above g hmem
  · exact hl _ k
  · exact hl _ k

/-! ## Frames -/

/-- A step that does not concern the federate `i`, except that the RTI may have written to it. -/
theorem Good.frame {i : Nat} {s s' : State} (h : Good C i s) (hf : s'.fed i = s.fed i) (hn : s'.sys.net i = s.sys.net i)
    (hd : s'.sys.done i = s.sys.done i) (ho : s.sys.rti.out i <+: s'.sys.rti.out i) : Good C i s' := by
  have ht : (s'.sys.rti.out i).take (s.fed i).taken = (s.sys.rti.out i).take (s.fed i).taken := by
    obtain ⟨r, hr⟩ := ho
    rw [← hr, List.take_append_of_le_length h.taken]
  refine ⟨?_, ?_, ?_, ?_⟩
  · rw [hf]; exact Nat.le_trans h.taken ho.length_le
  · rw [hf, hn, hd, ht]; exact h.inv
  · rw [hf]; exact h.badGrant
  · rw [hf]; exact h.tardy

/-- A step of the federate `i` in which nothing is read. -/
theorem Good.local {i : Nat} {s s' : State} (h : Good C i s) (ht : (s'.fed i).taken = (s.fed i).taken)
    (hfa : (s'.fed i).fault = (s.fed i).fault) (ho : s'.sys.rti.out i = s.sys.rti.out i)
    (hi : (s'.fed i).pc ≠ .gone →
      FInv C i (s'.fed i) (s'.sys.net i) (s'.sys.done i) ((s.sys.rti.out i).take (s.fed i).taken)) : Good C i s' := by
  refine ⟨?_, ?_, ?_, ?_⟩
  · rw [ht, ho]; exact h.taken
  · rw [ho, ht]; exact hi
  · rw [hfa]; exact h.badGrant
  · rw [hfa]; exact h.tardy

theorem sendNet_net (i : Nat) (n : Option Tag) (σ : Sys) : (sendNet i n σ).net i = netAfter n (σ.net i) := by
  cases n with
  | none => rfl
  | some n => exact put_same _ _ _

theorem sendNet_other {i j : Nat} (n : Option Tag) (σ : Sys) (h : j ≠ i) : (sendNet i n σ).net j = σ.net j := by
  cases n with
  | none => rfl
  | some n => exact put_other _ _ _ h

theorem sendNet_done (i : Nat) (n : Option Tag) (σ : Sys) : (sendNet i n σ).done = σ.done := by cases n <;> rfl
theorem sendNet_rti (i : Nat) (n : Option Tag) (σ : Sys) : (sendNet i n σ).rti = σ.rti := by cases n <;> rfl

theorem sendLtc_done (i : Nat) (c : Option Tag) (σ : Sys) : (sendLtc i c σ).done i = c.getD (σ.done i) := by
  cases c with
  | none => rfl
  | some c => exact put_same _ _ _

theorem sendLtc_other {i j : Nat} (c : Option Tag) (σ : Sys) (h : j ≠ i) : (sendLtc i c σ).done j = σ.done j := by
  cases c with
  | none => rfl
  | some c => exact put_other _ _ _ h

theorem sendLtc_net (i : Nat) (c : Option Tag) (σ : Sys) : (sendLtc i c σ).net = σ.net := by cases c <;> rfl
theorem sendLtc_rti (i : Nat) (c : Option Tag) (σ : Sys) : (sendLtc i c σ).rti = σ.rti := by cases c <;> rfl

theorem receive_net (i : Nat) (m : Tag) (σ : Sys) :
    (receive i m σ).net i = if m < σ.net i then m else σ.net i := by
  unfold receive; split
  · exact put_same _ _ _
  · rfl

theorem receive_other {i j : Nat} (m : Tag) (σ : Sys) (h : j ≠ i) : (receive i m σ).net j = σ.net j := by
  unfold receive; split
  · exact put_other _ _ _ h
  · rfl

theorem receive_done (i : Nat) (m : Tag) (σ : Sys) : (receive i m σ).done = σ.done := by
  unfold receive; split <;> rfl
theorem receive_rti (i : Nat) (m : Tag) (σ : Sys) : (receive i m σ).rti = σ.rti := by
  unfold receive; split <;> rfl

theorem sendNet_reach {i : Nat} {n : Option Tag} {σ : Sys} (h : Rti.Reach C.T C.start σ) (hi : i < C.T.n)
    (hs : Sane C.T (σ.net i)) (hn : ∀ t, n = some t → Sane C.T t ∧ (⟨C.start, 0⟩ : Tag) ≤ t) :
    Rti.Reach C.T C.start (sendNet i n σ) := by
  cases n with
  | none => exact h
  | some n =>
    obtain ⟨h1, h2⟩ := hn n rfl
    refine h.step (.sendNet σ i n (later n (σ.net i)) hi h1 ?_ h2 (le_later_left _ _) (le_later_right _ _))
    unfold later; split
    · exact hs
    · exact h1

theorem sendLtc_reach {i : Nat} {c : Option Tag} {σ : Sys} (h : Rti.Reach C.T C.start σ) (hi : i < C.T.n)
    (hn : ∀ t, c = some t → Sane C.T t ∧ σ.done i ≤ t) : Rti.Reach C.T C.start (sendLtc i c σ) := by
  cases c with
  | none => exact h
  | some c => exact h.step (.sendLtc σ i c hi (hn c rfl).1 (hn c rfl).2)

theorem confirm_some {need : Bool} {t c : Tag} {f : Fed} (h : (confirm need t f).2 = some c) :
    c = t ∧ f.lastLTC < t ∧ need = true := by
  unfold confirm at h
  split at h
  · cases h
  · rename_i k
    simp only [ge_iff_le, cmp_ge_zero, Tag.not_le] at k
    split at h
    · cases h; exact ⟨rfl, k, by assumption⟩
    · cases h

theorem ask_some {i : Nat} {f : Fed} {n : Tag} (h : (ask C i f).2 = some n) : ∃ o, f.pc = .asking o n := by
  unfold ask at h
  cases hp : f.pc with
  | asking o t =>
    rw [hp] at h
    dsimp only at h
    split at h
    · cases h
    split at h
    · cases h
    split at h
    · cases h
    split at h <;> (cases h; exact ⟨o, rfl⟩)
  | _ => rw [hp] at h; cases h

theorem wake_some {f : Fed} {n : Tag} (h : (wake f).2 = some n) : n = f.next ∧ f.pc ≠ .gone := by
  unfold wake at h
  cases hp : f.pc with
  | waiting o t =>
    rw [hp] at h
    dsimp only at h
    split at h
    · cases h
    split at h
    · cases h; exact ⟨rfl, by simp⟩
    · cases h
  | _ => rw [hp] at h; cases h

theorem ret_keeps (f : Fed) (o : Option Tag) (g : Tag) : (f.ret o g).taken = f.taken ∧ (f.ret o g).fault = f.fault := by
  unfold Fed.ret
  cases o with
  | none => exact ⟨rfl, rfl⟩
  | some o => dsimp only; split <;> exact ⟨rfl, rfl⟩

theorem ask_keeps (i : Nat) (f : Fed) : (ask C i f).1.taken = f.taken ∧ (ask C i f).1.fault = f.fault ∧
    (f.pc = .gone → ask C i f = (f, none)) := by
  unfold ask
  cases hp : f.pc with
  | asking o t =>
    dsimp only
    refine ⟨?_, ?_, fun k => by cases k⟩
    · split
      · exact (ret_keeps _ _ _).1
      split
      · exact (ret_keeps _ _ _).1
      split
      · rfl
      split
      · rfl
      · exact (ret_keeps _ _ _).1
    · split
      · exact (ret_keeps _ _ _).2
      split
      · exact (ret_keeps _ _ _).2
      split
      · rfl
      split
      · rfl
      · exact (ret_keeps _ _ _).2
  | _ => exact ⟨rfl, rfl, fun _ => rfl⟩

theorem wake_keeps (f : Fed) : (wake f).1.taken = f.taken ∧ (wake f).1.fault = f.fault ∧
    (f.pc = .gone → wake f = (f, none)) := by
  unfold wake
  cases hp : f.pc with
  | waiting o t =>
    dsimp only
    refine ⟨?_, ?_, fun k => by cases k⟩
    · split
      · exact (ret_keeps _ _ _).1
      split <;> rfl
    · split
      · exact (ret_keeps _ _ _).2
      split <;> rfl
  | _ => exact ⟨rfl, rfl, fun _ => rfl⟩

theorem resume_keeps (f : Fed) : (resume f).taken = f.taken ∧ (resume f).fault = f.fault ∧
    (f.pc = .gone → resume f = f) := by
  unfold resume
  cases hp : f.pc with
  | pausing o => exact ⟨rfl, rfl, fun k => by cases k⟩
  | _ => exact ⟨rfl, rfl, fun _ => rfl⟩

theorem advance_keeps (i : Nat) (f : Fed) : (advance C i f).taken = f.taken ∧ (advance C i f).fault = f.fault := by
  unfold advance; split <;> exact ⟨rfl, rfl⟩

theorem confirm_keeps (need : Bool) (t : Tag) (f : Fed) : (confirm need t f).1.taken = f.taken ∧
    (confirm need t f).1.fault = f.fault ∧ (confirm need t f).1.pc = f.pc := by
  unfold confirm; split
  · exact ⟨rfl, rfl, rfl⟩
  · split <;> exact ⟨rfl, rfl, rfl⟩

theorem takeTag_keeps (g : Tag) (f : Fed) : (takeTag g f).taken = f.taken ∧ (takeTag g f).fault = f.fault ∧
    (takeTag g f).pc = f.pc := by
  unfold takeTag; split <;> exact ⟨rfl, rfl, rfl⟩

theorem takePtag_keeps (need : Bool) (g : Tag) (f : Fed) : (takePtag need g f).1.taken = f.taken ∧
    ((takePtag need g f).1.fault = f.fault ∨
      ((takePtag need g f).1.fault = some .badGrant ∧ g ≤ f.lastTAG ∧ (takePtag need g f).2 = none)) := by
  unfold takePtag
  split
  · rename_i k
    refine ⟨rfl, .inr ⟨rfl, ?_, rfl⟩⟩
    rcases k with k | k
    · rw [cmp_lt_zero] at k; exact Tag.le_of_lt k
    · rw [cmp_eq_zero] at k; rw [k.1]; exact Tag.le_refl _
  split
  · exact ⟨rfl, .inl rfl⟩
  split
  · exact ⟨(confirm_keeps _ _ _).1, .inl (confirm_keeps _ _ _).2.1⟩
  split <;> exact ⟨rfl, .inl rfl⟩

theorem takePtag_some {need : Bool} {g c : Tag} {f : Fed} (h : (takePtag need g f).2 = some c) :
    c = g ∧ f.lastLTC < g ∧ need = true := by
  unfold takePtag at h
  split at h
  · cases h
  split at h
  · cases h
  split at h
  · exact confirm_some (f := { f with lastTAG := g, prov := true }) h
  split at h <;> cases h

theorem takeMsg_keeps (direct : Bool) (m : Tag) (f : Fed) : (takeMsg direct m f).1.taken = f.taken ∧
    (takeMsg direct m f).1.fault ≠ some .badGrant ∨ (takeMsg direct m f).1.fault = f.fault := by
  unfold takeMsg
  split
  · exact .inr rfl
  split
  · left; refine ⟨rfl, ?_⟩
    dsimp only; split <;> simp
  split
  · left; exact ⟨rfl, by simp⟩
  · exact .inr rfl

theorem takeMsg_taken (direct : Bool) (m : Tag) (f : Fed) : (takeMsg direct m f).1.taken = f.taken := by
  unfold takeMsg; split
  · rfl
  split
  · rfl
  split <;> rfl

theorem takeMsg_tardy {direct : Bool} {m : Tag} {f : Fed} (h : (takeMsg direct m f).1.fault = some .tardy) :
    f.fault = some .tardy ∨ (f.started = true ∧ m ≤ f.cur) := by
  unfold takeMsg at h
  split at h
  · exact .inl h
  split at h
  · rename_i k
    dsimp only at h
    split at h
    · rename_i c
      rw [cmp_le_zero] at c
      exact .inr ⟨k.2, c⟩
    · cases h
  split at h
  · rename_i k
    rw [cmp_le_zero] at k
    exact .inr ⟨k.2, k.1⟩
  · exact .inl h

/-- Being unable to accept a message ends the federate. -/
theorem takeMsg_refused {direct : Bool} {m : Tag} {f : Fed} (h : (takeMsg direct m f).2 = true) :
    (takeMsg direct m f).1.pc = f.pc := by
  unfold takeMsg at h ⊢
  split
  · rfl
  · rename_i k
    rw [if_neg k] at h
    split
    · rename_i k; rw [if_pos k] at h; cases h
    · rename_i k
      rw [if_neg k] at h
      split
      · rename_i k; rw [if_pos k] at h; cases h
      · rfl

/-! ## Steps -/

theorem free_not_gone {f : Fed} (h : f.free = true) : f.pc ≠ .gone := by
  intro k; unfold Fed.free at h; rw [k] at h; cases h

theorem handle_step {i : Nat} {σ σ' : Sys} (h : handle C i σ = some σ') : Rti.Step C.T C.start σ σ' ∧
    σ'.net = σ.net ∧ σ'.done = σ.done := by
  unfold handle at h
  split at h
  · rename_i c q hq; cases h; exact ⟨.clean σ i c q hq, rfl, rfl⟩
  · rename_i d s w m q hq
    split at h
    · rename_i hc
      split at h
      · rename_i r hr; cases h; exact ⟨.msg σ i d _ _ m q r hc hq hr, rfl, rfl⟩
      · cases h
    · cases h
  · rename_i n p q hq
    split at h
    · rename_i hc; cases h; exact ⟨.net σ i n p q hc hq, rfl, rfl⟩
    · cases h
  · rename_i c q hq
    split at h
    · rename_i hc; cases h; exact ⟨.ltc σ i c q hc hq, rfl, rfl⟩
    · cases h
  · rename_i q hq
    split at h
    · rename_i hc; cases h; exact ⟨.resign σ i q hc hq, rfl, rfl⟩
    · cases h
  · cases h

/-- A step of the RTI. -/
theorem Inv.rti {s : State} (h : Inv C s) (hO : C.Ok) {σ : Sys} (hs : Rti.Step C.T C.start s.sys σ)
    (hn : σ.net = s.sys.net) (hd : σ.done = s.sys.done) : Inv C { s with sys := σ } := by
  refine ⟨h.sys.step hs, fun i hi => ?_⟩
  obtain ⟨β, hinv⟩ := h.sys.inv hO.topology hO.down hO.start hO.finite
  exact (h.good i hi).frame rfl (by rw [hn]) (by rw [hd]) (Rti.step_out hO.topology hO.down hO.start hinv hs i).1

/-- A step of one federate. -/
theorem Inv.fed {s s' : State} (h : Inv C s) {i : Nat} (hs : Rti.Reach C.T C.start s'.sys)
    (ho : s'.sys.rti.out = s.sys.rti.out) (hf : ∀ j, j ≠ i → s'.fed j = s.fed j ∧ s'.sys.net j = s.sys.net j ∧
      s'.sys.done j = s.sys.done j) (hi : i < C.T.n → Good C i s') : Inv C s' := by
  refine ⟨hs, fun j hj => ?_⟩
  by_cases e : j = i
  · rw [e] at hj ⊢; exact hi hj
  · obtain ⟨k1, k2, k3⟩ := hf j e
    exact (h.good j hj).frame k1 k2 k3 (by rw [ho])

theorem Inv.init (hO : C.Ok) : Inv C (init C) := by
  refine ⟨.init, fun i hi => ⟨Nat.le_refl _, fun _ => ?_, (fun _ k => by cases k), (fun _ k => by cases k)⟩⟩
  have h0 := hO.start
  have h1 := hO.finite
  have hss : Sane C.T ⟨C.start, 0⟩ := Rti.sane_start hO.topology hO.start hO.finite
  have hN : NEVER_TAG.time = -9223372036854775808 := rfl
  exact {
    start := Tag.le_refl _
    first := fun _ => rfl
    sane := hss
    finite := by
      intro k
      have : C.start = FOREVER := congrArg Tag.time k
      omega
    curStop := hO.timeout i
    stopTimeout := Tag.le_refl _
    stops := fun _ => rfl
    clock := .inl rfl
    q := fun e he => ⟨(hO.events i e he).1, fun k => by cases k⟩
    events := fun e he d hd => ⟨(hO.events i e he).2 d hd, fun _ =>
      Tag.le_trans (hO.events i e he).1 (le_due ((hO.events i e he).2 d hd))⟩
    causes := fun d hd => ⟨hO.causes i d hd, fun _ => le_due (hO.causes i d hd)⟩
    idle := fun k => by cases k
    pc := rfl
    netSane := hss
    netTimeout := hO.timeout i
    netStart := fun _ => Tag.le_refl _
    netPhys := fun _ => .inl (Tag.le_refl _)
    ltc := rfl
    ltcLe := by show NEVER_TAG ≤ (⟨C.start, 0⟩ : Tag); tag_omega
    ltcLt := fun _ => by show NEVER_TAG < (⟨C.start, 0⟩ : Tag); tag_omega
    granted := fun k => by cases k
    last := .inl rfl
    grants := fun g hg => by
      rcases hg with hg | hg <;> cases hg }

theorem Inv.step (hO : C.Ok) (hC : C.Calm) {s : State} (h : Inv C s) {a : Act} (hp : pre C s a) : Inv C (post C s a) := by
  have hput : ∀ (i : Nat) (f : Fed) j, j ≠ i → put s.fed i f j = s.fed j := fun i f j hj => put_other _ _ _ hj
  cases a with
  | handle i =>
    unfold post
    dsimp only
    cases hh : handle C i s.sys with
    | none => exact h
    | some σ =>
      obtain ⟨h1, h2, h3⟩ := handle_step hh
      exact h.rti hO h1 h2 h3
  | closed i => exact h.rti hO (.closed s.sys i) rfl rfl
  | breaks i => exact h.rti hO (.breaks s.sys i) rfl rfl
  | stop t => exact h.rti hO (.stop s.sys t hp.1 hp.2) rfl rfl
  | tick i t =>
    refine h.fed (i := i) h.sys rfl (fun j hj => ⟨hput i _ j hj, rfl, rfl⟩) (fun hi => ?_)
    have hg := h.good i hi
    refine hg.local ?_ ?_ rfl ?_ <;> (unfold post; dsimp only; rw [put_same])
    exact fun k => (hg.inv k).tick hp
  | begin i =>
    obtain ⟨hi, h1, h2⟩ := hp
    refine h.fed (i := i) h.sys rfl (fun j hj => ⟨hput i _ j hj, rfl, rfl⟩) (fun hi => ?_)
    have hg := h.good i hi
    refine hg.local ?_ ?_ rfl ?_ <;> (unfold post; dsimp only; rw [put_same])
    exact fun k => (hg.inv (by rw [h1]; simp)).begin h1 h2
  | ask i =>
    obtain ⟨hi, h1⟩ := hp
    have hg := h.good i hi
    have hk := ask_keeps (C := C) i (s.fed i)
    have hng : ∀ n, (ask C i (s.fed i)).2 = some n → (s.fed i).pc ≠ .gone := by
      intro n hn k
      rw [hk.2.2 k] at hn; cases hn
    refine h.fed (i := i) ?_ (by unfold post; dsimp only; rw [sendNet_rti])
      (fun j hj => ⟨hput i _ j hj, sendNet_other _ _ hj, by unfold post; dsimp only; rw [sendNet_done]⟩) (fun hi => ?_)
    · by_cases hn : (ask C i (s.fed i)).2 = none
      · unfold post; dsimp only; rw [hn]; exact h.sys
      · obtain ⟨n, hn⟩ := Option.ne_none_iff_exists'.1 hn
        have hfi := hg.inv (hng n hn)
        refine sendNet_reach h.sys hi hfi.netSane (fun t ht => ?_)
        rw [ht] at h1
        refine ⟨h1.1, ?_⟩
        obtain ⟨o, ho⟩ := ask_some ht
        have hpc := hfi.pc
        unfold PcOk at hpc
        rw [ho] at hpc
        cases o with
        | none => exact Tag.le_trans hfi.start hpc.2
        | some o => rw [hpc.2.2]; exact Tag.le_trans hfi.start (cur_le_next hfi)
    · refine hg.local ?_ ?_ ?_ ?_ <;> (unfold post; dsimp only)
      · rw [put_same]; exact hk.1
      · rw [put_same]; exact hk.2.1
      · rw [sendNet_rti]
      · rw [put_same, sendNet_net, sendNet_done]
        intro k
        have hng : (s.fed i).pc ≠ .gone := by
          intro c; rw [hk.2.2 c] at k; exact k c
        exact (hg.inv hng).ask hO hC h1
  | resume i =>
    refine h.fed (i := i) h.sys rfl (fun j hj => ⟨hput i _ j hj, rfl, rfl⟩) (fun hi => ?_)
    have hg := h.good i hi
    have hk := resume_keeps (s.fed i)
    refine hg.local ?_ ?_ rfl ?_ <;> (unfold post; dsimp only; rw [put_same])
    · exact hk.1
    · exact hk.2.1
    · intro k
      have hng : (s.fed i).pc ≠ .gone := by
        intro c; rw [hk.2.2 c] at k; exact k c
      exact (hg.inv hng).resume
  | wake i =>
    obtain ⟨hi, h1⟩ := hp
    have hg := h.good i hi
    have hk := wake_keeps (s.fed i)
    refine h.fed (i := i) ?_ (by unfold post; dsimp only; rw [sendNet_rti])
      (fun j hj => ⟨hput i _ j hj, sendNet_other _ _ hj, by unfold post; dsimp only; rw [sendNet_done]⟩) (fun hi => ?_)
    · by_cases hn : (wake (s.fed i)).2 = none
      · unfold post; dsimp only; rw [hn]; exact h.sys
      · obtain ⟨n, hn⟩ := Option.ne_none_iff_exists'.1 hn
        have hfi := hg.inv (wake_some hn).2
        refine sendNet_reach h.sys hi hfi.netSane (fun t ht => ?_)
        rw [ht] at h1
        refine ⟨h1.1, ?_⟩
        rw [(wake_some ht).1]; exact Tag.le_trans hfi.start (cur_le_next hfi)
    · refine hg.local ?_ ?_ ?_ ?_ <;> (unfold post; dsimp only)
      · rw [put_same]; exact hk.1
      · rw [put_same]; exact hk.2.1
      · rw [sendNet_rti]
      · rw [put_same, sendNet_net, sendNet_done]
        intro k
        have hng : (s.fed i).pc ≠ .gone := by
          intro c; rw [hk.2.2 c] at k; exact k c
        exact (hg.inv hng).wake hO hC h1
  | advance i =>
    obtain ⟨hi, h1, h2, h3, h4⟩ := hp
    refine h.fed (i := i) h.sys rfl (fun j hj => ⟨hput i _ j hj, rfl, rfl⟩) (fun hi => ?_)
    have hg := h.good i hi
    have hk := advance_keeps (C := C) i (s.fed i)
    refine hg.local ?_ ?_ rfl ?_ <;> (unfold post; dsimp only; rw [put_same])
    · exact hk.1
    · exact hk.2
    · exact fun _ => (hg.inv (by rw [h1]; simp)).advance hC h1 h2 h3 h4
  | send i d w =>
    obtain ⟨hi, hd, hw, h1, h2, h3, h4⟩ := hp
    have hg := h.good i hi
    have hfi := hg.inv (by rw [h1]; simp)
    refine h.fed (i := i) ?_ rfl (fun j hj => ⟨rfl, rfl, rfl⟩) (fun _ => hg.local rfl rfl rfl (fun k => hfi))
    refine h.sys.step (.sendMsg s.sys i d (s.fed i).cur w _ hi hd hw hfi.sane hfi.finite h4 hfi.start ?_ ?_ (Tag.le_refl _))
    · rw [hfi.ltc]; exact hfi.ltcLt (.inr h1)
    · exact (hfi.causes 0 h2).2 (hasDown_of hd hw)
  | schedule i δ e =>
    obtain ⟨hi, h1, h2⟩ := hp
    refine h.fed (i := i) h.sys rfl (fun j hj => ⟨hput i _ j hj, rfl, rfl⟩) (fun hi => ?_)
    have hg := h.good i hi
    refine hg.local ?_ ?_ rfl ?_ <;> (unfold post; dsimp only; rw [put_same])
    exact fun k => (hg.inv k).schedule h1 h2
  | physical i e =>
    obtain ⟨hi, h1, h2⟩ := hp
    refine h.fed (i := i) h.sys rfl (fun j hj => ⟨hput i _ j hj, rfl, rfl⟩) (fun hi => ?_)
    have hg := h.good i hi
    refine hg.local ?_ ?_ rfl ?_ <;> (unfold post; dsimp only; rw [put_same])
    exact fun k => (hg.inv k).act h1 h2
  | complete i need =>
    obtain ⟨hi, h1⟩ := hp
    have hg := h.good i hi
    have hfi := hg.inv (by rw [h1]; simp)
    have hk := confirm_keeps need (s.fed i).cur (s.fed i)
    refine h.fed (i := i) ?_ (by unfold post; dsimp only; rw [sendLtc_rti])
      (fun j hj => ⟨hput i _ j hj, by unfold post; dsimp only; rw [sendLtc_net], sendLtc_other _ _ hj⟩) (fun hi => ?_)
    · refine sendLtc_reach h.sys hi (fun t ht => ?_)
      obtain ⟨k1, k2, _⟩ := confirm_some ht
      rw [k1, hfi.ltc]
      exact ⟨hfi.sane, Tag.le_of_lt k2⟩
    · refine hg.local ?_ ?_ ?_ ?_ <;> (unfold post; dsimp only)
      · rw [put_same]; exact hk.1
      · rw [put_same]; exact hk.2.1
      · rw [sendLtc_rti]
      · rw [put_same, sendLtc_net, sendLtc_done]
        exact fun _ => hfi.complete h1
  | exit i =>
    obtain ⟨hi, h1⟩ := hp
    have hg := h.good i hi
    have hfi := hg.inv (by rw [h1]; simp)
    refine h.fed (i := i) ?_ (by unfold post; dsimp only; rw [sendNet_rti])
      (fun j hj => ⟨hput i _ j hj, sendNet_other _ _ hj, by unfold post; dsimp only; rw [sendNet_done]⟩) (fun hi => ?_)
    · refine sendNet_reach h.sys hi hfi.netSane (fun t ht => ?_)
      have : t = FOREVER_TAG := by
        unfold lastNet at ht
        split at ht
        · cases ht
        · split at ht
          · cases ht
          · cases ht; rfl
      rw [this]
      exact ⟨.inl rfl, Rti.le_forever (Rti.sane_start hO.topology hO.start hO.finite).delay⟩
    · refine hg.local ?_ ?_ ?_ ?_ <;> (unfold post; dsimp only)
      · rw [put_same]
      · rw [put_same]
      · rw [sendNet_rti]
      · rw [put_same]; exact fun k => absurd rfl k
  | leave i =>
    refine h.fed (i := i) (h.sys.step (.sendResign s.sys i hp)) rfl (fun j hj => ⟨hput i _ j hj, rfl, rfl⟩) (fun hi => ?_)
    have hg := h.good i hi
    refine hg.local ?_ ?_ rfl ?_ <;> (unfold post; dsimp only; rw [put_same])
    exact fun k => absurd rfl k
  | learn i t =>
    obtain ⟨hi, h1, h2, h3⟩ := hp
    refine h.fed (i := i) h.sys rfl (fun j hj => ⟨hput i _ j hj, rfl, rfl⟩) (fun hi => ?_)
    have hg := h.good i hi
    refine hg.local ?_ ?_ rfl ?_ <;> (unfold post; dsimp only; rw [put_same])
    · rfl
    · rfl
    · exact fun k => (hg.inv k).learn h1 h2 h3
  | take i direct need =>
    obtain ⟨hi, h1, h2⟩ := hp
    have hg := h.good i hi
    have hfi := hg.inv (free_not_gone h1)
    unfold post Fedn.take
    dsimp only
    cases hx : (s.sys.rti.out i)[(s.fed i).taken]? with
    | none => exact h
    | some x =>
      rw [hx] at h2
      obtain ⟨_, e2, e3⟩ := split_at hx
      cases x with
      | tag g =>
        dsimp only
        refine h.fed (i := i) h.sys rfl (fun j hj => ⟨hput i _ j hj, rfl, rfl⟩) (fun hi => ?_)
        have hk := takeTag_keeps g (s.fed i).read
        refine ⟨?_, ?_, ?_, ?_⟩ <;> (dsimp only; rw [put_same])
        · rw [hk.1]; exact e3
        · rw [hk.1]; show _ → FInv C i _ _ _ ((s.sys.rti.out i).take ((s.fed i).taken + 1))
          rw [e2]; exact fun _ => hfi.read.takeTag h1 g
        · rw [hk.2.1]; exact hg.badGrant
        · rw [hk.2.1]; exact hg.tardy
      | ptag g =>
        dsimp only
        dsimp only at h2
        have hk := takePtag_keeps need g (s.fed i).read
        refine h.fed (i := i) ?_ (by dsimp only; rw [sendLtc_rti])
          (fun j hj => ⟨hput i _ j hj, by dsimp only; rw [sendLtc_net], sendLtc_other _ _ hj⟩) (fun hi => ?_)
        · refine sendLtc_reach h.sys hi (fun t ht => ?_)
          obtain ⟨k1, k2, k3⟩ := takePtag_some ht
          rw [k1, hfi.ltc]
          exact ⟨h2 k3, Tag.le_of_lt k2⟩
        · refine ⟨?_, ?_, ?_, ?_⟩ <;> (dsimp only; rw [put_same])
          · rw [hk.1, sendLtc_rti]; exact e3
          · rw [hk.1, sendLtc_rti, sendLtc_net, sendLtc_done]
            show _ → FInv C i _ _ _ ((s.sys.rti.out i).take ((s.fed i).taken + 1))
            rw [e2]; exact fun c => hfi.read.takePtag h1 c
          · intro hu c
            rcases hk.2 with k | ⟨_, k, _⟩
            · rw [k] at c; exact hg.badGrant hu c
            · have := next_ptag hO h.sys hfi hx hu
              exact absurd (Tag.lt_of_lt_of_le this k) (Tag.lt_irrefl _)
          · intro hz c
            rcases hk.2 with k | ⟨k, _, _⟩
            · rw [k] at c; exact hg.tardy hz c
            · rw [k] at c; cases c
      | msg m =>
        dsimp only
        obtain ⟨hms, hmst, hup⟩ := Rti.reach_msgs hO.topology hO.down hO.start hO.finite h.sys
          (List.mem_of_getElem? hx)
        have hfm := fun c => hfi.read.takeMsg (f := (s.fed i).read) (direct := direct) h1 hms hmst c
        have hpc : (takeMsg direct m (s.fed i).read).2 = true → (takeMsg direct m (s.fed i).read).1.pc ≠ .gone := by
          intro c; rw [takeMsg_refused c]; exact free_not_gone h1
        have hsys : ∀ b : Bool, (if b then receive i m s.sys else s.sys).rti = s.sys.rti ∧
            (if b then receive i m s.sys else s.sys).done = s.sys.done ∧
            (if b then receive i m s.sys else s.sys).net i =
              (if b then (if m < s.sys.net i then m else s.sys.net i) else s.sys.net i) ∧
            ∀ j, j ≠ i → (if b then receive i m s.sys else s.sys).net j = s.sys.net j := by
          intro b
          cases b with
          | false => exact ⟨rfl, rfl, rfl, fun _ _ => rfl⟩
          | true => exact ⟨receive_rti i m _, receive_done i m _, receive_net i m _, fun j hj => receive_other m _ hj⟩
        refine h.fed (i := i) ?_ (by dsimp only; rw [(hsys _).1])
          (fun j hj => ⟨hput i _ j hj, (hsys _).2.2.2 j hj, by dsimp only; rw [(hsys _).2.1]⟩) (fun hi => ?_)
        · dsimp only
          split
          · rename_i c
            have hdone := (hfm (hpc c)).2 c
            unfold receive
            split
            · rename_i k
              exact h.sys.step (.receive s.sys i m (List.mem_of_getElem? hx) hdone k)
            · exact h.sys
          · exact h.sys
        · refine ⟨?_, ?_, ?_, ?_⟩ <;> (dsimp only; rw [put_same])
          · rw [takeMsg_taken, (hsys _).1]; exact e3
          · rw [takeMsg_taken, (hsys _).1, (hsys _).2.1, (hsys _).2.2.1]
            show _ → FInv C i _ _ _ ((s.sys.rti.out i).take ((s.fed i).taken + 1))
            rw [e2]; exact fun c => (hfm c).1
          · intro hu c
            rcases takeMsg_keeps direct m (s.fed i).read with k | k
            · exact k.2 c
            · rw [k] at c; exact hg.badGrant hu c
          · intro hz c
            rcases takeMsg_tardy c with k | ⟨k1, k2⟩
            · exact hg.tardy hz k
            · rcases next_message hO h.sys hfi hx k1 with b | b
              · exact absurd (Tag.lt_of_lt_of_le b k2) (Tag.lt_irrefl _)
              · exact hz (Rti.reach_cycle hO.topology hO.down hO.start hO.finite h.sys b.2.2.2)

theorem Reach.inv (hO : C.Ok) (hC : C.Calm) {s : State} (h : Reach C s) : Inv C s := by
  induction h with
  | init => exact Inv.init hO
  | step a _ hp ih => exact ih.step hO hC hp

end

end ReactorC.Fedn
