import Verif.Fedn.Safe

/-! With a common timeout and no requested stop, no message is later than the timeout. -/

set_option linter.unusedSimpArgs false
set_option linter.unusedVariables false

namespace ReactorC.Fedn
open ReactorC
open ReactorC.Rti (Topology Down Up Sys Sane put put_same put_other)

/-- Neither what is on the way to the RTI nor what it has forwarded is later than `τ`. -/
structure Within (τ : Tag) (σ : Sys) : Prop where
  up : ∀ i d s w m, Up.msg d s w m ∈ σ.up i → m ≤ τ
  out : ∀ i m, Down.msg m ∈ σ.rti.out i → m ≤ τ

section
variable {C : Config} {τ : Tag}

theorem Within.send {σ : Sys} (h : Within τ σ) (i : Nat) {x : Up} (hx : ∀ d s w m, x = .msg d s w m → m ≤ τ) :
    Within τ (σ.send i x) := by
  refine ⟨fun j d s w m hm => ?_, h.out⟩
  unfold Rti.Sys.send at hm
  dsimp only at hm
  by_cases e : j = i
  · subst e; rw [put_same] at hm
    rcases List.mem_append.1 hm with k | k
    · exact h.up j d s w m k
    · exact hx d s w m (List.mem_singleton.1 k).symm
  · rw [put_other _ _ _ e] at hm; exact h.up j d s w m hm

theorem Within.same {σ σ' : Sys} (h : Within τ σ) (h1 : σ'.up = σ.up) (h2 : σ'.rti = σ.rti) : Within τ σ' :=
  ⟨by rw [h1]; exact h.up, by rw [h2]; exact h.out⟩

theorem Within.sendNet {σ : Sys} (h : Within τ σ) (i : Nat) (n : Option Tag) : Within τ (sendNet i n σ) := by
  cases n with
  | none => exact h
  | some n =>
    exact (h.send (x := .net n (later n (σ.net i))) i (fun d s w m e => by cases e)).same rfl rfl

theorem Within.sendLtc {σ : Sys} (h : Within τ σ) (i : Nat) (n : Option Tag) : Within τ (sendLtc i n σ) := by
  cases n with
  | none => exact h
  | some n => exact (h.send (x := .ltc n) i (fun d s w m e => by cases e)).same rfl rfl

/-- A step of the RTI. -/
theorem Within.rti (hO : C.Ok) {σ σ' : Sys} (hr : Rti.Reach C.T C.start σ) (hs : Rti.Step C.T C.start σ σ') (h : Within τ σ)
    (hu : ∀ i d s w m, Up.msg d s w m ∈ σ'.up i → Up.msg d s w m ∈ σ.up i) : Within τ σ' := by
  obtain ⟨β, hi⟩ := hr.inv hO.topology hO.down hO.start hO.finite
  refine ⟨fun i d s w m hm => h.up i d s w m (hu i d s w m hm), fun j m hm => ?_⟩
  rcases (Rti.step_out hO.topology hO.down hO.start hi hs j).2 m hm with k | ⟨_, _, _, i, s, w, k⟩
  · exact h.out j m k
  · exact h.up i j s w m k

theorem mem_put_tail {up : Nat → List Up} {i : Nat} {x : Up} {q q' : List Up} (hq : up i = x :: q)
    (hq' : ∀ y ∈ q', y ∈ q ∨ ∀ d s w m, y ≠ .msg d s w m) (j d : Nat) (s : Tag) (w : Int) (m : Tag)
    (h : Up.msg d s w m ∈ put up i q' j) : Up.msg d s w m ∈ up j := by
  by_cases e : j = i
  · subst e; rw [put_same] at h
    rcases hq' _ h with k | k
    · rw [hq]; exact List.mem_cons_of_mem _ k
    · exact absurd rfl (k d s w m)
  · rw [put_other _ _ _ e] at h; exact h

theorem handle_up {i : Nat} {σ σ' : Sys} (h : handle C i σ = some σ') (j d : Nat) (s : Tag) (w : Int) (m : Tag)
    (hm : Up.msg d s w m ∈ σ'.up j) : Up.msg d s w m ∈ σ.up j := by
  unfold handle at h
  split at h
  · rename_i c q hq; cases h; exact mem_put_tail hq (fun y hy => .inl hy) j d s w m hm
  · rename_i d' s' w' m' q hq
    split at h
    · split at h
      · cases h; exact mem_put_tail hq (fun y hy => .inl hy) j d s w m hm
      · cases h
    · cases h
  · rename_i n p q hq
    split at h
    · cases h; exact mem_put_tail hq (fun y hy => .inl hy) j d s w m hm
    · cases h
  · rename_i c q hq
    split at h
    · cases h
      refine mem_put_tail hq (fun y hy => ?_) j d s w m hm
      rcases List.mem_cons.1 hy with k | k
      · right; intro d s w m e; rw [k] at e; cases e
      · exact .inl k
    · cases h
  · rename_i q hq
    split at h
    · cases h; exact mem_put_tail hq (fun y hy => .inl hy) j d s w m hm
    · cases h
  · cases h

theorem Within.take {s : State} (h : Within τ s.sys) (i : Nat) (direct need : Bool) :
    Within τ (take i direct need s).sys := by
  unfold Fedn.take
  cases (s.sys.rti.out i)[(s.fed i).taken]? with
  | none => exact h
  | some x =>
    cases x with
    | tag g => exact h
    | ptag g => exact h.sendLtc i _
    | msg m =>
      dsimp only
      split
      · unfold receive; split
        · exact h.same rfl rfl
        · exact h
      · exact h

/-- The stop tag of a federate is not later than the timeout. -/
theorem within (hO : C.Ok) (hC : C.Calm) (hτ : ∀ i < C.T.n, C.timeout i ≤ τ) {s : State} (h : Reach C s) :
    Within τ s.sys := by
  induction h with
  | init => exact ⟨fun i d s w m h => (by cases h), fun i m h => (by cases h)⟩
  | @step s a hr hp ih =>
    have hI := hr.inv hO hC
    cases a with
    | handle i =>
      unfold post
      dsimp only
      cases hh : handle C i s.sys with
      | none => exact ih
      | some σ => exact Within.rti hO hI.sys (handle_step hh).1 ih (handle_up hh)
    | closed i => exact Within.rti hO hI.sys (.closed s.sys i) ih (fun _ _ _ _ _ h => h)
    | breaks i => exact Within.rti hO hI.sys (.breaks s.sys i) ih (fun _ _ _ _ _ h => h)
    | stop t => exact Within.rti hO hI.sys (.stop s.sys t hp.1 hp.2) ih (fun _ _ _ _ _ h => h)
    | ask i => exact ih.sendNet i _
    | wake i => exact ih.sendNet i _
    | exit i => exact ih.sendNet i _
    | complete i need => exact ih.sendLtc i _
    | take i direct need => exact ih.take i direct need
    | leave i => exact ih.send i (fun d s w m e => by cases e)
    | send i d w =>
      obtain ⟨hi, hd, hw, h1, h2, h3, h4⟩ := hp
      refine ih.send i (fun d' s' w' m' e => ?_)
      cases e
      rw [cmp_le_zero] at h3
      have hfi := (hI.good i hi).inv (by rw [h1]; simp)
      exact Tag.le_trans h3 (Tag.le_trans hfi.stopTimeout (hτ i hi))
    | tick i t => exact ih
    | begin i => exact ih
    | resume i => exact ih
    | advance i => exact ih
    | schedule i δ e => exact ih
    | physical i e => exact ih
    | learn i t => exact ih

theorem takeMsg_badIndex {direct : Bool} {m : Tag} {f : Fed} (h : (takeMsg direct m f).1.fault = some .badIndex) :
    f.fault = some .badIndex ∨ (f.started = true ∧ f.stop ≤ f.cur ∧ f.cur < m) := by
  unfold takeMsg at h
  split at h
  · exact .inl h
  split at h
  · rename_i k
    simp only [ge_iff_le, cmp_ge_zero] at k
    dsimp only at h
    split at h
    · cases h
    · rename_i c
      rw [cmp_le_zero, Tag.not_le] at c
      exact .inr ⟨k.2, k.1, c⟩
  split at h
  · cases h
  · exact .inl h

/-- With one timeout for all federates and no requested stop, no message comes in at the stop tag for a later tag. -/
theorem noBadIndex (hO : C.Ok) (hC : C.Calm) (hs : C.stops = false) (hτ : ∀ i < C.T.n, C.timeout i = τ) {s : State}
    (h : Reach C s) : ∀ i < C.T.n, (s.fed i).fault ≠ some .badIndex := by
  induction h with
  | init => intro i _ k; cases k
  | @step s a hr hp ih =>
    have hI := hr.inv hO hC
    have hW := within hO hC (τ := τ) (fun i hi => by rw [hτ i hi]; exact Tag.le_refl _) hr
    have key : ∀ (j : Nat) (f : Fed), (j < C.T.n → f.fault ≠ some .badIndex) →
        ∀ i < C.T.n, (put s.fed j f i).fault ≠ some .badIndex := by
      intro j f hf i hi
      by_cases e : i = j
      · subst e; rw [put_same]; exact hf hi
      · rw [put_other _ _ _ e]; exact ih i hi
    cases a with
    | handle i =>
      unfold post
      dsimp only
      cases hh : handle C i s.sys with
      | none => exact ih
      | some σ => exact ih
    | closed i => exact ih
    | breaks i => exact ih
    | stop t => exact ih
    | send i d w => exact ih
    | tick i t => exact key i _ (fun hi => ih i hi)
    | begin i => exact key i _ (fun hi => ih i hi)
    | ask i => exact key i _ (fun hi => by rw [(ask_keeps i (s.fed i)).2.1]; exact ih i hi)
    | wake i => exact key i _ (fun hi => by rw [(wake_keeps (s.fed i)).2.1]; exact ih i hi)
    | resume i => exact key i _ (fun hi => by rw [(resume_keeps (s.fed i)).2.1]; exact ih i hi)
    | advance i => exact key i _ (fun hi => by rw [(advance_keeps i (s.fed i)).2]; exact ih i hi)
    | exit i => exact key i _ (fun hi => ih i hi)
    | leave i => exact key i _ (fun hi => ih i hi)
    | schedule i δ e => exact key i _ (fun hi => ih i hi)
    | physical i e => exact key i _ (fun hi => ih i hi)
    | learn i t => exact key i _ (fun hi => ih i hi)
    | complete i need =>
      refine key i _ (fun hi => ?_)
      show (confirm need (s.fed i).cur (s.fed i)).1.fault ≠ _
      rw [(confirm_keeps _ _ _).2.1]; exact ih i hi
    | take i direct need =>
      obtain ⟨hi, h1, h2⟩ := hp
      have hfi := (hI.good i hi).inv (free_not_gone h1)
      unfold post Fedn.take
      dsimp only
      cases hx : (s.sys.rti.out i)[(s.fed i).taken]? with
      | none => exact ih
      | some x =>
        cases x with
        | tag g => exact key i _ (fun hi => by rw [(takeTag_keeps _ _).2.1]; exact ih i hi)
        | ptag g =>
          refine key i _ (fun hi c => ?_)
          rcases (takePtag_keeps need g (s.fed i).read).2 with k | ⟨k, _, _⟩
          · rw [k] at c; exact ih i hi c
          · rw [k] at c; cases c
        | msg m =>
          refine key i _ (fun hi c => ?_)
          rcases takeMsg_badIndex c with k | ⟨_, k1, k2⟩
          · exact ih i hi k
          · have hm := hW.out i m (List.mem_of_getElem? hx)
            have := hfi.stops hs
            rw [hτ i hi] at this
            replace k1 : (s.fed i).stop ≤ (s.fed i).cur := k1
            replace k2 : (s.fed i).cur < m := k2
            rw [this] at k1
            exact Tag.lt_irrefl _ (Tag.lt_of_le_of_lt k1 (Tag.lt_of_lt_of_le k2 hm))

end

end ReactorC.Fedn
