import Verif.Fedn.Runs
import Verif.FedDet.Hop

/-! A federate that is granted the end of time does not tell the RTI any more how far it has come: the RTI holds back the
federates downstream of it until it resigns. -/

set_option linter.unusedSimpArgs false
set_option linter.unusedVariables false

namespace ReactorC.Fedn
open ReactorC
open ReactorC.Rti (Topology Down Up Sys Sane put put_same put_other)

section
variable {C : Config}

/-- The step is not one by which `g` confirms that it has completed a tag, which it does only if it has executed a reaction to
a message at that tag: `need_to_send_LTC`, core/federated/federate.c:2265. -/
def Unconfirmed (g : Nat) : Act → Prop
  | .complete i need => i = g → need = false
  | .take i _ need => i = g → need = false
  | _ => True

/-- Steps by which `g` does not confirm a tag. -/
inductive Steps (C : Config) (g : Nat) (s : State) : State → Prop
  | refl : Steps C g s s
  | step {s' : State} (a : Act) : Steps C g s s' → pre C s' a → Unconfirmed g a → Steps C g s (post C s' a)

theorem Steps.reach {g : Nat} {s s' : State} (h : Steps C g s s') (hr : Reach C s) : Reach C s' := by
  induction h with
  | refl => exact hr
  | step a _ hp _ ih => exact ih.step a hp

/-- What holds of a federate that has been granted the end of time. -/
structure Free (f : Fed) : Prop where
  last : FOREVER_TAG ≤ f.lastTAG
  stop : f.stop ≤ FOREVER_TAG
  cur : f.cur ≤ FOREVER_TAG
  asks : ∀ o t, f.pc = .asking o t → t ≤ FOREVER_TAG

theorem Free.next {f : Fed} (h : Free f) : f.next ≤ FOREVER_TAG := Tag.le_trans (next_le_stop f) h.stop

theorem Free.mk' {f f' : Fed} (h : Free f) (h1 : f'.lastTAG = f.lastTAG) (h2 : f'.stop = f.stop) (h3 : f'.cur = f.cur)
    (h4 : ∀ o t, f'.pc = .asking o t → t ≤ FOREVER_TAG) : Free f' :=
  ⟨by rw [h1]; exact h.last, by rw [h2]; exact h.stop, by rw [h3]; exact h.cur, h4⟩

theorem Free.ret {f : Fed} (h : Free f) (o : Option Tag) (t : Tag) : Free (f.ret o t) := by
  unfold Fed.ret
  split
  · exact h.mk' rfl rfl rfl (fun o t e => by cases e)
  · split
    · exact h.mk' rfl rfl rfl (fun o t e => by cases e; exact h.next)
    · exact h.mk' rfl rfl rfl (fun o t e => by cases e)

theorem Free.ask {f : Fed} (h : Free f) (i : Nat) : Free (ask C i f).1 ∧ (ask C i f).2 = none := by
  unfold Fedn.ask
  split
  · rename_i orig tag e
    split
    · exact ⟨h.ret _ _, rfl⟩
    · rw [if_pos (by rw [ge_iff_le, cmp_ge_zero]; exact Tag.le_trans (h.asks _ _ e) h.last)]
      exact ⟨h.ret _ _, rfl⟩
  · exact ⟨h, rfl⟩

theorem Free.wake {f : Fed} (h : Free f) : Free (wake f).1 ∧ (wake f).2 = none := by
  unfold Fedn.wake
  split
  · rw [if_pos (.inl (by rw [ge_iff_le, cmp_ge_zero]; exact Tag.le_trans h.next h.last))]
    exact ⟨h.ret _ _, rfl⟩
  · exact ⟨h, rfl⟩

theorem Free.advance {f : Fed} (h : Free f) (i : Nat) : Free (advance C i f) := by
  unfold Fedn.advance
  split
  · exact h.mk' rfl rfl rfl (fun o t e => by cases e)
  · exact ⟨h.last, h.stop, h.next, fun o t e => by cases e⟩

theorem confirm_false (t : Tag) (f : Fed) : confirm false t f = (f, none) := by
  unfold confirm
  split
  · rfl
  · rfl

theorem Free.complete {f : Fed} (h : Free f) : Free (complete false f).1 ∧ (complete false f).2 = none := by
  unfold Fedn.complete
  rw [confirm_false]
  exact ⟨h.mk' rfl rfl rfl (fun o t e => by cases e; exact h.next), rfl⟩

theorem Free.read {f : Fed} (h : Free f) : Free f.read := h.mk' rfl rfl rfl h.asks

theorem Free.takeTag {f : Fed} (h : Free f) (g : Tag) : Free (takeTag g f) := by
  unfold Fedn.takeTag
  split
  · rename_i k
    rw [ge_iff_le, cmp_ge_zero] at k
    exact ⟨Tag.le_trans h.last k, h.stop, h.cur, h.asks⟩
  · exact h

theorem Free.takePtag {f : Fed} (h : Free f) (g : Tag) : Free (takePtag false g f).1 ∧ (takePtag false g f).2 = none := by
  unfold Fedn.takePtag
  split
  · exact ⟨h.mk' rfl rfl rfl (fun o t e => by cases e), rfl⟩
  · rename_i k
    have k' : f.lastTAG ≤ g := by
      rw [← Tag.not_lt, ← cmp_lt_zero]; exact fun k' => k (.inl k')
    have k2 : Free { f with lastTAG := g, prov := true } := ⟨Tag.le_trans h.last k', h.stop, h.cur, h.asks⟩
    split
    · exact ⟨k2, rfl⟩
    · split
      · rw [confirm_false]; exact ⟨k2, rfl⟩
      · split
        · exact ⟨k2.mk' rfl rfl rfl k2.asks, rfl⟩
        · exact ⟨k2, rfl⟩

theorem Free.takeMsg {f : Fed} (h : Free f) (direct : Bool) (m : Tag) : Free (takeMsg direct m f).1 := by
  unfold Fedn.takeMsg
  split
  · exact h.mk' rfl rfl rfl h.asks
  · split
    · exact h.mk' rfl rfl rfl (fun o t e => by cases e)
    · split
      · exact h.mk' rfl rfl rfl (fun o t e => by cases e)
      · exact h.mk' rfl rfl rfl h.asks

theorem Free.learn {f : Fed} (h : Free f) (t : Tag) : Free (f.learn t) := by
  refine ⟨h.last, ?_, h.cur, h.asks⟩
  show (if lf_tag_compare t f.stop < 0 then t else f.stop) ≤ _
  split
  · rename_i k
    rw [cmp_lt_zero] at k
    exact Tag.le_trans (Tag.le_of_lt k) h.stop
  · exact h.stop

theorem Free.last_net {f : Fed} (h : Free f) (i : Nat) : lastNet C i f = none := by
  unfold lastNet
  split
  · rfl
  · rw [if_pos (by rw [ge_iff_le, cmp_ge_zero]; exact h.last)]

/-- What is kept: the federate is granted the end of time, and what it has told the RTI stays. -/
structure Kept (g : Nat) (net done : Tag) (s : State) : Prop where
  free : Free (s.fed g)
  net : s.sys.net g ≤ net
  done : s.sys.done g = done

theorem handle_kept {i : Nat} {σ σ' : Sys} (h : handle C i σ = some σ') : σ'.net = σ.net ∧ σ'.done = σ.done := by
  unfold handle at h
  split at h
  · cases h; exact ⟨rfl, rfl⟩
  · split at h
    · split at h
      · cases h; exact ⟨rfl, rfl⟩
      · cases h
    · cases h
  · split at h
    · cases h; exact ⟨rfl, rfl⟩
    · cases h
  · split at h
    · cases h; exact ⟨rfl, rfl⟩
    · cases h
  · split at h
    · cases h; exact ⟨rfl, rfl⟩
    · cases h
  · cases h

theorem receive_le (i : Nat) (m : Tag) (σ : Sys) (g : Nat) : (receive i m σ).net g ≤ σ.net g := by
  unfold receive
  split
  · rename_i h
    show put σ.net i m g ≤ _
    by_cases e : g = i
    · subst e; rw [put_same]; exact Tag.le_of_lt h
    · rw [put_other _ _ _ e]; exact Tag.le_refl _
  · exact Tag.le_refl _

theorem Kept.step {g : Nat} {net done : Tag} {s : State} (h : Kept g net done s) {a : Act} (ha : Unconfirmed g a) :
    Kept g net done (post C s a) := by
  have fed : ∀ (i : Nat) (f : Fed), (i = g → Free (s.fed g) → Free f) → Free (put s.fed i f g) := by
    intro i f k
    by_cases e : g = i
    · subst e; rw [put_same]; exact k rfl h.free
    · rw [put_other _ _ _ e]; exact h.free
  have netS : ∀ (i : Nat) (n : Option Tag), (i = g → n = none) → (sendNet i n s.sys).net g ≤ net := by
    intro i n k
    by_cases e : g = i
    · rw [k e.symm]; exact h.net
    · rw [sendNet_other _ _ e]; exact h.net
  have ltcS : ∀ (i : Nat) (n : Option Tag), (i = g → n = none) → (sendLtc i n s.sys).done g = done := by
    intro i n k
    by_cases e : g = i
    · rw [k e.symm]; exact h.done
    · rw [sendLtc_other _ _ e]; exact h.done
  cases a with
  | handle i =>
    show Kept g net done (match handle C i s.sys with | some σ => { s with sys := σ } | none => s)
    split
    · rename_i σ e
      obtain ⟨k1, k2⟩ := handle_kept e
      exact ⟨h.free, by show σ.net g ≤ _; rw [k1]; exact h.net, by show σ.done g = _; rw [k2]; exact h.done⟩
    · exact h
  | closed i => exact ⟨h.free, h.net, h.done⟩
  | breaks i => exact ⟨h.free, h.net, h.done⟩
  | tick i t => exact ⟨fed i _ (fun e k => by subst e; exact k.mk' rfl rfl rfl k.asks), h.net, h.done⟩
  | «begin» i =>
    exact ⟨fed i _ (fun e k => by subst e; exact k.mk' rfl rfl rfl (fun o t e => by cases e; exact k.cur)), h.net, h.done⟩
  | ask i =>
    exact ⟨fed i _ (fun e k => by subst e; exact (k.ask _).1), netS i _ (fun e => by subst e; exact (h.free.ask _).2),
      by show (sendNet i _ s.sys).done g = _; rw [sendNet_done]; exact h.done⟩
  | resume i =>
    refine ⟨fed i _ (fun e k => ?_), h.net, h.done⟩
    subst e
    unfold resume
    split
    · exact k.mk' rfl rfl rfl (fun o t e => by cases e; exact k.next)
    · exact k
  | wake i =>
    exact ⟨fed i _ (fun e k => by subst e; exact k.wake.1), netS i _ (fun e => by subst e; exact h.free.wake.2),
      by show (sendNet i _ s.sys).done g = _; rw [sendNet_done]; exact h.done⟩
  | advance i => exact ⟨fed i _ (fun e k => by subst e; exact k.advance _), h.net, h.done⟩
  | send i d w => exact ⟨h.free, h.net, h.done⟩
  | schedule i δ e => exact ⟨fed i _ (fun e k => by subst e; exact k.mk' rfl rfl rfl k.asks), h.net, h.done⟩
  | physical i e => exact ⟨fed i _ (fun e k => by subst e; exact k.mk' rfl rfl rfl k.asks), h.net, h.done⟩
  | complete i need =>
    refine ⟨fed i _ (fun e k => ?_), ?_, ltcS i _ (fun e => ?_)⟩
    · have := ha e; subst e; subst this; exact k.complete.1
    · show (sendLtc i _ s.sys).net g ≤ _
      rw [sendLtc_net]; exact h.net
    · have := ha e; subst e; subst this; exact h.free.complete.2
  | take i direct need =>
    show Kept g net done (take i direct need s)
    unfold take
    split
    · exact ⟨fed i _ (fun e k => by subst e; exact k.read.takeTag _), h.net, h.done⟩
    · rename_i t _
      refine ⟨fed i _ (fun e k => ?_), ?_, ltcS i _ (fun e => ?_)⟩
      · have := ha e; subst e; subst this; exact (k.read.takePtag t).1
      · show (sendLtc i _ s.sys).net g ≤ _
        rw [sendLtc_net]; exact h.net
      · have := ha e; subst e; subst this; exact (h.free.read.takePtag t).2
    · rename_i m _
      refine ⟨fed i _ (fun e k => by subst e; exact k.read.takeMsg _ _), ?_, ?_⟩
      · dsimp only
        split
        · exact Tag.le_trans (receive_le i m s.sys g) h.net
        · exact h.net
      · dsimp only
        split
        · rw [receive_done]; exact h.done
        · exact h.done
    · exact h
  | exit i =>
    exact ⟨fed i _ (fun e k => by subst e; exact k.mk' rfl rfl rfl (fun o t e => by cases e)),
      netS i _ (fun e => by subst e; exact h.free.last_net _),
      by show (sendNet i _ s.sys).done g = _; rw [sendNet_done]; exact h.done⟩
  | leave i =>
    exact ⟨fed i _ (fun e k => by subst e; exact k.mk' rfl rfl rfl (fun o t e => by cases e)), h.net, h.done⟩
  | stop t => exact ⟨h.free, h.net, h.done⟩
  | learn i t => exact ⟨fed i _ (fun e k => by subst e; exact k.learn _), h.net, h.done⟩

theorem Kept.steps {g : Nat} {net done : Tag} {s s' : State} (h : Kept g net done s) (hs : Steps C g s s') :
    Kept g net done s' := by
  induction hs with
  | refl => exact h
  | step a _ _ ha ih => exact ih.step ha

/-- What the federates upstream have not excluded is not granted, as long as they are there. -/
theorem not_granted (hO : C.Ok) (hN : NoCycle C.T) {σ : Sys} (hr : Rti.Reach C.T C.start σ) (hb : Rti.Whole σ.rti) {u d : Nat}
    {w : Int} (hu : u < C.T.n) (hd : d < C.T.n) (hw : (u, w) ∈ C.T.up d) (hc : (σ.rti.node u).connected = true)
    (hn : Up.resign ∉ σ.up u) {t m : Tag} (ht : Sane C.T t) (hF : t ≠ FOREVER_TAG) (hm : Sane C.T m) (hmF : m ≠ FOREVER_TAG)
    (hst : ⟨C.start, 0⟩ ≤ t) (hdone : σ.done u < t) (hnet : σ.net u ≤ t) (hdel : lf_delay_tag t w ≤ m) {g : Tag}
    (hg : Down.tag g ∈ σ.rti.out d ∨ Down.ptag g ∈ σ.rti.out d) : g < m := by
  rcases hg with hg | hg
  · obtain ⟨σ', q, e, k⟩ := Rti.might_send hO.topology hO.down hO.start hO.finite hr hb hc hn hu hd hw ht hF hm hst hdone hnet hdel
    have hc' : (σ'.rti.node u).connected = true := by rw [e.connected hb u]; exact hc
    exact Rti.coming_later hO.topology hO.down hO.start hO.finite (e.reach hr) hc' k hmF ((e.out d).subset hg)
  · exact absurd (Rti.reach_cycle hO.topology hO.down hO.start hO.finite hr hg) hN

/-- The federate downstream is held back. -/
theorem held_back (hO : C.Ok) (hC : C.Calm) (hN : NoCycle C.T) {s s' : State} (hr : Reach C s) {g d : Nat} {w : Int}
    (hg : g < C.T.n) (hd : d < C.T.n) (hw : (g, w) ∈ C.T.up d) (hfree : Free (s.fed g)) {t m : Tag} (ht : Sane C.T t)
    (hF : t ≠ FOREVER_TAG) (hm : Sane C.T m) (hmF : m ≠ FOREVER_TAG) (hst : ⟨C.start, 0⟩ ≤ t) (hdone : s.sys.done g < t)
    (hnet : s.sys.net g ≤ t) (hdel : lf_delay_tag t w ≤ m) (hs : Steps C g s s') (hb : Rti.Whole s'.sys.rti)
    (hc : (s'.sys.rti.node g).connected = true) (hn : Up.resign ∉ s'.sys.up g) (hst' : (s'.fed d).started = true)
    (hpc : (s'.fed d).pc ≠ .gone) : (s'.fed d).cur < m := by
  have hk := Kept.steps ⟨hfree, hnet, rfl⟩ hs
  have hi := (hs.reach hr).inv hO hC
  have hf := (hi.good d hd).inv hpc
  have hu : hasUp C d = true := hasUp_iff.2 (by intro k; rw [k] at hw; cases hw)
  have hl := hf.granted hst' hu
  refine Tag.lt_of_le_of_lt hl ?_
  have key : Down.tag (s'.fed d).lastTAG ∈ s'.sys.rti.out d ∨ Down.ptag (s'.fed d).lastTAG ∈ s'.sys.rti.out d := by
    rcases hf.last with k | ⟨_, k⟩ | ⟨_, k⟩
    · exfalso
      rw [k] at hl
      have := hf.start
      have h0 := hO.start
      have hN : NEVER_TAG.time = -9223372036854775808 := rfl
      tag_omega
    · exact .inl (List.mem_of_mem_take k)
    · exact .inr (List.mem_of_mem_take k)
  exact not_granted hO hN hi.sys hb hg hd hw hc hn ht hF hm hmF hst (by rw [hk.done]; exact hdone) hk.net hdel key

end

end ReactorC.Fedn
