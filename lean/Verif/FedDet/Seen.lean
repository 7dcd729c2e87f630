import Verif.FedDet.Steps
import Verif.Rti.Handled

/-! What the RTI knows of the federates that wait for it. -/

set_option linter.unusedVariables false

namespace ReactorC.FedDet
open ReactorC
open ReactorC.Rti (Topology Down Up Sys Sane put put_same put_other)
open ReactorC.Fedn (Config Fed State Ev Act Pc FInv)

variable {V : Type}

/-- Where the thread that advances the tag can be, and what may be sent. -/
structure Front (C : Config) (i : Nat) (f : Fed) : Prop where
  ask : ∀ t, f.pc = .asking none t → t = f.cur
  wait : ∀ o t, f.pc = .waiting o t → Fedn.hasUp C i = true ∧ (o = none → t = f.cur)
  pause : ∀ o, f.pc ≠ .pausing o
  zero : f.started = false ∨ f.pc = .executing → 0 ∈ f.causes
  rem : ∀ e ∈ f.q, e.rem = some 0

/-- A message that the RTI takes to be in transit has yet to be read, or its tag has yet to be executed, or the RTI is about to learn
that the tag is complete. -/
def Tr (stop : Tag) (f : Fed) (up : List Up) (tr : List Tag) (out : List Down) : Prop :=
  f.pc ≠ .gone → ∀ t ∈ tr, t ≤ stop ∧ Down.msg t ∈ out ∧ (Down.msg t ∈ out.drop f.taken ∨ (∃ e ∈ f.q, e.tag = t) ∨
    (f.pc = .executing ∧ t = f.cur) ∨ ∃ c, (Up.ltc c ∈ up ∨ Up.clean c ∈ up) ∧ t ≤ c)

/-- The tag that a federate waits for. -/
def goal (f : Fed) : Tag := if f.started then f.next else f.cur

/-- The RTI knows what a federate waits for, or will know it when it has read everything. -/
def Wt (stop : Tag) (f : Fed) (up : List Up) (out : List Down) (ne : Tag) (r : Bool) : Prop :=
  ∀ o t, f.pc = .waiting o t →
    (up = [] ∧ r = true ∧ ne ≤ stop ∧ (goal f ≤ ne ∨ ∃ m, Down.msg m ∈ out.drop f.taken ∧ m ≤ ne)) ∨
      ∃ q n p, up = q ++ [Up.net n p] ∧ goal f ≤ n ∧ n ≤ stop

section
variable {C : Config} {i : Nat} {f f' : Fed} {stop : Tag} {up up' : List Up} {tr : List Tag} {out : List Down} {ne : Tag} {r : Bool}

theorem Wt.of_not (h : ∀ o t, f.pc ≠ .waiting o t) : Wt stop f up out ne r := fun o t k => absurd k (h o t)

theorem Tr.mono (h : Tr stop f up tr out) (hg : f.pc = .gone → f'.pc = .gone) (hq : ∀ e ∈ f.q, e ∈ f'.q) (ht : f'.taken = f.taken)
    (hx : f.pc = .executing → f'.pc = .gone ∨ (f'.pc = .executing ∧ f'.cur = f.cur)) (hu : ∀ u ∈ up, u ∈ up') : Tr stop f' up' tr out := by
  intro hne t htr
  obtain ⟨h1, h2, h3⟩ := h (fun k => hne (hg k)) t htr
  refine ⟨h1, h2, ?_⟩
  rw [ht]
  rcases h3 with k | ⟨e, he, k⟩ | ⟨k, k'⟩ | ⟨c, k, k'⟩
  · exact .inl k
  · exact .inr (.inl ⟨e, hq e he, k⟩)
  · rcases hx k with k2 | ⟨k2, k3⟩
    · exact absurd k2 hne
    · exact .inr (.inr (.inl ⟨k2, by rw [k3]; exact k'⟩))
  · exact .inr (.inr (.inr ⟨c, k.imp (hu _) (hu _), k'⟩))

/-- A tag is entered. -/
theorem Tr.pop (h : Tr stop f up tr out) (hg : f.pc ≠ .gone) (hne : f.pc ≠ .executing) (hq : ∀ e ∈ f.q, e ∈ f'.q ∨ e.tag = f'.cur)
    (ht : f'.taken = f.taken) (hx : f'.pc = .executing) (hu : ∀ u ∈ up, u ∈ up') : Tr stop f' up' tr out := by
  intro _ t htr
  obtain ⟨h1, h2, h3⟩ := h hg t htr
  refine ⟨h1, h2, ?_⟩
  rw [ht]
  rcases h3 with k | ⟨e, he, k⟩ | ⟨k, k'⟩ | ⟨c, k, k'⟩
  · exact .inl k
  · rcases hq e he with k2 | k2
    · exact .inr (.inl ⟨e, k2, k⟩)
    · exact .inr (.inr (.inl ⟨hx, by rw [← k, k2]⟩))
  · exact absurd k hne
  · exact .inr (.inr (.inr ⟨c, k.imp (hu _) (hu _), k'⟩))

theorem pop_q (f : Fed) : ∀ e ∈ f.q, e ∈ f.pop.q ∨ e.tag = f.pop.cur := by
  intro e he
  by_cases k : e.tag = f.cur
  · exact .inr k
  · exact .inl (List.mem_filter.2 ⟨he, decide_eq_true k⟩)

theorem ret_seen (hF : Front C i f) (hT : Tr stop f up tr out) (hg : f.pc ≠ .gone) (hne : f.pc ≠ .executing) {o : Option Tag}
    (ho : o = none → f.started = false) (g : Tag) (hu : ∀ u ∈ up, u ∈ up') :
    Front C i (f.ret o g) ∧ Tr stop (f.ret o g) up' tr out ∧ ∀ o' t, (f.ret o g).pc ≠ .waiting o' t := by
  unfold Fed.ret
  cases o with
  | none =>
    dsimp only
    refine ⟨⟨fun t k => (by cases k), fun o t k => (by cases k), fun o k => (by cases k), fun _ => ?_, fun e he => ?_⟩, ?_, fun o t k => (by cases k)⟩
    · exact List.mem_append_left _ (hF.zero (.inl (ho rfl)))
    · exact hF.rem e (List.mem_filter.1 he).1
    · exact hT.pop hg hne (pop_q f) rfl rfl hu
  | some o =>
    dsimp only
    split
    · refine ⟨⟨fun t k => (by cases k), fun o t k => (by cases k), fun o k => (by cases k), fun k => hF.zero ?_, hF.rem⟩, ?_, fun o t k => (by cases k)⟩
      · rcases k with k | k
        · exact .inl k
        · cases k
      · exact hT.mono (fun k => absurd k hg) (fun e he => he) rfl (fun k => absurd k hne) hu
    · refine ⟨⟨fun t k => (by cases k), fun o t k => (by cases k), fun o k => (by cases k), fun k => hF.zero ?_, hF.rem⟩, ?_, fun o t k => (by cases k)⟩
      · rcases k with k | k
        · exact .inl k
        · cases k
      · exact hT.mono (fun k => absurd k hg) (fun e he => he) rfl (fun k => absurd k hne) hu

theorem bounded_false (P : Program V) (M : Timing) (i : Nat) (f : Fed) (t : Tag) : Fedn.bounded (conf P M) i f t = false := by
  have : Fedn.physical (conf P M) i = false := by
    unfold Fedn.physical
    have : decide (0 ≤ (conf P M).minDelay i) = false := by
      show decide ((0 : Int) ≤ -1) = false
      decide
    rw [this]; rfl
  unfold Fedn.bounded
  rw [this]; rfl

/-- What `lf_send_next_event_tag` adds to the channel to the RTI. -/
def netOf (n : Option Tag) (p : Tag → Tag) : List Up :=
  match n with
  | none => []
  | some n => [Up.net n (p n)]

theorem sendNet_up (i : Nat) (n : Option Tag) (σ : Sys) :
    (Fedn.sendNet i n σ).up = put σ.up i (σ.up i ++ netOf n fun n => Fedn.later n (σ.net i)) := by
  cases n with
  | none =>
    funext j
    by_cases e : j = i
    · subst e; rw [put_same]; simp [netOf, Fedn.sendNet]
    · rw [put_other _ _ _ e]; rfl
  | some n => rfl

theorem sendNet_rti (i : Nat) (n : Option Tag) (σ : Sys) : (Fedn.sendNet i n σ).rti = σ.rti := by
  cases n <;> rfl

end

section
variable {P : Program V} {M : Timing} {i : Nat} {f : Fed} {net done : Tag} {l : List Down} {up : List Up} {tr : List Tag} {out : List Down}
  {ne : Tag} {r : Bool}

theorem ask_seen (hF : Front (conf P M) i f) (hI : FInv (conf P M) i f net done l) (hs : f.stop = P.stop) (hT : Tr P.stop f up tr out)
    (hW : Wt P.stop f up out ne r) (p : Tag → Tag) :
    Front (conf P M) i (Fedn.ask (conf P M) i f).1 ∧ Tr P.stop (Fedn.ask (conf P M) i f).1 (up ++ netOf (Fedn.ask (conf P M) i f).2 p) tr out ∧
      Wt P.stop (Fedn.ask (conf P M) i f).1 (up ++ netOf (Fedn.ask (conf P M) i f).2 p) out ne r := by
  have hpcok := hI.pc
  unfold Fedn.ask
  cases hp : f.pc with
  | asking o t =>
    dsimp only
    have hg : f.pc ≠ .gone := by rw [hp]; simp
    have hne : f.pc ≠ .executing := by rw [hp]; simp
    have ho : o = none → f.started = false := by
      rintro rfl
      unfold Fedn.PcOk at hpcok
      rw [hp] at hpcok; exact hpcok.1
    have hret : ∀ (g : Tag) (n : Option Tag), Front (conf P M) i (f.ret o g) ∧ Tr P.stop (f.ret o g) (up ++ netOf n p) tr out ∧
        Wt P.stop (f.ret o g) (up ++ netOf n p) out ne r := by
      intro g n
      obtain ⟨h1, h2, h3⟩ := ret_seen hF hT hg hne ho g (up' := up ++ netOf n p) fun u hu => List.mem_append_left _ hu
      exact ⟨h1, h2, Wt.of_not h3⟩
    split
    · exact hret _ _
    split
    · exact hret _ _
    rw [bounded_false, if_neg (by simp)]
    split
    · rename_i hup
      refine ⟨⟨fun t k => (by cases k), fun o' t' k => ?_, fun o k => (by cases k), fun k => hF.zero ?_, hF.rem⟩, ?_, fun o' t' k => .inr ?_⟩
      · cases k
        exact ⟨hup, fun e => by subst e; exact hF.ask t hp⟩
      · rcases k with k | k
        · exact .inl k
        · cases k
      · exact hT.mono (fun k => absurd k hg) (fun e he => he) rfl (fun k => absurd k hne) fun u hu => List.mem_append_left _ hu
      · refine ⟨up, t, p t, rfl, ?_, ?_⟩
        · show (if f.started then f.next else f.cur) ≤ t
          cases o with
          | none =>
            rw [ho rfl, hF.ask t hp]; exact Tag.le_refl _
          | some o =>
            unfold Fedn.PcOk at hpcok
            rw [hp] at hpcok
            rw [hpcok.1, hpcok.2.2]; exact Tag.le_refl _
        · cases o with
          | none => rw [hF.ask t hp, ← hs]; exact hI.curStop
          | some o =>
            unfold Fedn.PcOk at hpcok
            rw [hp] at hpcok
            rw [hpcok.2.2, ← hs]; exact Fedn.next_le_stop f
    · exact hret _ _
  | _ => dsimp only; simpa [netOf] using ⟨hF, hT, hW⟩

theorem wake_seen (hF : Front (conf P M) i f) (hI : FInv (conf P M) i f net done l) (hs : f.stop = P.stop) (hT : Tr P.stop f up tr out)
    (hW : Wt P.stop f up out ne r) (hok : Fedn.NetOk (conf P M) i f (Fedn.wake f).2) (p : Tag → Tag) :
    Front (conf P M) i (Fedn.wake f).1 ∧ Tr P.stop (Fedn.wake f).1 (up ++ netOf (Fedn.wake f).2 p) tr out ∧
      Wt P.stop (Fedn.wake f).1 (up ++ netOf (Fedn.wake f).2 p) out ne r := by
  have hpcok := hI.pc
  revert hok
  unfold Fedn.wake
  cases hp : f.pc with
  | waiting o t =>
    dsimp only
    have hg : f.pc ≠ .gone := by rw [hp]; simp
    have hne : f.pc ≠ .executing := by rw [hp]; simp
    have ho : o = none → f.started = false := by
      rintro rfl
      unfold Fedn.PcOk at hpcok
      rw [hp] at hpcok; exact hpcok.1
    split
    · intro _
      obtain ⟨h1, h2, h3⟩ := ret_seen hF hT hg hne ho f.lastTAG (up' := up ++ netOf none p) fun u hu => List.mem_append_left _ hu
      exact ⟨h1, h2, Wt.of_not h3⟩
    split
    · intro hok
      refine ⟨hF, hT.mono id (fun e he => he) rfl (fun k => absurd k hne) fun u hu => List.mem_append_left _ hu, fun _ _ _ => .inr ?_⟩
      refine ⟨up, f.next, p f.next, rfl, ?_, by rw [← hs]; exact Fedn.next_le_stop f⟩
      unfold goal
      split
      · exact Tag.le_refl _
      · rename_i k
        rcases hok.2.1 with k2 | k2 | k2
        · cases k2
        · exact absurd k2 k
        · rw [k2]; exact Tag.le_refl _
    · intro _
      simpa [netOf] using ⟨hF, hT, hW⟩
  | _ => intro _; dsimp only; simpa [netOf] using ⟨hF, hT, hW⟩

theorem advance_seen (hF : Front (conf P M) i f) (hs : f.stop = P.stop) (hT : Tr P.stop f up tr out) (hp : f.pc = .resting) :
    Front (conf P M) i (Fedn.advance (conf P M) i f) ∧ Tr P.stop (Fedn.advance (conf P M) i f) up tr out ∧
      ∀ o t, (Fedn.advance (conf P M) i f).pc ≠ .waiting o t := by
  have hg : f.pc ≠ .gone := by rw [hp]; simp
  have hne : f.pc ≠ .executing := by rw [hp]; simp
  unfold Fedn.advance
  split
  · refine ⟨⟨fun t k => (by cases k), fun o t k => (by cases k), fun o k => (by cases k), fun k => hF.zero ?_, hF.rem⟩, ?_, fun o t k => (by cases k)⟩
    · rcases k with k | k
      · exact .inl k
      · cases k
    · exact hT.mono (fun k => absurd k hg) (fun e he => he) rfl (fun k => absurd k hne) fun u hu => hu
  · refine ⟨⟨fun t k => (by cases k), fun o t k => (by cases k), fun o k => (by cases k), fun _ => ?_, fun e he => ?_⟩, ?_, fun o t k => (by cases k)⟩
    · show (0 : Int) ∈ (Fed.pop _).causes
      unfold Fed.pop
      dsimp only
      rw [List.mem_append]
      split
      · exact .inl (by simp)
      · rename_i k
        right
        rcases Fedn.next_cases f with e | ⟨e, he, k2⟩
        · exact absurd ⟨(cmp_ge_zero _ _).2 (by rw [e]; exact Tag.le_refl _), .inl hs⟩ k
        · rw [List.mem_filterMap]
          exact ⟨e, List.mem_filter.2 ⟨he, decide_eq_true k2.symm⟩, hF.rem e he⟩
    · exact hF.rem e (List.mem_filter.1 he).1
    · refine hT.pop hg hne (fun e he => ?_) rfl rfl fun u hu => hu
      exact pop_q { f with
        cur := f.next
        causes := if lf_tag_compare f.next f.stop ≥ 0 ∧ (f.stop = (conf P M).timeout i ∨ (conf P M).shut = true) then [0] else [] } e he

/-- A tag is complete. -/
theorem complete_seen (hF : Front (conf P M) i f) (hI : FInv (conf P M) i f net done l) (hT : Tr P.stop f up tr out) (hp : f.pc = .executing)
    {need : Bool} (hneed : Down.msg f.cur ∈ out.take f.taken → need = true) :
    Front (conf P M) i (Fedn.complete need f).1 ∧
      Tr P.stop (Fedn.complete need f).1 (up ++ (match (Fedn.complete need f).2 with | none => [] | some c => [Up.ltc c])) tr out ∧
      ∀ o t, (Fedn.complete need f).1.pc ≠ .waiting o t := by
  have hst : f.started = true := by
    have := hI.pc
    unfold Fedn.PcOk at this
    rw [hp] at this; exact this
  have hlt := hI.ltcLt (.inr hp)
  have hcmp : ¬ lf_tag_compare f.lastLTC f.cur ≥ 0 := by rw [ge_iff_le, cmp_ge_zero]; exact Tag.not_le.2 hlt
  unfold Fedn.complete Fedn.confirm
  rw [if_neg hcmp]
  cases need with
  | false =>
    dsimp only
    rw [if_neg (by simp)]
    dsimp only
    refine ⟨⟨fun t k => (by cases k), fun o t k => (by cases k), fun o k => (by cases k), fun k => ?_, hF.rem⟩, ?_, fun o t k => (by cases k)⟩
    · rcases k with k | k
      · rw [show f.started = false from k] at hst; cases hst
      · cases k
    · intro _ t ht
      obtain ⟨h1, h2, h3⟩ := hT (by rw [hp]; simp) t ht
      refine ⟨h1, h2, ?_⟩
      rw [List.append_nil]
      rcases h3 with k | k | ⟨_, rfl⟩ | k
      · exact .inl k
      · exact .inr (.inl k)
      · left
        rw [← List.take_append_drop f.taken out] at h2
        rcases List.mem_append.1 h2 with k2 | k2
        · cases hneed k2
        · exact k2
      · exact .inr (.inr (.inr k))
  | true =>
    dsimp only
    rw [if_pos rfl]
    dsimp only
    refine ⟨⟨fun t k => (by cases k), fun o t k => (by cases k), fun o k => (by cases k), fun k => ?_, hF.rem⟩, ?_, fun o t k => (by cases k)⟩
    · rcases k with k | k
      · rw [show f.started = false from k] at hst; cases hst
      · cases k
    · intro _ t ht
      obtain ⟨h1, h2, h3⟩ := hT (by rw [hp]; simp) t ht
      refine ⟨h1, h2, ?_⟩
      rcases h3 with k | k | ⟨_, rfl⟩ | ⟨c, k, k'⟩
      · exact .inl k
      · exact .inr (.inl k)
      · exact .inr (.inr (.inr ⟨f.cur, .inl (List.mem_append_right _ List.mem_cons_self), Tag.le_refl _⟩))
      · exact .inr (.inr (.inr ⟨c, k.imp (List.mem_append_left _) (List.mem_append_left _), k'⟩))

theorem takeTag_seen (hF : Front (conf P M) i f) (hT : Tr P.stop f up tr out) (hW : Wt P.stop f up out ne r) {g : Tag}
    (hg : out[f.taken]? = some (.tag g)) :
    Front (conf P M) i (Fedn.takeTag g f.read) ∧ Tr P.stop (Fedn.takeTag g f.read) up tr out ∧ Wt P.stop (Fedn.takeTag g f.read) up out ne r := by
  have hd : ∀ m, Down.msg m ∈ out.drop f.taken ↔ Down.msg m ∈ out.drop (f.taken + 1) := by
    intro m
    obtain ⟨hlt, hget⟩ := List.getElem?_eq_some_iff.1 hg
    rw [List.drop_eq_getElem_cons hlt, hget, List.mem_cons]
    simp
  have key : ∀ f' : Fed, f'.pc = f.pc → f'.cur = f.cur → f'.q = f.q → f'.stop = f.stop → f'.started = f.started → f'.causes = f.causes →
      f'.taken = f.taken + 1 → Front (conf P M) i f' ∧ Tr P.stop f' up tr out ∧ Wt P.stop f' up out ne r := by
    intro f' h1 h2 h3 h4 h5 h6 h7
    refine ⟨⟨by rw [h1, h2]; exact hF.ask, by rw [h1, h2]; exact hF.wait, by rw [h1]; exact hF.pause, by rw [h1, h5, h6]; exact hF.zero,
      by rw [h3]; exact hF.rem⟩, fun k t ht => ?_, fun o t k => ?_⟩
    · rw [h1] at k
      rw [h1, h2, h3, h7, ← hd]
      exact hT k t ht
    · rw [h1] at k
      have hn : goal f' = goal f := by unfold goal; rw [h5, h2, Fedn.next_congr h3 h4]
      rw [h7, hn]
      simp only [← hd]
      exact hW o t k
  unfold Fedn.takeTag
  split
  · exact key _ rfl rfl rfl rfl rfl rfl rfl
  · exact key _ rfl rfl rfl rfl rfl rfl rfl

theorem takeMsg_eq {P : Program V} {f : Fed} {m : Tag} {direct : Bool} (hl : f.cur ≤ m ∧ (f.started = true → f.cur < m))
    (hs : f.stop = P.stop) (hms : m ≤ P.stop) :
    (Fedn.takeMsg direct m f.read).1 = { f with taken := f.taken + 1, q := ⟨m, some 0⟩ :: f.q } := by
  unfold Fedn.takeMsg
  rw [if_neg, if_neg, if_neg]
  · rfl
  · rintro ⟨k1, k2⟩
    rw [cmp_le_zero] at k1
    exact absurd k1 (Tag.not_le.2 (hl.2 k2))
  · rintro ⟨k1, k2⟩
    rw [ge_iff_le, cmp_ge_zero] at k1
    have k1 : f.stop ≤ f.cur := k1
    rw [hs] at k1
    exact absurd (Tag.le_trans hms k1) (Tag.not_le.2 (hl.2 k2))
  · rintro ⟨_, k2, _, k3⟩
    rw [cmp_eq_zero] at k3
    have := hl.2 k2
    rw [k3] at this
    exact Tag.lt_irrefl _ this

theorem takeMsg_seen (hF : Front (conf P M) i f) (hI : FInv (conf P M) i f net done l) (hT : Tr P.stop f up tr out)
    (hW : Wt P.stop f up out ne r) {m : Tag} {direct : Bool} (hg : out[f.taken]? = some (.msg m))
    (hl : f.cur ≤ m ∧ (f.started = true → f.cur < m)) (hs : f.stop = P.stop) (hms : m ≤ P.stop) :
    Front (conf P M) i (Fedn.takeMsg direct m f.read).1 ∧ Tr P.stop (Fedn.takeMsg direct m f.read).1 up tr out ∧
      Wt P.stop (Fedn.takeMsg direct m f.read).1 up out ne r := by
  have hd : ∀ m', Down.msg m' ∈ out.drop f.taken ↔ m' = m ∨ Down.msg m' ∈ out.drop (f.taken + 1) := by
    intro m'
    obtain ⟨hlt, hget⟩ := List.getElem?_eq_some_iff.1 hg
    rw [List.drop_eq_getElem_cons hlt, hget, List.mem_cons]
    simp
  have e := takeMsg_eq (direct := direct) (P := P) hl hs hms
  rw [e]
  refine ⟨⟨hF.ask, hF.wait, hF.pause, hF.zero, fun e he => ?_⟩, fun k t ht => ?_, fun o t k => ?_⟩
  · rcases List.mem_cons.1 he with rfl | he
    · rfl
    · exact hF.rem e he
  · obtain ⟨h1, h2, h3⟩ := hT k t ht
    refine ⟨h1, h2, ?_⟩
    rcases h3 with k | ⟨e, he, k⟩ | k | k
    · rcases (hd t).1 k with rfl | k
      · exact .inr (.inl ⟨_, List.mem_cons_self, rfl⟩)
      · exact .inl k
    · exact .inr (.inl ⟨e, List.mem_cons_of_mem _ he, k⟩)
    · exact .inr (.inr (.inl k))
    · exact .inr (.inr (.inr k))
  · have hle : goal { f with taken := f.taken + 1, q := ⟨m, some 0⟩ :: f.q } ≤ goal f := by
      unfold goal
      dsimp only
      split
      · exact Fedn.next_mono (fun e he => List.mem_cons_of_mem _ he) (Tag.le_refl _)
      · exact Tag.le_refl _
    have hm : goal { f with taken := f.taken + 1, q := ⟨m, some 0⟩ :: f.q } ≤ m := by
      unfold goal
      dsimp only
      split
      · exact Fedn.next_le (e := ⟨m, some 0⟩) List.mem_cons_self
      · exact hl.1
    rcases hW o t k with ⟨h1, h2, h3, h4⟩ | ⟨q, n, p, h1, h2, h3⟩
    · refine .inl ⟨h1, h2, h3, ?_⟩
      rcases h4 with h4 | ⟨m', h4, h5⟩
      · exact .inl (Tag.le_trans hle h4)
      · rcases (hd m').1 h4 with rfl | h4
        · exact .inl (Tag.le_trans hm h5)
        · exact .inr ⟨m', h4, h5⟩
    · exact .inr ⟨q, n, p, h1, Tag.le_trans hle h2, h3⟩

end

end ReactorC.FedDet
