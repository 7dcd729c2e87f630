import Verif.FedDet.Inv

/-! The sequential execution keeps the rules of `Exec.Good`. -/

set_option linter.unusedVariables false

namespace ReactorC.FedDet
open ReactorC
open ReactorC.Rti (Topology Sane put put_same put_other)

variable {V : Type}

/-- Nothing is due up to `t` at `i`. -/
def Seq.Clear (P : Program V) (rank : Nat → Nat) (s : Seq V) (i : Nat) (t : Tag) : Prop :=
  ∀ j u, s.Due P j u → t < u ∨ (t = u ∧ rank i ≤ rank j ∧ j ≠ i)

def Seq.toExec (P : Program V) (rank : Nat → Nat) (s : Seq V) : Exec V where
  log := s.log
  passed i t := s.Clear P rank i t
  could i t := Fit P.T t ∧ P.first ≤ t ∧ ¬ s.Clear P rank i t

structure SeqInv (P : Program V) (rank : Nat → Nat) (s : Seq V) : Prop where
  sorted : ∀ i, (s.log i).Pairwise fun a b => b.1 < a.1
  fits : ∀ i, ∀ x ∈ s.log i, i < P.T.n ∧ P.first ≤ x.1 ∧ x.1 ≤ P.stop ∧ Fit P.T x.1
  single : ∀ i, Single (s.pend i)
  after : ∀ i, ∀ e ∈ s.pend i, P.first ≤ e.1
  clear : ∀ i, ∀ x ∈ s.log i, s.Clear P rank i x.1
  first : ∀ i, s.log i ≠ [] → ∃ y, (P.first, y) ∈ s.log i
  cause : ∀ i t y, (t, y) ∈ s.log i → t = P.first ∨ t = P.stop ∨ ∃ k v, y k = some v
  gen : ∀ i (e : Event V), Gen P s.log i e.1 e.2.1 e.2.2 ↔ e ∈ s.pend i ∨ ∃ y, (e.1, y) ∈ s.log i ∧ y e.2.1 = some e.2.2

section
variable {P : Program V} {rank : Nat → Nat} {s : Seq V}

theorem mem_mail {j d : Nat} {t : Tag} {h : List (Entry V)} {e : Event V} : e ∈ mail P j d t h ↔
    ∃ o ∈ P.outs j h, o.dest = d ∧ e = (lf_delay_tag t o.delay, o.port, o.val) ∧ e.1 ≤ P.stop := by
  unfold mail
  rw [List.mem_filterMap]
  constructor
  · rintro ⟨o, ho, k⟩
    split at k
    · rename_i c
      cases k
      exact ⟨o, ho, c.1, rfl, c.2⟩
    · cases k
  · rintro ⟨o, ho, rfl, rfl, k⟩
    exact ⟨o, ho, by rw [if_pos ⟨rfl, k⟩]⟩

/-- What the program does at a tag is later, at this tag or later along the connections. -/
theorem mail_later (hP : P.Ok rank) {i d : Nat} {t : Tag} (ht : Fit P.T t) {h : List (Entry V)} {e : Event V} (he : e ∈ mail P i d t h) :
    t < e.1 ∨ (t = e.1 ∧ rank i < rank d) := by
  obtain ⟨o, ho, rfl, rfl, _⟩ := mem_mail.1 he
  have hw := (hP.dest i h o ho).2
  by_cases c : o.delay < 0
  · right
    refine ⟨?_, hP.rank _ _ _ hw c⟩
    rcases lf_delay_tag_cases t o.delay with k | k | k | k
    · exact k.2.symm
    · omega
    · omega
    · omega
  · exact .inl (delay_before ht (Int.not_lt.1 c) (Tag.le_refl _))

theorem mem_exec_pend {i : Nat} {t : Tag} {d : Nat} {e : Event V} : e ∈ (s.exec P i t).pend d ↔
    (d = i ∧ (e ∈ s.pend i ∧ e.1 ≠ t ∨ e ∈ P.scheds i ((t, present t (s.pend i)) :: s.log i))) ∨ (d ≠ i ∧ e ∈ s.pend d) ∨
      e ∈ mail P i d t ((t, present t (s.pend i)) :: s.log i) := by
  unfold Seq.exec
  dsimp only
  rw [List.mem_append]
  by_cases c : d = i
  · rw [if_pos c, List.mem_append, List.mem_filter, decide_eq_true_eq]
    simp [c]
  · rw [if_neg c]
    simp [c]

theorem SeqInv.init (hP : P.Ok rank) (hs : ∀ i, Single (P.init i)) : SeqInv P rank ⟨fun _ => [], P.init⟩ where
  sorted _ := .nil
  fits _ _ h := by cases h
  single := hs
  after := hP.after
  clear _ _ h := by cases h
  first _ h := absurd rfl h
  cause _ _ _ h := by cases h
  gen i e := by
    obtain ⟨t, k, v⟩ := e
    constructor
    · intro h
      cases h with
      | init h => exact .inl h
      | sched hx _ => cases hx
      | mail hx _ _ => cases hx
    · rintro (h | ⟨y, h, _⟩)
      · exact .init h
      · cases h

theorem SeqInv.step (h : SeqInv P rank s) (hP : P.Ok rank) {i : Nat} {t : Tag} (hd : s.Due P i t)
    (hmin : ∀ j u, s.Due P j u → t < u ∨ (t = u ∧ rank i ≤ rank j)) (hF : Fit P.T t) (hs : ∀ d, Single ((s.exec P i t).pend d)) :
    SeqInv P rank (s.exec P i t) := by
  have hi : i < P.T.n := hd.1
  have hlog : ∀ j, (s.exec P i t).log j = put s.log i ((t, present t (s.pend i)) :: s.log i) j := fun _ => rfl
  have hold : ∀ x ∈ s.log i, x.1 < t := by
    intro x hx
    rcases h.clear i x hx i t hd with k | k
    · exact k
    · exact absurd rfl k.2.2
  have hfirst : P.first ≤ t := by
    rcases hd.2.2 with ⟨e, he, rfl⟩ | ⟨k, _⟩ | ⟨k, _⟩
    · exact h.after i e he
    · rw [k]; exact Tag.le_refl _
    · rw [k]; exact hP.stop
  -- what is due afterwards
  have hdue : ∀ j u, (s.exec P i t).Due P j u → (s.Due P j u ∧ (j = i → t < u)) ∨ t < u ∨ (t = u ∧ rank i < rank j) := by
    intro j u ⟨hj, hu, k⟩
    have old : s.Due P j u → (j = i → u ≠ t) → (s.Due P j u ∧ (j = i → t < u)) := by
      intro k1 k2
      refine ⟨k1, fun c => ?_⟩
      rcases hmin j u k1 with k3 | k3
      · exact k3
      · exact absurd k3.1.symm (k2 c)
    rcases k with ⟨e, he, rfl⟩ | ⟨k1, k2⟩ | ⟨k1, k2⟩
    · rcases mem_exec_pend.1 he with ⟨rfl, ⟨k1, k2⟩ | k1⟩ | ⟨k1, k2⟩ | k1
      · exact .inl (old ⟨hj, hu, .inl ⟨e, k1, rfl⟩⟩ fun _ => k2)
      · exact .inr (.inl (hP.later j _ _ e k1))
      · exact .inl (old ⟨hj, hu, .inl ⟨e, k2, rfl⟩⟩ fun c => absurd c k1)
      · exact .inr (mail_later hP hF k1)
    · rw [hlog] at k2
      by_cases c : j = i
      · subst c; rw [put_same] at k2; cases k2
      · rw [put_other _ _ _ c] at k2
        exact .inl (old ⟨hj, hu, .inr (.inl ⟨k1, k2⟩)⟩ fun c' => absurd c' c)
    · by_cases c : j = i
      · subst c
        rw [hlog, put_same] at k2
        have h1 := k2 _ List.mem_cons_self
        exact .inl (old ⟨hj, hu, .inr (.inr ⟨k1, fun x hx => k2 x (List.mem_cons_of_mem _ hx)⟩)⟩ fun _ => fun e => h1 e.symm)
      · rw [hlog, put_other _ _ _ c] at k2
        exact .inl (old ⟨hj, hu, .inr (.inr ⟨k1, k2⟩)⟩ fun c' => absurd c' c)
  refine ⟨fun j => ?_, fun j x hx => ?_, hs, fun j e he => ?_, fun j x hx => ?_, fun j hne => ?_, fun j u y hy => ?_, fun j e => ?_⟩
  · rw [hlog]
    by_cases c : j = i
    · subst c; rw [put_same, List.pairwise_cons]; exact ⟨hold, h.sorted j⟩
    · rw [put_other _ _ _ c]; exact h.sorted j
  · rw [hlog] at hx
    by_cases c : j = i
    · subst c
      rw [put_same] at hx
      rcases List.mem_cons.1 hx with rfl | hx
      · exact ⟨hi, hfirst, hd.2.1, hF⟩
      · exact h.fits j x hx
    · rw [put_other _ _ _ c] at hx; exact h.fits j x hx
  · rcases mem_exec_pend.1 he with ⟨rfl, ⟨k1, _⟩ | k1⟩ | ⟨_, k2⟩ | k1
    · exact h.after j e k1
    · exact Tag.le_trans hfirst (Tag.le_of_lt (hP.later j _ _ e k1))
    · exact h.after j e k2
    · rcases mail_later hP hF k1 with k | k
      · exact Tag.le_trans hfirst (Tag.le_of_lt k)
      · rw [← k.1]; exact hfirst
  · intro j' u hu
    -- the tag that is executed now
    have now : t < u ∨ (t = u ∧ rank i ≤ rank j' ∧ j' ≠ i) := by
      rcases hdue j' u hu with ⟨k1, k2⟩ | k | ⟨k1, k2⟩
      · rcases hmin j' u k1 with k3 | ⟨k3, k4⟩
        · exact .inl k3
        · by_cases c : j' = i
          · exact .inl (k2 c)
          · exact .inr ⟨k3, k4, c⟩
      · exact .inl k
      · exact .inr ⟨k1, by omega, fun c => by subst c; omega⟩
    -- what has been executed before
    have before : ∀ x ∈ s.log j, x.1 < u ∨ (x.1 = u ∧ rank j ≤ rank j' ∧ j' ≠ j) := by
      intro x hx
      rcases hdue j' u hu with ⟨k1, k2⟩ | k | ⟨k1, k2⟩
      · exact h.clear j x hx j' u k1
      · rcases h.clear j x hx i t hd with k3 | k3
        · exact .inl (Tag.lt_trans k3 k)
        · rw [k3.1]; exact .inl k
      · rcases h.clear j x hx i t hd with k3 | k3
        · rw [← k1]; exact .inl k3
        · exact .inr ⟨k3.1.trans k1, by omega, fun c => by subst c; omega⟩
    rw [hlog] at hx
    by_cases c : j = i
    · subst c
      rw [put_same] at hx
      rcases List.mem_cons.1 hx with rfl | hx
      · exact now
      · exact before x hx
    · rw [put_other _ _ _ c] at hx
      exact before x hx
  · rw [hlog] at hne ⊢
    by_cases c : j = i
    · subst c
      rw [put_same]
      by_cases hl : s.log j = []
      · have : s.Due P j P.first := ⟨hi, hP.stop, .inr (.inl ⟨rfl, hl⟩)⟩
        have ht : t = P.first := by
          rcases hmin j _ this with k | k
          · exact absurd hfirst (Tag.not_le.2 k)
          · exact k.1
        exact ⟨_, by rw [ht]; exact List.mem_cons_self⟩
      · obtain ⟨y, hy⟩ := h.first j hl
        exact ⟨y, List.mem_cons_of_mem _ hy⟩
    · rw [put_other _ _ _ c] at hne ⊢; exact h.first j hne
  · rw [hlog] at hy
    by_cases c : j = i
    · subst c
      rw [put_same] at hy
      rcases List.mem_cons.1 hy with k | hy
      · cases k
        rcases hd.2.2 with ⟨e, he, rfl⟩ | ⟨k, _⟩ | ⟨k, _⟩
        · exact .inr (.inr ⟨_, _, present_of (h.single j) he⟩)
        · exact .inl k
        · exact .inr (.inl k)
      · exact h.cause j u y hy
    · rw [put_other _ _ _ c] at hy; exact h.cause j u y hy
  · refine (gen_enter (a := (t, present t (s.pend i))) hold j e.1 e.2.1 e.2.2).trans ?_
    rw [h.gen j e, mem_exec_pend, mem_mail, hlog]
    constructor
    · rintro ((k | ⟨y, k1, k2⟩) | ⟨rfl, k⟩ | k)
      · by_cases c : j = i
        · subst c
          by_cases c' : e.1 = t
          · refine .inr ⟨present t (s.pend j), ?_, ?_⟩
            · rw [put_same, c']; exact List.mem_cons_self
            · rw [← c']; exact present_of (h.single j) k
          · exact .inl (.inl ⟨rfl, .inl ⟨k, c'⟩⟩)
        · exact .inl (.inr (.inl ⟨c, k⟩))
      · refine .inr ⟨y, ?_, k2⟩
        by_cases c : j = i
        · subst c; rw [put_same]; exact List.mem_cons_of_mem _ k1
        · rw [put_other _ _ _ c]; exact k1
      · exact .inl (.inl ⟨rfl, .inr k⟩)
      · exact .inl (.inr (.inr k))
    · rintro ((⟨rfl, ⟨k, _⟩ | k⟩ | ⟨_, k⟩ | k) | ⟨y, k1, k2⟩)
      · exact .inl (.inl k)
      · exact .inr (.inl ⟨rfl, k⟩)
      · exact .inl (.inl k)
      · exact .inr (.inr k)
      · by_cases c : j = i
        · subst c
          rw [put_same] at k1
          rcases List.mem_cons.1 k1 with k1 | k1
          · obtain ⟨e1, e2⟩ := Prod.mk.inj k1
            rw [e2] at k2
            have := present_some k2
            rw [← e1] at this
            exact .inl (.inl this)
          · exact .inl (.inr ⟨y, k1, k2⟩)
        · rw [put_other _ _ _ c] at k1; exact .inl (.inr ⟨y, k1, k2⟩)

theorem Seq.Reach.inv (hP : P.Ok rank) (h : Seq.Reach P rank s) : SeqInv P rank s := by
  induction h with
  | init hs => exact .init hP hs
  | step _ hd hmin hF hs ih => exact ih.step hP hd hmin hF hs

theorem Seq.Clear.not_due {i : Nat} {t : Tag} (h : s.Clear P rank i t) : ¬ s.Due P i t := by
  intro k
  rcases h i t k with c | c
  · exact Tag.lt_irrefl _ c
  · exact c.2.2 rfl

theorem Seq.Clear.mono {i : Nat} {t u : Tag} (h : s.Clear P rank i t) (hu : u ≤ t) : s.Clear P rank i u := by
  intro j v hv
  rcases h j v hv with c | ⟨c1, c2⟩
  · exact .inl (Tag.lt_of_le_of_lt hu c)
  · rcases Tag.lt_or_eq_of_le hu with k | k
    · rw [← c1]; exact .inl k
    · exact .inr ⟨k.trans c1, c2⟩

theorem SeqInv.exec (h : SeqInv P rank s) (hP : P.Ok rank) : (s.toExec P rank).Good P where
  sorted := h.sorted
  reached := h.clear
  down i t u := fun h hu => h.mono hu
  raise i s' t := fun ⟨h1, h2, h3⟩ hst hF => ⟨hF, Tag.le_trans h2 hst, fun k => h3 (k.mono hst)⟩
  fits := h.fits
  first i hi := by
    refine ⟨fun k => h.first i fun c => ?_, fun k => ⟨hP.start, Tag.le_refl _, k⟩⟩
    exact k.not_due ⟨hi, hP.stop, .inr (.inl ⟨rfl, c⟩)⟩
  last i hi hF := by
    refine ⟨fun k => ?_, fun k => ⟨hF, hP.stop, k⟩⟩
    by_contra c
    refine k.not_due ⟨hi, Tag.le_refl _, .inr (.inr ⟨rfl, fun x hx e => c ⟨x.2, ?_⟩⟩)⟩
    show (P.stop, x.2) ∈ s.log i
    rw [← e]; exact hx
  events i hi t k v hG ht hF := by
    rcases (h.gen i (t, k, v)).1 hG with c | c
    · right
      have : ¬ s.Clear P rank i t := fun k => k.not_due ⟨hi, ht, .inl ⟨_, c, rfl⟩⟩
      exact ⟨this, hF, h.after i _ c, this⟩
    · exact .inl c
  origin i t y k v hy hv := (h.gen i (t, k, v)).2 (.inr ⟨y, hy, hv⟩)
  cause := h.cause
  hop j u d w m := by
    rintro ⟨h1, h2, h3⟩ hd hw hF hm _
    have hle : u ≤ m := Tag.le_trans (Rti.le_delay w h1.1) hm
    have : ¬ s.Clear P rank d m := by
      intro k
      refine h3 fun j' v hv => ?_
      rcases k j' v hv with c | ⟨c1, c2, c3⟩
      · exact .inl (Tag.lt_of_le_of_lt hle c)
      · by_cases hw' : w < 0
        · have := hP.rank d j w hw hw'
          rcases Tag.lt_or_eq_of_le hle with k | k
          · rw [← c1]; exact .inl k
          · exact .inr ⟨k.trans c1, by omega, fun e => by subst e; omega⟩
        · rw [← c1]; exact .inl (delay_before h1 (Int.not_lt.1 hw') hm)
    exact ⟨this, hF, Tag.le_trans h2 hle, this⟩

end

end ReactorC.FedDet
