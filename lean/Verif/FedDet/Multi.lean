import Verif.FedDet.Props
import Verif.FedDet.Measure

/-! No event is made twice: not in the sequential execution, and hence not in the federation. -/

set_option linter.unusedVariables false

namespace ReactorC.FedDet
open ReactorC
open ReactorC.Rti (Topology Down Up Sys Sane put put_same put_other)
open ReactorC.Fedn (Config Fed State Ev Act Pc FInv)

variable {V : Type} {P : Program V} {M : Timing} {rank : Nat → Nat}

/-- How many events of trigger `k` there are at `t`. -/
def cnt (t : Tag) (k : Nat) (l : List (Event V)) : Nat := l.countP fun e => decide (e.1 = t ∧ e.2.1 = k)

theorem cnt_append {t : Tag} {k : Nat} {l m : List (Event V)} : cnt t k (l ++ m) = cnt t k l + cnt t k m := List.countP_append

theorem cnt_nil {t : Tag} {k : Nat} : cnt t k ([] : List (Event V)) = 0 := rfl

theorem cnt_cons {t : Tag} {k : Nat} {e : Event V} {l : List (Event V)} : cnt t k (e :: l) = cnt t k [e] + cnt t k l :=
  cnt_append (l := [e])

theorem cnt_filter_le {t : Tag} {k : Nat} {l : List (Event V)} {p : Event V → Bool} : cnt t k (l.filter p) ≤ cnt t k l :=
  List.Sublist.countP_le List.filter_sublist

theorem cnt_filter_other {t u : Tag} {k : Nat} {l : List (Event V)} (h : t ≠ u) : cnt t k (l.filter fun e => decide (e.1 ≠ u)) = cnt t k l := by
  induction l with
  | nil => rfl
  | cons e l ih =>
    rw [List.filter_cons]
    split
    · rw [cnt_cons, cnt_cons (l := l), ih]
    · rename_i c
      rw [decide_eq_true_eq, not_not] at c
      rw [ih, cnt_cons (l := l)]
      have : cnt t k [e] = 0 := by
        unfold cnt
        rw [List.countP_singleton, if_neg]
        rw [decide_eq_true_eq]
        rintro ⟨h1, _⟩
        exact h (h1.symm.trans c)
      omega

theorem cnt_zero {t : Tag} {k : Nat} {l : List (Event V)} (h : ∀ e ∈ l, e.1 ≠ t) : cnt t k l = 0 := by
  unfold cnt
  rw [List.countP_eq_zero]
  intro e he
  rw [decide_eq_true_eq]
  exact fun c => h e he c.1

theorem cnt_pos {l : List (Event V)} {e : Event V} (h : e ∈ l) : 0 < cnt e.1 e.2.1 l := by
  unfold cnt
  rw [List.countP_pos_iff]
  exact ⟨e, h, by rw [decide_eq_true_eq]; exact ⟨rfl, rfl⟩⟩

theorem cnt_single {t : Tag} {k : Nat} {l : List (Event V)} (h : Single l) : cnt t k l ≤ 1 := by
  induction l with
  | nil => exact Nat.zero_le _
  | cons e l ih =>
    unfold Single at h
    rw [List.map_cons, List.nodup_cons] at h
    by_cases c : e.1 = t ∧ e.2.1 = k
    · have : cnt t k l = 0 := by
        unfold cnt
        rw [List.countP_eq_zero]
        intro e' he'
        rw [decide_eq_true_eq]
        rintro ⟨k1, k2⟩
        exact h.1 (List.mem_map.2 ⟨e', he', by rw [k1, k2, c.1, c.2]⟩)
      have h1 : cnt t k [e] ≤ 1 := by unfold cnt; exact List.countP_le_length
      rw [cnt_cons]; omega
    · have : cnt t k [e] = 0 := by
        unfold cnt
        rw [List.countP_singleton, if_neg]
        rw [decide_eq_true_eq]; exact c
      have := ih h.2
      rw [cnt_cons]; omega

/-! ## The events that what has been executed gives rise to -/

/-- The events that `j` has scheduled. -/
def schedCnt (P : Program V) (j : Nat) (t : Tag) (k : Nat) : List (Entry V) → Nat
  | [] => 0
  | a :: l => cnt t k (P.scheds j (a :: l)) + schedCnt P j t k l

/-- The messages of `j` for `d`. -/
def mailCnt (P : Program V) (j d : Nat) (t : Tag) (k : Nat) : List (Entry V) → Nat
  | [] => 0
  | a :: l => cnt t k (mail P j d a.1 (a :: l)) + mailCnt P j d t k l

def genCnt (P : Program V) (log : Nat → List (Entry V)) (i : Nat) (t : Tag) (k : Nat) : Nat :=
  cnt t k (P.init i) + schedCnt P i t k (log i) + total (fun j => mailCnt P j i t k (log j)) P.T.n

theorem schedCnt_suffix {j : Nat} {t : Tag} {k : Nat} {l m : List (Entry V)} (h : l <:+ m) : schedCnt P j t k l ≤ schedCnt P j t k m := by
  obtain ⟨p, rfl⟩ := h
  induction p with
  | nil => exact Nat.le_refl _
  | cons a p ih => exact Nat.le_trans ih (Nat.le_add_left _ _)

theorem mailCnt_suffix {j d : Nat} {t : Tag} {k : Nat} {l m : List (Entry V)} (h : l <:+ m) : mailCnt P j d t k l ≤ mailCnt P j d t k m := by
  obtain ⟨p, rfl⟩ := h
  induction p with
  | nil => exact Nat.le_refl _
  | cons a p ih => exact Nat.le_trans ih (Nat.le_add_left _ _)

theorem genCnt_suffix {log log' : Nat → List (Entry V)} (h : ∀ i, log i <:+ log' i) (i : Nat) (t : Tag) (k : Nat) :
    genCnt P log i t k ≤ genCnt P log' i t k := by
  have h1 := schedCnt_suffix (P := P) (j := i) (t := t) (k := k) (h i)
  have h2 := total_le (n := P.T.n) fun j _ => mailCnt_suffix (P := P) (j := j) (d := i) (t := t) (k := k) (h j)
  unfold genCnt
  omega

theorem total_put {f g : Nat → Nat} {j a : Nat} : ∀ {n : Nat}, (∀ i, i ≠ j → f i = g i) → j < n → f j = a + g j → total f n = a + total g n
  | n + 1, h, hj, e => by
    show total f n + f n = a + (total g n + g n)
    by_cases c : j = n
    · subst c
      have := total_eq (f := f) (g := g) (n := j) fun i hi => h i (by omega)
      omega
    · have := total_put (f := f) (g := g) (n := n) h (by omega) e
      have := h n (by omega)
      omega

/-- What a tag that is executed adds. -/
theorem genCnt_enter {log : Nat → List (Entry V)} {j : Nat} (hj : j < P.T.n) {a : Entry V} (i : Nat) (t : Tag) (k : Nat) :
    genCnt P (put log j (a :: log j)) i t k =
      (if i = j then cnt t k (P.scheds j (a :: log j)) else 0) + cnt t k (mail P j i a.1 (a :: log j)) + genCnt P log i t k := by
  unfold genCnt
  have h2 : total (fun d => mailCnt P d i t k (put log j (a :: log j) d)) P.T.n =
      cnt t k (mail P j i a.1 (a :: log j)) + total (fun d => mailCnt P d i t k (log d)) P.T.n := by
    refine total_put (j := j) (fun d hd => ?_) hj ?_
    · rw [put_other _ _ _ hd]
    · rw [put_same]; rfl
  rw [h2]
  by_cases c : i = j
  · subst c
    rw [put_same, if_pos rfl]
    show _ + (_ + _) + _ = _
    omega
  · rw [put_other _ _ _ c, if_neg c]
    omega

/-! ## The sequential execution -/

theorem seq_once (hP : P.Ok rank) {s : Seq V} (h : Seq.Reach P rank s) (i : Nat) (t : Tag) (k : Nat) :
    genCnt P s.log i t k ≤ 1 ∧ ((∀ x ∈ s.log i, x.1 ≠ t) → genCnt P s.log i t k = cnt t k (s.pend i)) := by
  induction h with
  | init hs =>
    have e : genCnt P (fun _ => []) i t k = cnt t k (P.init i) := by
      unfold genCnt
      have : total (fun j => mailCnt P j i t k []) P.T.n = 0 := by
        have z : ∀ n, total (fun _ => 0) n = 0 := by
          intro n
          induction n with
          | zero => rfl
          | succ n ih => show total _ n + 0 = 0; omega
        exact z _
      rw [this]
      rfl
    exact ⟨e ▸ cnt_single (hs i), fun _ => e⟩
  | @step s j u hr hd hmin hF hs ih =>
    have hI := hr.inv hP
    have e : genCnt P (s.exec P j u).log i t k = _ := genCnt_enter (log := s.log) hd.1 (a := (u, present u (s.pend j))) i t k
    have hpos : ∀ x : Entry V, x ∈ (s.exec P j u).log i → x.1 = t → genCnt P (s.exec P j u).log i t k = genCnt P s.log i t k := by
      intro x hx ht
      have hle : (t < u ∨ (t = u ∧ rank i ≤ rank j)) := by
        replace hx : x ∈ put s.log j ((u, present u (s.pend j)) :: s.log j) i := hx
        by_cases c : i = j
        · subst c
          rw [put_same] at hx
          rcases List.mem_cons.1 hx with rfl | hx
          · exact .inr ⟨ht.symm, Nat.le_refl _⟩
          · rcases hI.clear i x hx i u hd with k | k
            · exact .inl (ht ▸ k)
            · exact absurd rfl k.2.2
        · rw [put_other _ _ _ c] at hx
          rcases hI.clear i x hx j u hd with k | k
          · exact .inl (ht ▸ k)
          · exact .inr ⟨ht ▸ k.1, k.2.1⟩
      have z1 : cnt t k (mail P j i u ((u, present u (s.pend j)) :: s.log j)) = 0 := cnt_zero fun e he c => by
        rcases mail_later hP hF he with k | ⟨k1, k2⟩
        · rw [c] at k
          rcases hle with m | m
          · exact Tag.lt_irrefl _ (Tag.lt_trans k m)
          · rw [m.1] at k; exact Tag.lt_irrefl _ k
        · rw [c] at k1
          rcases hle with m | m
          · rw [k1] at m; exact Tag.lt_irrefl _ m
          · omega
      have z2 : (if i = j then cnt t k (P.scheds j ((u, present u (s.pend j)) :: s.log j)) else 0) = 0 := by
        split
        · refine cnt_zero fun e he c => ?_
          have hl := hP.later j _ _ e he
          rw [c] at hl
          replace hl : u < t := hl
          rcases hle with m | m
          · exact Tag.lt_irrefl _ (Tag.lt_trans hl m)
          · rw [m.1] at hl; exact Tag.lt_irrefl _ hl
        · rfl
      rw [e]
      dsimp only
      rw [z1, z2]
      omega
    by_cases c : ∃ x ∈ (s.exec P j u).log i, x.1 = t
    · obtain ⟨x, hx, ht⟩ := c
      exact ⟨hpos x hx ht ▸ ih.1, fun k => absurd ht (k x hx)⟩
    · have hn : ∀ x ∈ (s.exec P j u).log i, x.1 ≠ t := fun x hx k => c ⟨x, hx, k⟩
      have key : genCnt P (s.exec P j u).log i t k = cnt t k ((s.exec P j u).pend i) := by
        have hn' : ∀ x ∈ put s.log j ((u, present u (s.pend j)) :: s.log j) i, x.1 ≠ t := hn
        have hold : ∀ x ∈ s.log i, x.1 ≠ t := by
          intro x hx
          refine hn' x ?_
          by_cases c : i = j
          · subst c; rw [put_same]; exact List.mem_cons_of_mem _ hx
          · rw [put_other _ _ _ c]; exact hx
        rw [e, ih.2 hold]
        unfold Seq.exec
        dsimp only
        rw [cnt_append]
        by_cases c : i = j
        · subst c
          rw [put_same] at hn'
          have := hn' _ List.mem_cons_self
          rw [if_pos rfl, if_pos rfl, cnt_append, cnt_filter_other (Ne.symm this)]
          omega
        · rw [if_neg c, if_neg c]
          omega
      exact ⟨by rw [key]; exact cnt_single (hs i), fun _ => key⟩

/-! ## The federation -/

/-- The messages for `i` among those on the way. -/
def upCnt (i : Nat) (t : Tag) (k : Nat) (l : List (Nat × Event V)) : Nat :=
  cnt t k (l.filterMap fun a => if a.1 = i then some a.2 else none)

/-- The messages for `i` that are yet to be sent. -/
def outCnt (P : Program V) (cur : Tag) (i : Nat) (t : Tag) (k : Nat) (l : List (Out V)) : Nat :=
  cnt t k (l.filterMap fun o => if o.dest = i ∧ lf_delay_tag cur o.delay ≤ P.stop then some (lf_delay_tag cur o.delay, o.port, o.val) else none)

def madeCnt (P : Program V) (x : St V) (i : Nat) (t : Tag) (k : Nat) : Nat :=
  cnt t k (x.pend i) + cnt t k (x.scheds i) + cnt t k (x.down i) + total (fun j => upCnt i t k (x.up j)) P.T.n +
    total (fun j => outCnt P (x.s.fed j).cur i t k (x.outs j)) P.T.n

theorem outCnt_cons {cur : Tag} {i : Nat} {t : Tag} {k : Nat} {o : Out V} {l : List (Out V)} :
    outCnt P cur i t k (o :: l) = outCnt P cur i t k [o] + outCnt P cur i t k l := by
  unfold outCnt
  rw [← cnt_append, ← List.filterMap_append]; rfl

theorem upCnt_append {i : Nat} {t : Tag} {k : Nat} {l m : List (Nat × Event V)} : upCnt i t k (l ++ m) = upCnt i t k l + upCnt i t k m := by
  unfold upCnt
  rw [List.filterMap_append, cnt_append]

/-- The current tag of a federate that executes stays. -/
theorem cur_kept {C : Config} {s : State} {a : Act} (ha : Own a ∨ (∃ i, a = .handle i) ∨ ∃ i, a = .leave i) (hp : Fedn.pre C s a) (j : Nat) :
    ((Fedn.post C s a).fed j).cur = (s.fed j).cur ∨ (s.fed j).pc ≠ .executing := by
  have fed : ∀ (i : Nat) (f : Fed), (f.cur = (s.fed i).cur ∨ (s.fed i).pc ≠ .executing) →
      ((put s.fed i f j).cur = (s.fed j).cur ∨ (s.fed j).pc ≠ .executing) := by
    intro i f h
    by_cases c : j = i
    · subst c; rw [put_same]; exact h
    · rw [put_other _ _ _ c]; exact .inl rfl
  cases a with
  | handle i =>
    left
    show ((match Fedn.handle C i s.sys with
      | some σ => { s with sys := σ }
      | none => s : State).fed j).cur = _
    split <;> rfl
  | leave i => exact fed i _ (.inl rfl)
  | tick i t => exact fed i _ (.inl rfl)
  | begin i => exact fed i _ (.inl rfl)
  | ask i =>
    refine fed i _ ?_
    by_cases c : (s.fed i).pc = .executing
    · left; unfold Fedn.ask; rw [c]
    · exact .inr c
  | resume i =>
    refine fed i _ (.inl ?_)
    unfold Fedn.resume
    split <;> rfl
  | wake i =>
    refine fed i _ ?_
    by_cases c : (s.fed i).pc = .executing
    · left; unfold Fedn.wake; rw [c]
    · exact .inr c
  | advance i =>
    refine fed i _ (.inr ?_)
    rw [hp.2.1]; simp
  | send i d w => exact .inl rfl
  | schedule i δ e => exact fed i _ (.inl rfl)
  | complete i need =>
    refine fed i _ (.inl ?_)
    unfold Fedn.complete Fedn.confirm
    dsimp only
    split
    · rfl
    split <;> rfl
  | take i direct need =>
    show ((Fedn.take i direct need s).fed j).cur = _ ∨ _
    unfold Fedn.take
    split
    · refine fed i _ (.inl ?_)
      unfold Fedn.takeTag; split <;> rfl
    · refine fed i _ (.inl ?_)
      unfold Fedn.takePtag Fedn.confirm
      dsimp only
      repeat' split
      all_goals rfl
    · refine fed i _ (.inl ?_)
      unfold Fedn.takeMsg
      repeat' split
      all_goals rfl
    · exact .inl rfl
  | exit i => exact fed i _ (.inl rfl)
  | closed i => rcases ha with h | ⟨_, h⟩ | ⟨_, h⟩ <;> [exact absurd h id; cases h; cases h]
  | breaks i => rcases ha with h | ⟨_, h⟩ | ⟨_, h⟩ <;> [exact absurd h id; cases h; cases h]
  | physical i e => rcases ha with h | ⟨_, h⟩ | ⟨_, h⟩ <;> [exact absurd h id; cases h; cases h]
  | stop t => rcases ha with h | ⟨_, h⟩ | ⟨_, h⟩ <;> [exact absurd h id; cases h; cases h]
  | learn i t => rcases ha with h | ⟨_, h⟩ | ⟨_, h⟩ <;> [exact absurd h id; cases h; cases h]

/-- No event is there more often than what has been executed gives rise to it. -/
def Once (P : Program V) (x : St V) : Prop := ∀ i t k, madeCnt P x i t k ≤ genCnt P x.log i t k

theorem Once.init : Once P (St.init P M) := by
  intro i t k
  have z : ∀ n, total (fun _ => 0) n = 0 := by
    intro n
    induction n with
    | zero => rfl
    | succ n ih => show total _ n + 0 = 0; omega
  have e1 : total (fun j => upCnt i t k ((St.init P M).up j)) P.T.n = 0 := z _
  have e2 : total (fun j => outCnt P ((St.init P M).s.fed j).cur i t k ((St.init P M).outs j)) P.T.n = 0 := z _
  unfold madeCnt genCnt
  rw [e1, e2]
  show cnt t k (P.init i) + 0 + 0 + 0 + 0 ≤ _
  omega

section
variable {x : St V}

theorem Inv.once_same (h : Inv P M x) {s : State} (hc : ∀ j, (s.fed j).cur = (x.s.fed j).cur ∨ (x.s.fed j).pc ≠ .executing) (i : Nat) (t : Tag) (k : Nat)
    {l : Nat → List (Out V)} (hl : ∀ j < P.T.n, x.outs j = [] → l j = []) :
    total (fun j => outCnt P (s.fed j).cur i t k (l j)) P.T.n = total (fun j => outCnt P (x.s.fed j).cur i t k (l j)) P.T.n := by
  refine total_eq fun j hj => ?_
  rcases hc j with e | e
  · rw [e]
  · rw [hl j hj ((h.loc j hj).idle e).1]; rfl

theorem total_move {f g : Nat → Nat} {j a : Nat} {n : Nat} (hj : j < n) (h : ∀ i, i ≠ j → f i = g i) (e : f j + a = g j) : total f n + a = total g n := by
  have := total_put (f := g) (g := f) (j := j) (a := a) (n := n) (fun i hi => (h i hi).symm) hj (by omega)
  omega

theorem Inv.once (h : Inv P M x) (hP : P.Ok rank) (hM : M.Ok) {y : St V} (hO : Once P x) (st : Step P M x y) : Once P y := by
  have quiet : ∀ {a : Act}, (Own a ∨ (∃ i, a = .handle i) ∨ ∃ i, a = .leave i) → Fedn.pre (conf P M) x.s a →
      Once P { x with s := Fedn.post (conf P M) x.s a } := by
    intro a ha hp i t k
    refine Nat.le_trans (Nat.le_of_eq ?_) (hO i t k)
    unfold madeCnt
    rw [h.once_same (cur_kept ha hp) i t k (l := x.outs) fun _ _ e => e]
  cases st with
  | idle a ha hp =>
    refine quiet (.inl ?_) hp
    cases a <;> first | exact trivial | exact absurd ha id
  | moves i a ha hp hne => exact quiet (.inl (h.mover hP hM ha hp).2.1) hp
  | enters i a ha hp hpc he =>
    obtain ⟨hi, h1, h3, _⟩ := h.mover hP hM ha hp
    obtain ⟨i1, i2⟩ := (h.loc i hi).idle hpc
    intro j t k
    have hG := genCnt_enter (P := P) (log := x.log) hi (a := (((Fedn.post (conf P M) x.s a).fed i).cur,
      present ((Fedn.post (conf P M) x.s a).fed i).cur (x.pend i))) j t k
    unfold St.enter
    dsimp only
    rw [hG]
    have ho := hO j t k
    unfold madeCnt at ho ⊢
    dsimp only
    have e1 : total (fun d => outCnt P ((Fedn.post (conf P M) x.s a).fed d).cur j t k
        (put x.outs i (P.outs i ((((Fedn.post (conf P M) x.s a).fed i).cur, present ((Fedn.post (conf P M) x.s a).fed i).cur (x.pend i)) :: x.log i)) d)) P.T.n =
        cnt t k (mail P i j ((Fedn.post (conf P M) x.s a).fed i).cur
          ((((Fedn.post (conf P M) x.s a).fed i).cur, present ((Fedn.post (conf P M) x.s a).fed i).cur (x.pend i)) :: x.log i)) +
        total (fun d => outCnt P (x.s.fed d).cur j t k (x.outs d)) P.T.n := by
      refine total_put (j := i) (fun d hd => ?_) hi ?_
      · rw [put_other _ _ _ hd, h3, put_other _ _ _ hd]
      · rw [put_same, i1]; rfl
    rw [e1]
    by_cases c : j = i
    · subst c
      rw [put_same, put_same, if_pos rfl]
      rw [i2, cnt_nil] at ho
      have := cnt_filter_le (t := t) (k := k) (l := x.pend j) (p := fun e => decide (e.1 ≠ ((Fedn.post (conf P M) x.s a).fed j).cur))
      omega
    · rw [put_other _ _ _ c, put_other _ _ _ c, if_neg c]
      omega
  | sends i o r ho hp =>
    intro j t k
    refine Nat.le_trans (Nat.le_of_eq ?_) (hO j t k)
    have hi : i < P.T.n := hp.1
    have hstop : lf_delay_tag (x.s.fed i).cur o.delay ≤ P.stop := by
      have := hp.2.2.2.2.2.1
      rwa [cmp_le_zero, (h.past i hi).stop] at this
    unfold madeCnt
    dsimp only
    have e1 : total (fun d => outCnt P ((Fedn.post (conf P M) x.s (.send i o.dest o.delay)).fed d).cur j t k (put x.outs i r d)) P.T.n
        + outCnt P (x.s.fed i).cur j t k [o] = total (fun d => outCnt P (x.s.fed d).cur j t k (x.outs d)) P.T.n := by
      refine total_move hi (fun d hd => ?_) ?_
      · rw [put_other _ _ _ hd]; rfl
      · rw [put_same, ho, outCnt_cons (l := r)]
        show outCnt P (x.s.fed i).cur j t k r + _ = _
        omega
    have e2 : total (fun d => upCnt j t k (x.up d)) P.T.n + outCnt P (x.s.fed i).cur j t k [o] =
        total (fun d => upCnt j t k (put x.up i (x.up i ++ [(o.dest, lf_delay_tag (x.s.fed i).cur o.delay, o.port, o.val)]) d)) P.T.n := by
      refine total_move hi (fun d hd => ?_) ?_
      · rw [put_other _ _ _ hd]
      · rw [put_same, upCnt_append]
        congr 1
        unfold outCnt upCnt
        congr 1
        rw [List.filterMap_cons, List.filterMap_cons]
        by_cases c : o.dest = j
        · rw [if_pos ⟨c, hstop⟩, if_pos c]; rfl
        · rw [if_neg fun k => c k.1, if_neg c]; rfl
    omega
  | drops i o r ho hpc hd =>
    have hi : i < P.T.n := by
      by_contra c
      rw [(h.outside i (Nat.le_of_not_lt c)).2] at ho; cases ho
    intro j t k
    refine Nat.le_trans ?_ (hO j t k)
    unfold madeCnt
    dsimp only
    have e1 : total (fun d => outCnt P (x.s.fed d).cur j t k (put x.outs i r d)) P.T.n ≤ total (fun d => outCnt P (x.s.fed d).cur j t k (x.outs d)) P.T.n := by
      refine total_le fun d _ => ?_
      by_cases c : d = i
      · subst c; rw [put_same, ho, outCnt_cons (l := r)]; omega
      · rw [put_other _ _ _ c]
    omega
  | schedules i e r he hp _ =>
    intro j t k
    refine Nat.le_trans (Nat.le_of_eq ?_) (hO j t k)
    unfold madeCnt
    dsimp only
    rw [h.once_same (cur_kept (a := .schedule i 0 ⟨e.1, some 0⟩) (.inl trivial) hp) j t k (l := x.outs) fun _ _ e => e]
    by_cases c : j = i
    · subst c
      rw [put_same, put_same, he, cnt_cons (l := x.pend j), cnt_cons (l := r)]
      omega
    · rw [put_other _ _ _ c, put_other _ _ _ c]
  | completes i need _ _ hp _ => exact quiet (.inl trivial) hp
  | handles i _ hp => exact quiet (.inr (.inl ⟨i, rfl⟩)) hp
  | forwards i d e r hn hu hp =>
    have hi : i < P.T.n := by
      obtain ⟨d, s, w, m, q, hq⟩ := hn
      exact (h.sys hP hM).numbered.1 i (by rw [hq]; simp)
    intro j t k
    refine Nat.le_trans (Nat.le_of_eq ?_) (hO j t k)
    unfold madeCnt
    dsimp only
    rw [h.once_same (cur_kept (a := .handle i) (.inr (.inl ⟨i, rfl⟩)) hp) j t k (l := x.outs) fun _ _ e => e]
    have e1 : total (fun b => upCnt j t k (put x.up i r b)) P.T.n + upCnt j t k [(d, e)] = total (fun b => upCnt j t k (x.up b)) P.T.n := by
      refine total_move hi (fun b hb => ?_) ?_
      · rw [put_other _ _ _ hb]
      · rw [put_same, hu, show (d, e) :: r = [(d, e)] ++ r from rfl, upCnt_append]
        omega
    by_cases c : j = d
    · subst c
      rw [put_same, cnt_append]
      have : upCnt j t k [(j, e)] = cnt t k [e] := by
        unfold upCnt
        rw [List.filterMap_cons, if_pos rfl]; rfl
      omega
    · rw [put_other _ _ _ c]
      have : upCnt j t k [(d, e)] = 0 := by
        unfold upCnt
        rw [List.filterMap_cons, if_neg fun k => c k.symm]; rfl
      omega
  | takes i direct need _ hp => exact quiet (.inl trivial) hp
  | receives i direct need m e r _ hr hp _ =>
    intro j t k
    refine Nat.le_trans (Nat.le_of_eq ?_) (hO j t k)
    unfold madeCnt
    dsimp only
    rw [h.once_same (cur_kept (a := .take i direct need) (.inl trivial) hp) j t k (l := x.outs) fun _ _ e => e]
    by_cases c : j = i
    · subst c
      rw [put_same, put_same, hr, cnt_cons (l := x.pend j), cnt_cons (l := r)]
      omega
    · rw [put_other _ _ _ c, put_other _ _ _ c]
  | resigns i hg hc hn hp => exact quiet (.inr (.inr ⟨i, rfl⟩)) hp

theorem Reach.once (h : Reach P M x) (hP : P.Ok rank) (hM : M.Ok) : Once P x := by
  induction h with
  | init _ => exact .init
  | step hr st ih => exact (hr.inv hP hM).once hP hM ih st

end

end ReactorC.FedDet
