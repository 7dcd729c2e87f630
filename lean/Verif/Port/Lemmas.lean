import Verif.Port.Spec
import Mathlib.Data.List.Induction
import Mathlib.Tactic.Common

/-! # Lemmas for presence and multiport iteration -/

namespace ReactorC.Port

theorem upd_same {α : Type} (f : Nat → α) (i : Nat) (v : α) : upd f i v i = v := by simp [upd]

theorem upd_other {α : Type} (f : Nat → α) {i j : Nat} (v : α) (h : j ≠ i) : upd f i v j = f j := by
  simp [upd, h]

theorem clearAll_apply (fields : Nat → Bool) (l : List Nat) (f : Nat) :
    clearAll fields l f = if f ∈ l then false else fields f := by
  induction l generalizing fields with
  | nil => simp [clearAll]
  | cons g gs ih =>
    simp only [clearAll, ih, List.mem_cons]
    by_cases h1 : f ∈ gs
    · simp [h1]
    · by_cases h2 : f = g
      · simp [h2, upd_same]
      · simp [h1, h2, upd_other]

theorem resetSizes_apply (recs : Nat → Sparse) (l : List Nat) (r : Nat) :
    resetSizes recs l r = if r ∈ l then { recs r with size := 0 } else recs r := by
  induction l generalizing recs with
  | nil => simp [resetSizes]
  | cons g gs ih =>
    simp only [resetSizes, ih, List.mem_cons]
    by_cases h2 : r = g
    · subst h2; simp [upd_same]
    · simp [h2, upd_other]

theorem mem_take_set {l : List Nat} {k f : Nat} (hk : k < l.length) (g : Nat) :
    g ∈ (l.set k f).take (k + 1) ↔ g ∈ l.take k ∨ g = f := by
  rw [List.take_set, List.take_succ_eq_append_getElem hk, List.set_append]
  simp [List.length_take, Nat.min_eq_left (Nat.le_of_lt hk)]

/-! ## The invariant of a tag -/

/-- Everything flagged present is in the part of the lists the next tag clears. -/
structure PInv (e : Env) : Prop where
  alloc : e.abbr.length = e.all.length
  known : ∀ f, e.fields f = true → f ∈ e.all
  listed : e.abbrSize ≤ e.all.length → ∀ f, e.fields f = true → f ∈ e.abbr.take e.abbrSize
  sizes : ∀ r, (e.recs r).size ≠ 0 → r ∈ e.regs

theorem PInv.markPresent {e : Env} (h : PInv e) {f : Nat} (hf : f ∈ e.all) : PInv (markPresent e f) := by
  obtain ⟨ha, hk, hl, hs⟩ := h
  refine ⟨?_, ?_, ?_, hs⟩
  · simp only [Port.markPresent]; split <;> simp [ha]
  · intro g hg
    by_cases h : g = f
    · subst h; exact hf
    · simp only [Port.markPresent, upd_other _ _ h] at hg; exact hk g hg
  · intro hle g hg
    simp only [Port.markPresent] at hle hg ⊢
    have hlt : e.abbrSize < e.all.length := by omega
    rw [if_pos hlt, mem_take_set (by omega)]
    by_cases h : g = f
    · exact Or.inr h
    · rw [upd_other _ _ h] at hg; exact Or.inl (hl (by omega) g hg)

theorem PInv.setPresent {e : Env} (h : PInv e) {p : Port} (hp : Registered e (.set p)) :
    PInv (lf_set_present e p) := by
  unfold lf_set_present
  split
  · exact h
  · have h1 := h.markPresent hp.1
    cases hr : p.record with
    | none => simpa [hr] using h1
    | some r =>
      simp only
      split
      · refine ⟨h1.alloc, h1.known, h1.listed, ?_⟩
        intro r' hr'
        by_cases hrr : r' = r
        · subst hrr; exact hp.2 _ hr
        · simp only [upd_other _ _ hrr] at hr'; exact h1.sizes r' hr'
      · exact h1

theorem startTimeStep_fields {e : Env} (h : PInv e) (f : Nat) : (lf_start_time_step e).fields f = false := by
  simp only [lf_start_time_step, clearAll_apply]
  generalize hl : (if e.abbrSize > e.all.length then e.all else e.abbr.take e.abbrSize) = l
  split
  · rfl
  · rename_i hn
    cases hf : e.fields f with
    | false => rfl
    | true =>
      exfalso; apply hn; rw [← hl]
      split
      · exact h.known f hf
      · exact h.listed (by omega) f hf

theorem startTimeStep_size {e : Env} (h : PInv e) (r : Nat) : ((lf_start_time_step e).recs r).size = 0 := by
  simp only [lf_start_time_step, resetSizes_apply]
  split
  · rfl
  · rename_i hn
    by_contra hc; exact hn (h.sizes r hc)

theorem PInv.startTimeStep {e : Env} (h : PInv e) : PInv (lf_start_time_step e) := by
  refine ⟨h.alloc, ?_, ?_, ?_⟩
  · intro f hf; rw [startTimeStep_fields h] at hf; cases hf
  · intro _ f hf; rw [startTimeStep_fields h] at hf; cases hf
  · intro r hr; exact absurd (startTimeStep_size h r) hr

theorem exec_all (e : Env) (o : Op) : (exec e o).all = e.all ∧ (exec e o).regs = e.regs := by
  cases o with
  | set p =>
    simp only [exec, lf_set_present]
    split
    · simp
    · cases p.record with
      | none => simp [markPresent]
      | some r => simp only; split <;> simp [markPresent]
  | trigger f => simp [exec, markPresent]
  | newTag => simp [exec, lf_start_time_step]

theorem run_all (e : Env) (ops : List Op) : (run e ops).all = e.all ∧ (run e ops).regs = e.regs := by
  induction ops generalizing e with
  | nil => simp [run]
  | cons o os ih =>
    have := ih (exec e o)
    simp only [run, List.foldl_cons] at this ⊢
    rw [this.1, this.2]; exact exec_all e o

theorem registered_of_same {e e' : Env} (h1 : e'.all = e.all) (h2 : e'.regs = e.regs) {o : Op}
    (h : Registered e o) : Registered e' o := by
  cases o <;> simp only [Registered, h1, h2] at h ⊢ <;> exact h

theorem PInv.exec {e : Env} (h : PInv e) {o : Op} (ho : Registered e o) : PInv (exec e o) := by
  cases o with
  | set p => exact h.setPresent ho
  | trigger f => exact h.markPresent ho
  | newTag => exact h.startTimeStep

theorem PInv.run {e : Env} (h : PInv e) (ops : List Op) (ho : ∀ o ∈ ops, Registered e o) : PInv (run e ops) := by
  induction ops generalizing e with
  | nil => exact h
  | cons o os ih =>
    refine ih (h.exec (ho o (by simp))) fun o' ho' => ?_
    exact registered_of_same (exec_all e o).1 (exec_all e o).2 (ho o' (by simp [ho']))

theorem Initial.pinv {e : Env} (h : Initial e) : PInv e := by
  refine ⟨h.alloc, ?_, ?_, ?_⟩
  · intro f hf; rw [h.absent] at hf; cases hf
  · intro _ f hf; rw [h.absent] at hf; cases hf
  · intro r hr; exact absurd (h.sizes r) hr

theorem markPresent_fields (e : Env) (f g : Nat) :
    (markPresent e f).fields g = true ↔ f = g ∨ e.fields g = true := by
  simp only [markPresent, upd]
  by_cases h : g = f
  · simp [h]
  · have h' : ¬ f = g := fun h' => h h'.symm
    simp [h, h']

theorem setPresent_fields (e : Env) (p : Port) (g : Nat) :
    (lf_set_present e p).fields g = true ↔ (p.hasSource = true ∧ p.field = g) ∨ e.fields g = true := by
  simp only [lf_set_present]
  cases hs : p.hasSource with
  | false => simp
  | true =>
    rw [if_neg (by decide)]
    have := markPresent_fields e p.field g
    cases p.record with
    | none => simpa using this
    | some r =>
      simp only
      split <;> simpa using this

theorem run_append (e : Env) (a b : List Op) : run e (a ++ b) = run (run e a) b := by simp [run]

theorem present_iff {e : Env} (h : Initial e) (ops : List Op) (ho : ∀ o ∈ ops, Registered e o) (f : Nat) :
    (run e ops).fields f = true ↔ SetInCurrentTag f ops.reverse := by
  induction ops using List.reverseRecOn with
  | nil => simp [run, SetInCurrentTag, h.absent]
  | append_singleton os o ih =>
    have ih := ih fun o' ho' => ho o' (by simp [ho'])
    have hp : PInv (run e os) := h.pinv.run os fun o' ho' => ho o' (by simp [ho'])
    rw [run_append, List.reverse_append]
    simp only [run, List.foldl_cons, List.foldl_nil, List.reverse_cons, List.reverse_nil, List.nil_append,
      List.cons_append] at ih ⊢
    cases o with
    | set p => simp only [exec, SetInCurrentTag, setPresent_fields, ih]
    | trigger g => simp only [exec, SetInCurrentTag, markPresent_fields, ih]
    | newTag =>
      simp only [exec, SetInCurrentTag, iff_false, Bool.not_eq_true]
      exact startTimeStep_fields hp f

/-! ## The classic iteration -/

/-- Is channel `c` present? -/
def pres (e : Env) (ports : List Port) (c : Nat) : Bool :=
  match ports[c]? with
  | some p => e.fields p.field
  | none => false

theorem presentChannels_eq (e : Env) (ports : List Port) :
    presentChannels e ports = (List.range ports.length).filter (pres e ports) := rfl

/-- Present channels from `s` on. -/
def presFrom (e : Env) (ports : List Port) (s : Nat) : List Nat :=
  (List.range' s (ports.length - s)).filter (pres e ports)

theorem presFrom_zero (e : Env) (ports : List Port) : presFrom e ports 0 = presentChannels e ports := by
  simp [presFrom, presentChannels_eq, List.range_eq_range']

theorem presFrom_step (e : Env) (ports : List Port) {s : Nat} (hs : s < ports.length) :
    presFrom e ports s = if pres e ports s then s :: presFrom e ports (s + 1) else presFrom e ports (s + 1) := by
  unfold presFrom
  obtain ⟨k, hk⟩ : ∃ k, ports.length - s = k + 1 := ⟨ports.length - s - 1, by omega⟩
  have hk' : ports.length - (s + 1) = k := by omega
  rw [hk, hk', List.range'_succ, List.filter_cons]

theorem presFrom_end (e : Env) (ports : List Port) {s : Nat} (hs : ports.length ≤ s) : presFrom e ports s = [] := by
  simp [presFrom, Nat.sub_eq_zero_of_le hs]

theorem scan_spec (e : Env) (ports : List Port) (fuel s : Nat) (hf : ports.length ≤ s + fuel) :
    (scan e.fields ports ports.length fuel s = some (-1) ∧ presFrom e ports s = []) ∨
    ∃ n : Nat, scan e.fields ports ports.length fuel s = some (n : Int) ∧ n < ports.length ∧
      presFrom e ports s = n :: presFrom e ports (n + 1) := by
  induction fuel generalizing s with
  | zero => left; exact ⟨rfl, presFrom_end e ports (by omega)⟩
  | succ k ih =>
    unfold scan
    by_cases hs : s < ports.length
    · rw [if_pos hs, presFrom_step e ports hs]
      have hg : ports[s]? = some ports[s] := List.getElem?_eq_getElem hs
      simp only [pres, hg]
      by_cases hp : e.fields ports[s].field = true
      · simp only [hp, if_true]
        right; exact ⟨s, rfl, hs, rfl⟩
      · simp only [hp]
        exact ih (s + 1) (by omega)
    · rw [if_neg hs]; left; exact ⟨rfl, presFrom_end e ports (by omega)⟩

/-- The ports fall back on scanning: no record, or an overflowed one. -/
def Classic (e : Env) (p : Port) : Prop := ∀ r, p.record = some r → (e.recs r).size < 0

theorem iterNext_classic (e : Env) (ports : List Port) (p0 : Port) (h0 : ports[0]? = some p0)
    (hc : Classic e p0) (n : Nat) :
    iterNext e ports ports.length ⟨n, 0⟩ =
      (scan e.fields ports ports.length ports.length (n + 1)).map fun m => (m, (⟨m, 0⟩ : Iter)) := by
  have hw : ¬ ((ports.length : Int) ≤ 0) := by
    have : 0 < ports.length := by
      by_contra hx
      rw [List.getElem?_eq_none (by omega)] at h0; cases h0
    omega
  unfold iterNext
  rw [if_neg (by simp), if_neg (by simp only; omega)]
  simp only [Int.toNat_zero, h0, Int.toNat_natCast]
  cases hr : p0.record with
  | none => rfl
  | some r =>
    have := hc r hr
    simp only
    rw [if_neg (by omega)]

theorem visits_classic (e : Env) (ports : List Port) (p0 : Port) (h0 : ports[0]? = some p0) (hc : Classic e p0)
    (k n : Nat) (hk : ports.length ≤ n + k) :
    Visits e ports ports.length ⟨n, 0⟩ (presFrom e ports (n + 1)) := by
  induction k generalizing n with
  | zero =>
    rw [presFrom_end e ports (by omega)]
    refine .done (it' := ⟨-1, 0⟩) ?_
    rw [iterNext_classic e ports p0 h0 hc]
    rcases scan_spec e ports ports.length (n + 1) (by omega) with h | ⟨m, h1, h2, h3⟩
    · rw [h.1]; rfl
    · rw [presFrom_end e ports (by omega)] at h3; cases h3
  | succ k ih =>
    rcases scan_spec e ports ports.length (n + 1) (by omega) with h | ⟨m, h1, h2, h3⟩
    · rw [h.2]
      refine .done (it' := ⟨-1, 0⟩) ?_
      rw [iterNext_classic e ports p0 h0 hc, h.1]; rfl
    · rw [h3]
      have hm : n + 1 ≤ m := by
        have : m ∈ presFrom e ports (n + 1) := by rw [h3]; simp
        simp only [presFrom, List.mem_filter, List.mem_range'_1] at this
        omega
      refine .step (it' := ⟨m, 0⟩) ?_ (ih m (by omega))
      rw [iterNext_classic e ports p0 h0 hc, h1]; rfl

theorem iterates_classic (e : Env) (ports : List Port) (hc : ∀ p0, ports[0]? = some p0 → Classic e p0) :
    Iterates e ports ports.length (presentChannels e ports) := by
  rw [← presFrom_zero]
  by_cases hlen : ports.length = 0
  · refine ⟨e, ⟨-1, -1⟩, ?_, ?_⟩
    · simp [iterInit, hlen]
    · rw [presFrom_end e ports (by omega)]
      exact .done (it' := ⟨-1, 0⟩) (by simp [iterNext])
  · have hg : ports[0]? = some ports[0] := List.getElem?_eq_getElem (by omega)
    have hc := hc _ hg
    have hinit : iterInit e ports ports.length =
        (scan e.fields ports ports.length ports.length 0).map fun n => (e, Iter.mk n (-1)) := by
      unfold iterInit
      rw [if_neg (by omega)]
      simp only [hg, Int.toNat_natCast]
      cases hr : ports[0].record with
      | none => rfl
      | some r =>
        have := hc r hr
        simp only
        rw [if_neg (by omega)]
    rcases scan_spec e ports ports.length 0 (by omega) with h | ⟨m, h1, h2, h3⟩
    · refine ⟨e, ⟨-1, -1⟩, by rw [hinit, h.1]; rfl, ?_⟩
      rw [h.2]
      exact .done (it' := ⟨-1, 0⟩) (by simp [iterNext])
    · refine ⟨e, ⟨m, -1⟩, by rw [hinit, h1]; rfl, ?_⟩
      rw [h3]
      refine .step (it' := ⟨m, 0⟩) (by simp [iterNext]) ?_
      exact visits_classic e ports _ hg hc ports.length m (by omega)

/-! ## The sparse iteration -/

theorem visits_sparse (e : Env) (ports : List Port) (r : Nat) (hrec : ∀ p ∈ ports, p.record = some r)
    (n : Nat) (hsz : (e.recs r).size = n) (hn : n ≤ (e.recs r).chans.length) (hw : n ≤ ports.length)
    (j k : Nat) (hjk : k + 1 + j = n) (c : Nat) :
    Visits e ports ports.length ⟨c, k⟩ (((e.recs r).chans.take n).drop (k + 1)) := by
  have hit : ∀ k c : Nat, k < n → iterNext e ports ports.length ⟨c, k⟩ =
      if k + 1 ≥ n then some (-1, ⟨-1, k + 1⟩)
      else match (e.recs r).chans[k + 1]? with
        | none => none
        | some d => some ((d : Int), ⟨d, k + 1⟩) := by
    intro k c hk
    have hp : ports[k]? = some ports[k] := List.getElem?_eq_getElem (by omega)
    have hr := hrec ports[k] (List.getElem_mem _)
    unfold iterNext
    rw [if_neg (by simp only; omega), if_neg (by simp only; omega)]
    simp only [Int.toNat_natCast, hp, hr, hsz]
    rw [if_pos (by omega)]
    have : ((k : Int) + 1).toNat = k + 1 := by omega
    rw [this]
    by_cases h : k + 1 ≥ n
    · rw [if_pos (by omega), if_pos h]
    · rw [if_neg (by omega), if_neg h]
      cases (e.recs r).chans[k + 1]? <;> rfl
  induction j generalizing k c with
  | zero =>
    rw [List.drop_eq_nil_of_le (by simp; omega)]
    refine .done (it' := ⟨-1, k + 1⟩) ?_
    rw [hit k c (by omega), if_pos (by omega)]
  | succ j ih =>
    have hlt : k + 1 < ((e.recs r).chans.take n).length := by simp; omega
    rw [List.drop_eq_getElem_cons hlt]
    have hg : (e.recs r).chans[k + 1]? = some (((e.recs r).chans.take n)[k + 1]) := by
      rw [List.getElem_take]; exact List.getElem?_eq_getElem (by omega)
    refine .step (it' := ⟨(((e.recs r).chans.take n)[k + 1] : Nat), (k + 1 : Nat)⟩) ?_ (ih (k + 1) (by omega) _)
    rw [hit k c (by omega), if_neg (by omega), hg]
    rfl

theorem sortPrefix_take (s : Sparse) (n : Nat) (hs : s.size = n) (hn : n ≤ s.chans.length) :
    (sortPrefix s).chans.take n = (s.chans.take n).mergeSort (fun a b => decide (a ≤ b)) := by
  simp only [sortPrefix, hs, Int.toNat_natCast]
  rw [List.take_append_of_le_length (by simp [hn])]
  rw [List.take_of_length_le (by simp; omega)]

theorem iterates_sparse (e : Env) (ports : List Port) (r : Nat) (hrec : ∀ p ∈ ports, p.record = some r)
    (hne : ports ≠ []) (n : Nat) (hsz : (e.recs r).size = n) (hn : n ≤ (e.recs r).chans.length)
    (hw : n ≤ ports.length) :
    Iterates e ports ports.length
      (((e.recs r).chans.take n).mergeSort (fun a b => decide (a ≤ b))) := by
  have hlen : 0 < ports.length := List.length_pos_of_ne_nil hne
  have hg : ports[0]? = some ports[0] := List.getElem?_eq_getElem hlen
  have hr := hrec ports[0] (List.getElem_mem _)
  by_cases h0 : n = 0
  · subst h0
    refine ⟨e, ⟨-1, -1⟩, ?_, ?_⟩
    · unfold iterInit
      rw [if_neg (by omega)]
      simp [hg, hr, hsz]
    · simp only [List.take_zero, List.mergeSort_nil]
      exact .done (it' := ⟨-1, 0⟩) (by simp [iterNext])
  · -- the record after sorting
    obtain ⟨s', hs'⟩ : ∃ s', s' = if (e.recs r).size > 1 then sortPrefix (e.recs r) else e.recs r := ⟨_, rfl⟩
    have hsize : s'.size = n := by rw [hs']; split <;> simp [sortPrefix, hsz]
    have hlen' : n ≤ s'.chans.length := by
      rw [hs']; split
      · simp only [sortPrefix, hsz, Int.toNat_natCast]; simp; omega
      · exact hn
    have htake : s'.chans.take n = ((e.recs r).chans.take n).mergeSort (fun a b => decide (a ≤ b)) := by
      rw [hs']; split
      · exact sortPrefix_take _ n hsz hn
      · have h1 : n = 1 := by omega
        subst h1
        obtain ⟨a, l, hal⟩ : ∃ a l, (e.recs r).chans = a :: l := by
          cases hc : (e.recs r).chans with
          | nil => rw [hc] at hn; simp at hn
          | cons a l => exact ⟨a, l, rfl⟩
        rw [hal]; simp
    rw [← htake]
    have hc0 : s'.chans[0]? = some s'.chans[0] := List.getElem?_eq_getElem (by omega)
    refine ⟨{ e with recs := upd e.recs r s' }, ⟨s'.chans[0], -1⟩, ?_, ?_⟩
    · unfold iterInit
      rw [if_neg (by omega)]
      simp only [hg, hr]
      rw [if_pos (by omega), if_pos (by omega), ← hs', hc0]
    · have hd : s'.chans.take n = s'.chans[0] :: (s'.chans.take n).drop 1 := by
        have hlt : 0 < (s'.chans.take n).length := by simp; omega
        have := List.drop_eq_getElem_cons hlt
        simpa using this
      rw [hd]
      refine .step (it' := ⟨s'.chans[0], 0⟩) (by simp [iterNext]) ?_
      have := visits_sparse { e with recs := upd e.recs r s' } ports r hrec n (by simp [upd_same, hsize])
        (by simpa [upd_same] using hlen') hw (n - 1) 0 (by omega) s'.chans[0]
      simpa [upd_same] using this

/-! ## What a tag's calls leave in the sparse record -/

/-- The record after channels `cs` were added one after the other in a tag. -/
theorem addChannel_fold (s : Sparse) (hs : s.size = 0) (cs : List Nat) :
    ((cs.foldl addChannel s).chans.length = s.chans.length) ∧
    (cs.length ≤ s.chans.length →
      (cs.foldl addChannel s).size = cs.length ∧ (cs.foldl addChannel s).chans.take cs.length = cs) ∧
    (s.chans.length < cs.length → (cs.foldl addChannel s).size = -1) := by
  induction cs using List.reverseRecOn with
  | nil => simp [hs]
  | append_singleton cs c ih =>
    obtain ⟨hl, h1, h2⟩ := ih
    simp only [List.foldl_append, List.foldl_cons, List.foldl_nil, List.length_append, List.length_singleton]
    obtain ⟨t, ht⟩ : ∃ t, t = cs.foldl addChannel s := ⟨_, rfl⟩
    rw [← ht] at hl h1 h2 ⊢
    by_cases hle : cs.length ≤ s.chans.length
    · obtain ⟨hsz, htk⟩ := h1 hle
      unfold addChannel
      rw [if_pos (by omega)]
      simp only [hsz, Int.toNat_natCast]
      by_cases hfull : cs.length ≥ t.chans.length
      · rw [if_pos hfull]
        refine ⟨hl, fun h => by omega, fun _ => rfl⟩
      · rw [if_neg hfull]
        refine ⟨by simp [hl], fun h => ⟨by simp, ?_⟩, fun h => by omega⟩
        simp only [List.take_set]
        rw [List.take_succ_eq_append_getElem (by omega), htk, List.set_append]
        simp
    · have := h2 (by omega)
      unfold addChannel
      rw [if_neg (by omega)]
      exact ⟨hl, fun h => by omega, fun _ => this⟩

theorem markPresent_recs (e : Env) (f : Nat) : (markPresent e f).recs = e.recs := rfl

theorem run_record (e : Env) (ports : List Port) (r : Nat) (hm : IsSparseMultiport ports r) (ops : List Op)
    (ho : ∀ o ∈ ops, Separate ports r o) :
    (run e ops).recs r = (setChannels ports ops).foldl addChannel (e.recs r) := by
  induction ops generalizing e with
  | nil => rfl
  | cons o os ih =>
    have hrest := ih (exec e o) fun o' h => ho o' (by simp [h])
    simp only [run, List.foldl_cons] at hrest ⊢
    rw [hrest]
    have h := ho o (by simp)
    cases o with
    | newTag => exact absurd h id
    | trigger f => simp [setChannels, exec, markPresent_recs]
    | set p =>
      by_cases hp : p ∈ ports
      · have h1 := hm.source p hp
        have h2 := hm.record p hp
        obtain ⟨c, hc, hcp⟩ := List.getElem_of_mem hp
        have h3 := hm.chan c p (by rw [← hcp]; exact List.getElem?_eq_getElem hc)
        simp only [setChannels, List.filterMap_cons, hp, if_true, List.foldl_cons]
        congr 1
        simp only [exec, lf_set_present, h1, h2, h3]
        simp [upd_same, markPresent_recs]
      · have h' : p.record ≠ some r := by
          rcases h with h | h
          · exact absurd h hp
          · exact h.1
        simp only [setChannels, List.filterMap_cons, hp, if_false]
        congr 1
        simp only [exec, lf_set_present]
        split
        · rfl
        · cases hr : p.record with
          | none => rfl
          | some r' =>
            have : r ≠ r' := by rintro rfl; exact h' hr
            simp only
            split
            · simp [upd_other _ _ this, markPresent_recs]
            · rfl

theorem run_fields (e : Env) (ports : List Port) (r : Nat) (hm : IsSparseMultiport ports r) (ops : List Op)
    (ho : ∀ o ∈ ops, Separate ports r o) (h0 : ∀ f, e.fields f = false) (c : Nat) :
    pres (run e ops) ports c = true ↔ c ∈ setChannels ports ops := by
  induction ops using List.reverseRecOn with
  | nil =>
    simp only [pres, run, List.foldl_nil, setChannels, List.filterMap_nil, List.not_mem_nil, iff_false]
    cases ports[c]? <;> simp [h0]
  | append_singleton os o ih =>
    have ih := ih fun o' h => ho o' (by simp [h])
    rw [run_append]
    simp only [run, List.foldl_cons, List.foldl_nil] at ih ⊢
    generalize List.foldl exec e os = e1 at ih ⊢
    have h := ho o (by simp)
    have hsc : setChannels ports (os ++ [o]) = setChannels ports os ++ setChannels ports [o] := by
      simp [setChannels]
    rw [hsc, List.mem_append, ← ih]
    cases o with
    | newTag => exact absurd h id
    | trigger f =>
      simp only [setChannels, List.filterMap_cons, List.filterMap_nil, List.not_mem_nil, or_false, exec, pres]
      cases hc : ports[c]? with
      | none => simp
      | some q =>
        have hq : q ∈ ports := List.mem_of_getElem? hc
        have := h q hq
        simp only [markPresent_fields, or_iff_right_iff_imp]
        intro hh; exact absurd hh.symm this
    | set p =>
      simp only [exec, pres]
      cases hc : ports[c]? with
      | none =>
        simp only [Bool.false_eq_true, false_or, false_iff]
        intro hmem
        simp only [setChannels, List.filterMap_cons, List.filterMap_nil] at hmem
        split at hmem
        · simp at hmem
        · rename_i x hx
          split at hx
          · rename_i hp
            obtain ⟨d, hd, hdp⟩ := List.getElem_of_mem hp
            have h3 := hm.chan d p (by rw [← hdp]; exact List.getElem?_eq_getElem hd)
            simp only [Option.some.injEq] at hx
            simp only [List.mem_singleton] at hmem
            rw [List.getElem?_eq_none_iff] at hc
            omega
          · cases hx
      | some q =>
        have hq : q ∈ ports := List.mem_of_getElem? hc
        have hqc := hm.chan c q hc
        simp only [setPresent_fields]
        by_cases hp : p ∈ ports
        · have hs := hm.source p hp
          obtain ⟨d, hd, hdp⟩ := List.getElem_of_mem hp
          have hd' : ports[d]? = some p := by rw [← hdp]; exact List.getElem?_eq_getElem hd
          have h3 := hm.chan d p hd'
          simp only [hs, setChannels, List.filterMap_cons, hp, if_true, List.filterMap_nil,
            List.mem_singleton, h3, Int.toNat_natCast, true_and]
          constructor
          · rintro (hf | hf)
            · exact Or.inr (hm.distinct c d q p hc hd' hf.symm)
            · exact Or.inl hf
          · rintro (hf | hf)
            · exact Or.inr hf
            · left; subst hf; rw [hc] at hd'; cases hd'; rfl
        · have h' : ∀ q ∈ ports, q.field ≠ p.field := by
            rcases h with h | h
            · exact absurd h hp
            · exact h.2
          simp only [setChannels, List.filterMap_cons, hp, if_false, List.filterMap_nil,
            List.not_mem_nil, or_false, or_iff_right_iff_imp]
          rintro ⟨_, hf⟩; exact absurd hf.symm (h' q hq)

theorem setChannels_lt (ports : List Port) (r : Nat) (hm : IsSparseMultiport ports r) (ops : List Op) :
    ∀ c ∈ setChannels ports ops, c < ports.length := by
  intro c hc
  simp only [setChannels, List.mem_filterMap] at hc
  obtain ⟨o, _, ho⟩ := hc
  cases o with
  | set p =>
    simp only at ho
    split at ho
    · rename_i hp
      obtain ⟨d, hd, hdp⟩ := List.getElem_of_mem hp
      have h3 := hm.chan d p (by rw [← hdp]; exact List.getElem?_eq_getElem hd)
      cases ho; omega
    · cases ho
  | trigger f => cases ho
  | newTag => cases ho

theorem mem_presentChannels (e : Env) (ports : List Port) (c : Nat) :
    c ∈ presentChannels e ports ↔ pres e ports c = true := by
  rw [presentChannels_eq, List.mem_filter, List.mem_range]
  refine ⟨fun h => h.2, fun h => ⟨?_, h⟩⟩
  by_contra hlt
  simp only [pres, List.getElem?_eq_none (show ports.length ≤ c by omega)] at h
  cases h

theorem iterates_after_sets (e : Env) (ports : List Port) (r : Nat) (hm : IsSparseMultiport ports r)
    (h0 : ∀ f, e.fields f = false) (hz : (e.recs r).size = 0) (ops : List Op)
    (ho : ∀ o ∈ ops, Separate ports r o) (hne : ports ≠ [])
    (hw : (setChannels ports ops).length ≤ (e.recs r).chans.length → (setChannels ports ops).length ≤ ports.length) :
    Iterates (run e ops) ports ports.length
      (if (setChannels ports ops).length ≤ (e.recs r).chans.length
       then (setChannels ports ops).mergeSort (fun a b => decide (a ≤ b))
       else presentChannels (run e ops) ports) := by
  obtain ⟨hl, h1, h2⟩ := addChannel_fold (e.recs r) hz (setChannels ports ops)
  rw [← run_record e ports r hm ops ho] at hl h1 h2
  split
  · rename_i hle
    obtain ⟨hsz, htk⟩ := h1 hle
    have := iterates_sparse (run e ops) ports r hm.record hne _ hsz (by omega) (hw hle)
    rwa [htk] at this
  · rename_i hgt
    refine iterates_classic _ _ fun p0 hp0 r' hr' => ?_
    have := hm.record p0 (List.mem_of_getElem? hp0)
    rw [this] at hr'; cases hr'
    rw [h2 (by omega)]; decide

theorem visits_functional {e : Env} {ports : List Port} {w : Int} {it : Iter} {a b : List Nat}
    (ha : Visits e ports w it a) (hb : Visits e ports w it b) : a = b := by
  induction ha generalizing b with
  | done h =>
    cases hb with
    | done => rfl
    | step h' _ => rw [h] at h'; simp at h'
  | step h _ ih =>
    cases hb with
    | done h' => rw [h] at h'; simp at h'
    | step h' hv =>
      rw [h] at h'
      simp only [Option.some.injEq, Prod.mk.injEq, Int.natCast_inj] at h'
      obtain ⟨rfl, rfl⟩ := h'
      rw [ih hv]

end ReactorC.Port
