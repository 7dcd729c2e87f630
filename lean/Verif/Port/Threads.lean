import Verif.Port.Lemmas

/-! # Interleavings of `lf_set_present` in the threaded runtime: invariants -/

namespace ReactorC.Port

/-- The channel a call adds to record `r`, if any. -/
def chanOf (r : Nat) (p : Port) : Option Nat :=
  if p.hasSource = true ∧ p.record = some r ∧ p.chan ≥ 0 then some p.chan.toNat else none

/-- The call in progress, as long as it has not obtained its slot in a sparse record. -/
def current : Pc → List Port
  | .idle => []
  | .gotSlot p _ => [p]
  | .stored p => [p]
  | .marked p => [p]
  | .checked p _ => [p]
  | .gotChan _ _ _ => []

/-- Channels a thread has still to obtain a slot for. -/
def rem (r : Nat) (t : Thr) : List Nat := (current t.pc ++ t.todo).filterMap (chanOf r)

/-- The call in progress satisfies what was tested earlier in the function. -/
def PcOk : Pc → Prop
  | .idle => True
  | .gotSlot p _ => p.hasSource = true
  | .stored p => p.hasSource = true
  | .marked p => p.hasSource = true
  | .checked p r => p.hasSource = true ∧ p.record = some r ∧ p.chan ≥ 0
  | .gotChan p r _ => p.hasSource = true ∧ p.record = some r ∧ p.chan ≥ 0

/-- Thread `i` of the list is inside the store to record `r` with the index `next`. -/
def At (thr : List Thr) (i : Nat) (p : Port) (r : Nat) (next : Int) : Prop :=
  ∃ t, thr[i]? = some t ∧ t.pc = .gotChan p r next

theorem At.set_other {thr : List Thr} {i j : Nat} {p : Port} {r : Nat} {n : Int} {t' : Thr} (hij : j ≠ i) :
    At (thr.set j t') i p r n ↔ At thr i p r n := by
  simp [At, List.getElem?_set, hij]

theorem At.set_self {thr : List Thr} {j : Nat} {t t' : Thr} (ht : thr[j]? = some t) {p : Port} {r : Nat} {n : Int} :
    At (thr.set j t') j p r n ↔ t'.pc = .gotChan p r n := by
  have : j < thr.length := (List.getElem?_eq_some_iff.mp ht).1
  simp [At, List.getElem?_set, this]

theorem at_self {thr : List Thr} {j : Nat} {t : Thr} (ht : thr[j]? = some t) {p : Port} {r : Nat} {n : Int} :
    At thr j p r n ↔ t.pc = .gotChan p r n := by
  simp [At, ht]

/-- After an overflow. -/
def Over (r : Nat) (s : TState) : Prop :=
  (s.env.recs r).size = -1 ∨
    ∃ i p n, At s.thr i p r n ∧ (n < 0 ∨ n ≥ (s.env.recs r).chans.length)

/-- Before any overflow; `init` lists the channels all threads together were to add. -/
def NoOver (r : Nat) (init : List Nat) (s : TState) : Prop :=
  ∃ slog : List Nat,
    (s.env.recs r).size = slog.length ∧ slog.length ≤ (s.env.recs r).chans.length ∧
    List.Perm (slog ++ s.thr.flatMap (rem r)) init ∧
    (∀ i p n, At s.thr i p r n → 0 ≤ n ∧ slog[n.toNat]? = some p.chan.toNat) ∧
    (∀ k, k < slog.length → (s.env.recs r).chans[k]? = slog[k]? ∨ ∃ i p, At s.thr i p r (k : Int))

structure TInv (r : Nat) (init : List Nat) (s : TState) : Prop where
  pcs : ∀ t ∈ s.thr, PcOk t.pc
  main : Over r s ∨ NoOver r init s

theorem flatMap_set_perm {f : Thr → List Nat} {l : List Thr} {j : Nat} {t t' : Thr} (h : l[j]? = some t)
    {x : List Nat} (hf : List.Perm (f t) (x ++ f t')) :
    List.Perm (l.flatMap f) (x ++ (l.set j t').flatMap f) := by
  induction l generalizing j with
  | nil => simp at h
  | cons a l ih =>
    cases j with
    | zero =>
      simp only [List.getElem?_cons_zero, Option.some.injEq] at h
      subst h
      simp only [List.flatMap_cons, List.set_cons_zero, ← List.append_assoc]
      exact List.Perm.append_right _ hf
    | succ j =>
      simp only [List.getElem?_cons_succ] at h
      simp only [List.flatMap_cons, List.set_cons_succ]
      have h1 := List.Perm.append_left (f a) (ih h)
      refine h1.trans ?_
      rw [← List.append_assoc, ← List.append_assoc]
      exact List.Perm.append_right _ List.perm_append_comm

theorem mem_set_cases {l : List Thr} {j : Nat} {t' t : Thr} (h : t ∈ l.set j t') : t = t' ∨ t ∈ l := by
  rcases List.mem_or_eq_of_mem_set h with h | h
  · exact Or.inr h
  · exact Or.inl h

/-- Steps that leave record `r` alone. -/
theorem frame {r : Nat} {init : List Nat} {s : TState} {j : Nat} {t t' : Thr} {e' : Env}
    (ht : s.thr[j]? = some t) (hrec : e'.recs r = s.env.recs r) (hrem : rem r t' = rem r t)
    (h1 : ∀ p n, t.pc ≠ .gotChan p r n) (h2 : ∀ p n, t'.pc ≠ .gotChan p r n)
    (h : Over r s ∨ NoOver r init s) :
    Over r ⟨e', s.thr.set j t'⟩ ∨ NoOver r init ⟨e', s.thr.set j t'⟩ := by
  have hat : ∀ i p n, At (s.thr.set j t') i p r n ↔ At s.thr i p r n := by
    intro i p n
    by_cases hij : j = i
    · subst hij; rw [At.set_self ht, at_self ht]; simp [h1, h2]
    · exact At.set_other hij
  rcases h with h | ⟨slog, a, b, c, d, f⟩
  · left
    rcases h with h | ⟨i, p, n, h, hb⟩
    · left; simp only [hrec]; exact h
    · right; exact ⟨i, p, n, (hat i p n).2 h, by simp only [hrec]; exact hb⟩
  · right
    refine ⟨slog, by simpa only [hrec] using a, by simpa only [hrec] using b, ?_, ?_, ?_⟩
    · have := flatMap_set_perm (f := rem r) (x := []) (t' := t') ht (by simp [hrem])
      simp only [List.nil_append] at this
      exact (List.Perm.append_left slog this.symm).trans c
    · intro i p n hi; exact d i p n ((hat i p n).1 hi)
    · intro k hk
      simp only [hrec]
      rcases f k hk with h | ⟨i, p, h⟩
      · exact Or.inl h
      · exact Or.inr ⟨i, p, (hat i p _).2 h⟩

theorem pcOk_step {e e' : Env} {t t' : Thr} (hpc : PcOk t.pc) (h : thrStep e t = some (e', t')) : PcOk t'.pc := by
  obtain ⟨todo, pc⟩ := t
  cases pc with
  | idle =>
    cases todo with
    | nil => simp [thrStep] at h
    | cons p rest =>
      simp only [thrStep] at h
      split at h
      · simp only [Option.some.injEq, Prod.mk.injEq] at h; rw [← h.2]; trivial
      · rename_i hs
        simp only [Option.some.injEq, Prod.mk.injEq] at h; rw [← h.2]
        simpa [PcOk] using hs
  | gotSlot p i => simp only [thrStep, Option.some.injEq, Prod.mk.injEq] at h; rw [← h.2]; exact hpc
  | stored p => simp only [thrStep, Option.some.injEq, Prod.mk.injEq] at h; rw [← h.2]; exact hpc
  | marked p =>
    simp only [thrStep] at h
    split at h
    · simp only [Option.some.injEq, Prod.mk.injEq] at h; rw [← h.2]; trivial
    · rename_i r hr
      split at h
      · rename_i hc
        simp only [Option.some.injEq, Prod.mk.injEq] at h; rw [← h.2]
        exact ⟨hpc, hr, hc.1⟩
      · simp only [Option.some.injEq, Prod.mk.injEq] at h; rw [← h.2]; trivial
  | checked p r => simp only [thrStep, Option.some.injEq, Prod.mk.injEq] at h; rw [← h.2]; exact hpc
  | gotChan p r n =>
    simp only [thrStep] at h
    split at h
    · simp only [Option.some.injEq, Prod.mk.injEq] at h; rw [← h.2]; trivial
    · simp only [Option.some.injEq, Prod.mk.injEq] at h; rw [← h.2]; trivial

theorem main_step {r : Nat} {init : List Nat} {s : TState} {j : Nat} {t t' : Thr} {e' : Env}
    (ht : s.thr[j]? = some t) (hpc : PcOk t.pc) (h : thrStep s.env t = some (e', t'))
    (hm : Over r s ∨ NoOver r init s) :
    Over r ⟨e', s.thr.set j t'⟩ ∨ NoOver r init ⟨e', s.thr.set j t'⟩ := by
  obtain ⟨todo, pc⟩ := t
  cases pc with
  | idle =>
    cases todo with
    | nil => simp [thrStep] at h
    | cons p rest =>
      simp only [thrStep] at h
      split at h
      · rename_i hs
        simp only [Option.some.injEq, Prod.mk.injEq] at h
        obtain ⟨rfl, rfl⟩ := h
        exact frame ht rfl (by simp [rem, current, chanOf, hs]) (by simp) (by simp) hm
      · simp only [Option.some.injEq, Prod.mk.injEq] at h
        obtain ⟨rfl, rfl⟩ := h
        exact frame ht rfl (by simp [rem, current]) (by simp) (by simp) hm
  | gotSlot p i =>
    simp only [thrStep, Option.some.injEq, Prod.mk.injEq] at h
    obtain ⟨rfl, rfl⟩ := h
    exact frame ht rfl (by simp [rem, current]) (by simp) (by simp) hm
  | stored p =>
    simp only [thrStep, Option.some.injEq, Prod.mk.injEq] at h
    obtain ⟨rfl, rfl⟩ := h
    exact frame ht rfl (by simp [rem, current]) (by simp) (by simp) hm
  | marked p =>
    simp only [thrStep] at h
    split at h
    · rename_i hr
      simp only [Option.some.injEq, Prod.mk.injEq] at h
      obtain ⟨rfl, rfl⟩ := h
      exact frame ht rfl (by simp [rem, current, chanOf, hr]) (by simp) (by simp) hm
    · rename_i r' hr
      split at h
      · simp only [Option.some.injEq, Prod.mk.injEq] at h
        obtain ⟨rfl, rfl⟩ := h
        exact frame ht rfl (by simp [rem, current]) (by simp) (by simp) hm
      · rename_i hc
        simp only [Option.some.injEq, Prod.mk.injEq] at h
        obtain ⟨rfl, rfl⟩ := h
        by_cases hch : chanOf r p = none
        · exact frame ht rfl (by simp [rem, current, hch]) (by simp) (by simp) hm
        · have hch' : p.hasSource = true ∧ p.record = some r ∧ p.chan ≥ 0 := by
            by_contra hx; exact hch (by simp only [chanOf]; rw [if_neg hx])
          have hrr : r' = r := by rw [hr] at hch'; simpa using hch'.2.1
          subst hrr
          have hneg : (s.env.recs r').size < 0 := by
            by_contra hx; exact hc ⟨hch'.2.2, by omega⟩
          rcases hm with hm | ⟨slog, a, _⟩
          · left
            rcases hm with hm | ⟨i, q, n, hi, hb⟩
            · exact Or.inl hm
            · right
              refine ⟨i, q, n, ?_, hb⟩
              by_cases hij : j = i
              · subst hij; rw [at_self ht] at hi; simp at hi
              · exact (At.set_other hij).2 hi
          · omega
  | checked p r' =>
    simp only [thrStep, Option.some.injEq, Prod.mk.injEq] at h
    obtain ⟨rfl, rfl⟩ := h
    by_cases hrr : r = r'
    · subst hrr
      have hco : chanOf r p = some p.chan.toNat := by simp only [chanOf]; exact if_pos hpc
      rcases hm with hm | ⟨slog, a, b, c, d, f⟩
      · left
        right
        rcases hm with hm | ⟨i, q, n, hi, hb⟩
        · exact ⟨j, p, (s.env.recs r).size, (At.set_self ht).2 rfl, Or.inl (by omega)⟩
        · refine ⟨i, q, n, ?_, by simpa [upd_same] using hb⟩
          by_cases hij : j = i
          · subst hij; rw [at_self ht] at hi; simp at hi
          · exact (At.set_other hij).2 hi
      · by_cases hfull : slog.length = (s.env.recs r).chans.length
        · left; right
          exact ⟨j, p, (s.env.recs r).size, (At.set_self ht).2 rfl, Or.inr (by simp [upd_same]; omega)⟩
        · right
          refine ⟨slog ++ [p.chan.toNat], by simp [upd_same, a], by simp [upd_same]; omega, ?_, ?_, ?_⟩
          · have := flatMap_set_perm (f := rem r) (x := [p.chan.toNat])
              (t' := ⟨todo, .gotChan p r (s.env.recs r).size⟩) ht (by simp [rem, current, hco])
            rw [List.append_assoc]
            exact (List.Perm.append_left slog this.symm).trans c
          · intro i q n hi
            by_cases hij : j = i
            · subst hij
              rw [At.set_self ht] at hi
              simp only [Pc.gotChan.injEq, true_and] at hi
              obtain ⟨rfl, rfl⟩ := hi
              refine ⟨by omega, ?_⟩
              have : (s.env.recs r).size.toNat = slog.length := by omega
              rw [this]; simp
            · rw [At.set_other hij] at hi
              obtain ⟨h1, h2⟩ := d i q n hi
              refine ⟨h1, ?_⟩
              have hlt : n.toNat < slog.length := (List.getElem?_eq_some_iff.mp h2).1
              rw [List.getElem?_append_left hlt]; exact h2
          · intro k hk
            simp only [List.length_append, List.length_singleton] at hk
            simp only [upd_same]
            by_cases hkl : k = slog.length
            · right
              exact ⟨j, p, (At.set_self ht).2 (by simp only [Pc.gotChan.injEq, true_and]; omega)⟩
            · have hlt : k < slog.length := by omega
              rcases f k hlt with h | ⟨i, q, hi⟩
              · left; rw [List.getElem?_append_left hlt]; exact h
              · right
                by_cases hij : j = i
                · subst hij; rw [at_self ht] at hi; simp at hi
                · exact ⟨i, q, (At.set_other hij).2 hi⟩
    · refine frame ht (by simp [upd_other _ _ hrr]) ?_ (by simp) ?_ hm
      · have : chanOf r p = none := by
          simp only [chanOf]; rw [if_neg]; rintro ⟨_, hx, _⟩
          rw [hpc.2.1] at hx; simp at hx; exact hrr hx.symm
        simp [rem, current, this]
      · intro q n hq; simp only [Pc.gotChan.injEq] at hq; exact hrr hq.2.1.symm
  | gotChan p r' next =>
    simp only [thrStep] at h
    by_cases hrr : r = r'
    · subst hrr
      split at h
      · simp only [Option.some.injEq, Prod.mk.injEq] at h
        obtain ⟨rfl, rfl⟩ := h
        left; left; simp [upd_same]
      · rename_i hok
        simp only [Option.some.injEq, Prod.mk.injEq] at h
        obtain ⟨rfl, rfl⟩ := h
        rcases hm with hm | ⟨slog, a, b, c, d, f⟩
        · left
          rcases hm with hm | ⟨i, q, n, hi, hb⟩
          · left; simpa [upd_same] using hm
          · right
            by_cases hij : j = i
            · subst hij; rw [at_self ht] at hi
              simp only [Pc.gotChan.injEq, true_and] at hi
              obtain ⟨rfl, rfl⟩ := hi
              exact absurd hb hok
            · exact ⟨i, q, n, (At.set_other hij).2 hi, by simpa [upd_same] using hb⟩
        · right
          obtain ⟨hn, hlog⟩ := d j p next ((at_self ht).2 rfl)
          refine ⟨slog, by simpa [upd_same] using a, by simpa [upd_same] using b, ?_, ?_, ?_⟩
          · have := flatMap_set_perm (f := rem r) (x := []) (t' := ⟨todo, .idle⟩) ht (by simp [rem, current])
            simp only [List.nil_append] at this
            exact (List.Perm.append_left slog this.symm).trans c
          · intro i q n hi
            by_cases hij : j = i
            · subst hij; rw [At.set_self ht] at hi; simp at hi
            · rw [At.set_other hij] at hi; exact d i q n hi
          · intro k hk
            simp only [upd_same, List.getElem?_set]
            by_cases hkn : next.toNat = k
            · subst hkn
              left
              rw [if_pos rfl, if_pos (by omega), hlog]
            · rw [if_neg hkn]
              rcases f k hk with h | ⟨i, q, hi⟩
              · exact Or.inl h
              · right
                by_cases hij : j = i
                · subst hij; rw [at_self ht] at hi
                  simp only [Pc.gotChan.injEq, true_and] at hi
                  exact absurd (by omega) hkn
                · exact ⟨i, q, (At.set_other hij).2 hi⟩
    · have hne : ∀ q n, Pc.gotChan p r' next ≠ Pc.gotChan q r n := by
        intro q n hq; simp only [Pc.gotChan.injEq] at hq; exact hrr hq.2.1.symm
      split at h
      · simp only [Option.some.injEq, Prod.mk.injEq] at h
        obtain ⟨rfl, rfl⟩ := h
        exact frame ht (by simp [upd_other _ _ hrr]) (by simp [rem, current]) hne (by simp) hm
      · simp only [Option.some.injEq, Prod.mk.injEq] at h
        obtain ⟨rfl, rfl⟩ := h
        exact frame ht (by simp [upd_other _ _ hrr]) (by simp [rem, current]) hne (by simp) hm

theorem TInv.step {r : Nat} {init : List Nat} {s s' : TState} (h : TInv r init s) (hs : TStep s s') :
    TInv r init s' := by
  obtain ⟨j, t, e', t', ht, hstep⟩ := hs
  have hpc := h.pcs t (List.mem_of_getElem? ht)
  refine ⟨?_, main_step ht hpc hstep h.main⟩
  intro x hx
  rcases mem_set_cases hx with rfl | hx
  · exact pcOk_step hpc hstep
  · exact h.pcs x hx

theorem TInv.steps {r : Nat} {init : List Nat} {s s' : TState} (h : TInv r init s) (hs : TSteps s s') :
    TInv r init s' := by
  induction hs with
  | refl => exact h
  | tail _ hst ih => exact ih.step hst

/-! ## The presence flags -/

def AtSlot (thr : List Thr) (i : Nat) (p : Port) (k : Nat) : Prop :=
  ∃ t, thr[i]? = some t ∧ t.pc = .gotSlot p k

theorem AtSlot.set_other {thr : List Thr} {i j : Nat} {p : Port} {n : Nat} {t' : Thr} (hij : j ≠ i) :
    AtSlot (thr.set j t') i p n ↔ AtSlot thr i p n := by
  simp [AtSlot, List.getElem?_set, hij]

theorem AtSlot.set_self {thr : List Thr} {j : Nat} {t t' : Thr} (ht : thr[j]? = some t) {p : Port} {n : Nat} :
    AtSlot (thr.set j t') j p n ↔ t'.pc = .gotSlot p n := by
  have : j < thr.length := (List.getElem?_eq_some_iff.mp ht).1
  simp [AtSlot, List.getElem?_set, this]

theorem atSlot_self {thr : List Thr} {j : Nat} {t : Thr} (ht : thr[j]? = some t) {p : Port} {n : Nat} :
    AtSlot thr j p n ↔ t.pc = .gotSlot p n := by
  simp [AtSlot, ht]

/-- A thread has not yet set the flag of `p`. -/
def Pending (t : Thr) (p : Port) : Prop :=
  p ∈ t.todo ∨ (∃ k, t.pc = .gotSlot p k) ∨ t.pc = .stored p

structure FInv (e0 : Env) (P : List Port) (s : TState) : Prop where
  const : s.env.all = e0.all ∧ s.env.regs = e0.regs
  alloc : s.env.abbr.length = s.env.all.length
  todo : ∀ t ∈ s.thr, ∀ p ∈ t.todo, p ∈ P
  log : ∃ alog : List Nat, s.env.abbrSize = alog.length ∧ (∀ f ∈ alog, ∃ p ∈ P, p.hasSource = true ∧ p.field = f) ∧
    (∀ f, s.env.fields f = true → f ∈ alog) ∧
    (∀ t ∈ s.thr, ∀ p, t.pc = .stored p → p.field ∈ alog) ∧
    (∀ i p k, AtSlot s.thr i p k → alog[k]? = some p.field) ∧
    (∀ k, k < alog.length → k < s.env.all.length → s.env.abbr[k]? = alog[k]? ∨ ∃ i p, AtSlot s.thr i p k)
  all : ∀ p ∈ P, p.hasSource = true → s.env.fields p.field = true ∨ ∃ (i : Nat) (t : Thr), s.thr[i]? = some t ∧ Pending t p

theorem FInv.step {e0 : Env} {P : List Port} {s s' : TState} (h : FInv e0 P s) (hs : TStep s s') : FInv e0 P s' := by
  obtain ⟨j, t, e', t', ht, hstep⟩ := hs
  obtain ⟨hconst, halloc, htodo, ⟨alog, a, b, c, d, f, g⟩, hall⟩ := h
  have hjlt : j < s.thr.length := (List.getElem?_eq_some_iff.mp ht).1
  have hmem : t ∈ s.thr := List.mem_of_getElem? ht
  -- steps that do not touch the flags
  have frame : ∀ (hE : e'.all = s.env.all ∧ e'.regs = s.env.regs ∧ e'.abbr = s.env.abbr ∧
      e'.abbrSize = s.env.abbrSize ∧ e'.fields = s.env.fields)
      (hT : ∀ p ∈ t'.todo, p ∈ t.todo) (hp : ∀ p, Pending t p → p.hasSource = true → Pending t' p)
      (h1 : ∀ p k, t.pc ≠ .gotSlot p k) (h2 : ∀ p k, t'.pc ≠ .gotSlot p k) (h3 : ∀ p, t'.pc ≠ .stored p),
      FInv e0 P ⟨e', s.thr.set j t'⟩ := by
    rintro ⟨e1, e2, e3, e4, e5⟩ hT hp h1 h2 h3
    refine ⟨by simp only [e1, e2]; exact hconst, by simp only [e1, e3]; exact halloc, ?_, ⟨alog, ?_, b, ?_, ?_, ?_, ?_⟩, ?_⟩
    · intro x hx p hpx
      rcases mem_set_cases hx with rfl | hx
      · exact htodo t hmem p (hT p hpx)
      · exact htodo x hx p hpx
    · simp only [e4]; exact a
    · simp only [e5]; exact c
    · intro x hx p hpx
      rcases mem_set_cases hx with rfl | hx
      · exact absurd hpx (h3 p)
      · exact d x hx p hpx
    · intro i p k hi
      by_cases hij : j = i
      · subst hij; rw [AtSlot.set_self ht] at hi; exact absurd hi (h2 p k)
      · rw [AtSlot.set_other hij] at hi; exact f i p k hi
    · intro k hk hk2
      simp only [e1, e3] at hk2 ⊢
      rcases g k hk hk2 with h | ⟨i, p, hi⟩
      · exact Or.inl h
      · right
        by_cases hij : j = i
        · subst hij; rw [atSlot_self ht] at hi; exact absurd hi (h1 p k)
        · exact ⟨i, p, (AtSlot.set_other hij).2 hi⟩
    · intro p hpP hsrc
      simp only [e5]
      rcases hall p hpP hsrc with h | ⟨i, x, hx, hpx⟩
      · exact Or.inl h
      · right
        by_cases hij : j = i
        · subst hij
          rw [ht] at hx; cases hx
          exact ⟨j, t', by simp [List.getElem?_set, hjlt], hp p hpx hsrc⟩
        · exact ⟨i, x, by simp [List.getElem?_set, hij, hx], hpx⟩
  obtain ⟨todo, pc⟩ := t
  cases pc with
  | idle =>
    cases todo with
    | nil => simp [thrStep] at hstep
    | cons p rest =>
      simp only [thrStep] at hstep
      split at hstep
      · rename_i hsrc
        simp only [Option.some.injEq, Prod.mk.injEq] at hstep
        obtain ⟨rfl, rfl⟩ := hstep
        refine frame (by simp) (by simp; tauto) ?_ (by simp) (by simp) (by simp)
        rintro q (hq | ⟨k, hq⟩ | hq) hqs
        · rcases List.mem_cons.mp hq with rfl | hq
          · rw [hsrc] at hqs; cases hqs
          · exact Or.inl hq
        · simp at hq
        · simp at hq
      · rename_i hsrc
        simp only [Option.some.injEq, Prod.mk.injEq] at hstep
        obtain ⟨rfl, rfl⟩ := hstep
        have hpP : p ∈ P := htodo _ hmem p (by simp)
        refine ⟨hconst, halloc, ?_, ⟨alog ++ [p.field], ?_, ?_, ?_, ?_, ?_, ?_⟩, ?_⟩
        · intro x hx q hq
          rcases mem_set_cases hx with rfl | hx
          · exact htodo _ hmem q (List.mem_cons_of_mem _ hq)
          · exact htodo x hx q hq
        · simp [a]
        · intro q hq
          rcases List.mem_append.mp hq with hq | hq
          · exact b q hq
          · simp only [List.mem_singleton] at hq; subst hq; exact ⟨p, hpP, by simpa using hsrc, rfl⟩
        · intro q hq; exact List.mem_append_left _ (c q hq)
        · intro x hx q hq
          rcases mem_set_cases hx with rfl | hx
          · simp at hq
          · exact List.mem_append_left _ (d x hx q hq)
        · intro i q k hi
          by_cases hij : j = i
          · subst hij; rw [AtSlot.set_self ht] at hi
            simp only [Pc.gotSlot.injEq] at hi
            obtain ⟨rfl, rfl⟩ := hi
            rw [a]; simp
          · rw [AtSlot.set_other hij] at hi
            have := f i q k hi
            rw [List.getElem?_append_left (List.getElem?_eq_some_iff.mp this).1]; exact this
        · intro k hk hk2
          simp only [List.length_append, List.length_singleton] at hk
          by_cases hkl : k = alog.length
          · right; exact ⟨j, p, (AtSlot.set_self ht).2 (by simp only [Pc.gotSlot.injEq, true_and]; omega)⟩
          · rcases g k (by omega) hk2 with h | ⟨i, q, hi⟩
            · left; rw [List.getElem?_append_left (by omega)]; exact h
            · right
              by_cases hij : j = i
              · subst hij; rw [atSlot_self ht] at hi; simp at hi
              · exact ⟨i, q, (AtSlot.set_other hij).2 hi⟩
        · intro q hq hqs
          rcases hall q hq hqs with h | ⟨i, x, hx, hpx⟩
          · exact Or.inl h
          · right
            by_cases hij : j = i
            · subst hij
              rw [ht] at hx; cases hx
              refine ⟨j, _, by simp [List.getElem?_set, hjlt]; rfl, ?_⟩
              rcases hpx with hpx | ⟨k, hpx⟩ | hpx
              · rcases List.mem_cons.mp hpx with rfl | hpx
                · exact Or.inr (Or.inl ⟨_, rfl⟩)
                · exact Or.inl hpx
              · simp at hpx
              · simp at hpx
            · exact ⟨i, x, by simp [List.getElem?_set, hij, hx], hpx⟩
  | gotSlot p k0 =>
    simp only [thrStep, Option.some.injEq, Prod.mk.injEq] at hstep
    obtain ⟨rfl, rfl⟩ := hstep
    have hk0 := f j p k0 ((atSlot_self ht).2 rfl)
    refine ⟨hconst, ?_, ?_, ⟨alog, a, b, c, ?_, ?_, ?_⟩, ?_⟩
    · simp only; split <;> simp [halloc]
    · intro x hx q hq
      rcases mem_set_cases hx with rfl | hx
      · exact htodo _ hmem q hq
      · exact htodo x hx q hq
    · intro x hx q hq
      rcases mem_set_cases hx with rfl | hx
      · simp only [Pc.stored.injEq] at hq; subst hq; exact List.mem_of_getElem? hk0
      · exact d x hx q hq
    · intro i q k hi
      by_cases hij : j = i
      · subst hij; rw [AtSlot.set_self ht] at hi; simp at hi
      · rw [AtSlot.set_other hij] at hi; exact f i q k hi
    · intro k hk hk2
      simp only at hk2 ⊢
      by_cases hkk : k0 = k
      · subst hkk; left
        rw [if_pos hk2, List.getElem?_set, if_pos rfl, if_pos (by omega), hk0]
      · have : (if k0 < s.env.all.length then s.env.abbr.set k0 p.field else s.env.abbr)[k]? = s.env.abbr[k]? := by
          split
          · rw [List.getElem?_set, if_neg hkk]
          · rfl
        rw [this]
        rcases g k hk hk2 with h | ⟨i, q, hi⟩
        · exact Or.inl h
        · right
          by_cases hij : j = i
          · subst hij; rw [atSlot_self ht] at hi
            simp only [Pc.gotSlot.injEq] at hi
            exact absurd hi.2 hkk
          · exact ⟨i, q, (AtSlot.set_other hij).2 hi⟩
    · intro q hq hqs
      rcases hall q hq hqs with h | ⟨i, x, hx, hpx⟩
      · exact Or.inl h
      · right
        by_cases hij : j = i
        · subst hij
          rw [ht] at hx; cases hx
          refine ⟨j, _, by simp [List.getElem?_set, hjlt]; rfl, ?_⟩
          rcases hpx with hpx | ⟨k, hpx⟩ | hpx
          · exact Or.inl hpx
          · simp only [Pc.gotSlot.injEq] at hpx; rw [hpx.1]; exact Or.inr (Or.inr rfl)
          · simp at hpx
        · exact ⟨i, x, by simp [List.getElem?_set, hij, hx], hpx⟩
  | stored p =>
    simp only [thrStep, Option.some.injEq, Prod.mk.injEq] at hstep
    obtain ⟨rfl, rfl⟩ := hstep
    have hp := d _ hmem p rfl
    refine ⟨hconst, halloc, ?_, ⟨alog, a, b, ?_, ?_, ?_, ?_⟩, ?_⟩
    · intro x hx q hq
      rcases mem_set_cases hx with rfl | hx
      · exact htodo _ hmem q hq
      · exact htodo x hx q hq
    · intro q hq
      by_cases hqf : q = p.field
      · subst hqf; exact hp
      · simp only [upd_other _ _ hqf] at hq; exact c q hq
    · intro x hx q hq
      rcases mem_set_cases hx with rfl | hx
      · simp at hq
      · exact d x hx q hq
    · intro i q k hi
      by_cases hij : j = i
      · subst hij; rw [AtSlot.set_self ht] at hi; simp at hi
      · rw [AtSlot.set_other hij] at hi; exact f i q k hi
    · intro k hk hk2
      rcases g k hk hk2 with h | ⟨i, q, hi⟩
      · exact Or.inl h
      · right
        by_cases hij : j = i
        · subst hij; rw [atSlot_self ht] at hi; simp at hi
        · exact ⟨i, q, (AtSlot.set_other hij).2 hi⟩
    · intro q hq hqs
      by_cases hqf : q.field = p.field
      · left; simp [hqf, upd_same]
      · simp only [upd_other _ _ hqf]
        rcases hall q hq hqs with h | ⟨i, x, hx, hpx⟩
        · exact Or.inl h
        · right
          by_cases hij : j = i
          · subst hij
            rw [ht] at hx; cases hx
            refine ⟨j, _, by simp [List.getElem?_set, hjlt]; rfl, ?_⟩
            rcases hpx with hpx | ⟨k, hpx⟩ | hpx
            · exact Or.inl hpx
            · simp at hpx
            · simp only [Pc.stored.injEq] at hpx; rw [hpx] at hqf; exact absurd rfl hqf
          · exact ⟨i, x, by simp [List.getElem?_set, hij, hx], hpx⟩
  | marked p =>
    have hp : ∀ (pc' : Pc) (q : Port), Pending ⟨todo, .marked p⟩ q → q.hasSource = true → Pending ⟨todo, pc'⟩ q := by
      rintro pc' q (hq | ⟨k, hq⟩ | hq) _
      · exact Or.inl hq
      · simp at hq
      · simp at hq
    simp only [thrStep] at hstep
    split at hstep
    · simp only [Option.some.injEq, Prod.mk.injEq] at hstep
      obtain ⟨rfl, rfl⟩ := hstep
      exact frame (by simp) (by simp) (hp _) (by simp) (by simp) (by simp)
    · split at hstep
      · simp only [Option.some.injEq, Prod.mk.injEq] at hstep
        obtain ⟨rfl, rfl⟩ := hstep
        exact frame (by simp) (by simp) (hp _) (by simp) (by simp) (by simp)
      · simp only [Option.some.injEq, Prod.mk.injEq] at hstep
        obtain ⟨rfl, rfl⟩ := hstep
        exact frame (by simp) (by simp) (hp _) (by simp) (by simp) (by simp)
  | checked p r =>
    simp only [thrStep, Option.some.injEq, Prod.mk.injEq] at hstep
    obtain ⟨rfl, rfl⟩ := hstep
    refine frame (by simp) (by simp) ?_ (by simp) (by simp) (by simp)
    rintro q (hq | ⟨k, hq⟩ | hq) _
    · exact Or.inl hq
    · simp at hq
    · simp at hq
  | gotChan p r n =>
    have hp : ∀ (q : Port), Pending ⟨todo, .gotChan p r n⟩ q → q.hasSource = true → Pending ⟨todo, .idle⟩ q := by
      rintro q (hq | ⟨k, hq⟩ | hq) _
      · exact Or.inl hq
      · simp at hq
      · simp at hq
    simp only [thrStep] at hstep
    split at hstep
    · simp only [Option.some.injEq, Prod.mk.injEq] at hstep
      obtain ⟨rfl, rfl⟩ := hstep
      exact frame (by simp) (by simp) hp (by simp) (by simp) (by simp)
    · simp only [Option.some.injEq, Prod.mk.injEq] at hstep
      obtain ⟨rfl, rfl⟩ := hstep
      exact frame (by simp) (by simp) hp (by simp) (by simp) (by simp)

theorem FInv.steps {e0 : Env} {P : List Port} {s s' : TState} (h : FInv e0 P s) (hs : TSteps s s') : FInv e0 P s' := by
  induction hs with
  | refl => exact h
  | tail _ hst ih => exact ih.step hst

/-- The size of a record that is not registered stays 0. -/
structure ZInv (e0 : Env) (s : TState) : Prop where
  regs : s.env.regs = e0.regs
  size : ∀ r, (s.env.recs r).size ≠ 0 → r ∈ e0.regs
  todo : ∀ t ∈ s.thr, ∀ p ∈ current t.pc ++ t.todo, ∀ r, p.record = some r → r ∈ e0.regs
  pc : ∀ t ∈ s.thr, ∀ p r n, (t.pc = .checked p r ∨ t.pc = .gotChan p r n) → r ∈ e0.regs

theorem ZInv.step {e0 : Env} {s s' : TState} (h : ZInv e0 s) (hs : TStep s s') : ZInv e0 s' := by
  obtain ⟨j, t, e', t', ht, hstep⟩ := hs
  obtain ⟨h1, h2, h3, h4⟩ := h
  have hmem : t ∈ s.thr := List.mem_of_getElem? ht
  have fin : e'.regs = s.env.regs → (∀ r, (e'.recs r).size ≠ 0 → r ∈ e0.regs) →
      (∀ p ∈ current t'.pc ++ t'.todo, ∀ r, p.record = some r → r ∈ e0.regs) →
      (∀ p r n, (t'.pc = .checked p r ∨ t'.pc = .gotChan p r n) → r ∈ e0.regs) →
      ZInv e0 ⟨e', s.thr.set j t'⟩ := by
    intro a b c d
    refine ⟨a.trans h1, b, ?_, ?_⟩
    · intro x hx
      rcases mem_set_cases hx with rfl | hx
      · exact c
      · exact h3 x hx
    · intro x hx
      rcases mem_set_cases hx with rfl | hx
      · exact d
      · exact h4 x hx
  have h3 := h3 t hmem
  have h4 := h4 t hmem
  obtain ⟨todo, pc⟩ := t
  have sz : ∀ r (sp : Sparse), r ∈ e0.regs → ∀ r', (upd s.env.recs r sp r').size ≠ 0 → r' ∈ e0.regs := by
    intro r sp hr r' hr'
    by_cases hrr : r' = r
    · subst hrr; exact hr
    · rw [upd_other _ _ hrr] at hr'; exact h2 r' hr'
  cases pc with
  | idle =>
    cases todo with
    | nil => simp [thrStep] at hstep
    | cons p rest =>
      simp only [thrStep] at hstep
      split at hstep
      · simp only [Option.some.injEq, Prod.mk.injEq] at hstep
        obtain ⟨rfl, rfl⟩ := hstep
        exact fin rfl h2 (fun q hq => h3 q (by simp [current] at hq ⊢; exact Or.inr hq)) (by simp)
      · simp only [Option.some.injEq, Prod.mk.injEq] at hstep
        obtain ⟨rfl, rfl⟩ := hstep
        exact fin rfl h2 (fun q hq => h3 q (by simpa [current] using hq)) (by simp)
  | gotSlot p i =>
    simp only [thrStep, Option.some.injEq, Prod.mk.injEq] at hstep
    obtain ⟨rfl, rfl⟩ := hstep
    exact fin rfl h2 (fun q hq => h3 q (by simpa [current] using hq)) (by simp)
  | stored p =>
    simp only [thrStep, Option.some.injEq, Prod.mk.injEq] at hstep
    obtain ⟨rfl, rfl⟩ := hstep
    exact fin rfl h2 (fun q hq => h3 q (by simpa [current] using hq)) (by simp)
  | marked p =>
    simp only [thrStep] at hstep
    split at hstep
    · simp only [Option.some.injEq, Prod.mk.injEq] at hstep
      obtain ⟨rfl, rfl⟩ := hstep
      exact fin rfl h2 (fun q hq => h3 q (by simp [current] at hq ⊢; exact Or.inr hq)) (by simp)
    · rename_i r hr
      split at hstep
      · simp only [Option.some.injEq, Prod.mk.injEq] at hstep
        obtain ⟨rfl, rfl⟩ := hstep
        refine fin rfl h2 (fun q hq => h3 q (by simpa [current] using hq)) ?_
        intro q r' n hq
        simp only [Pc.checked.injEq, reduceCtorEq, or_false] at hq
        rw [← hq.2]; exact h3 p (by simp [current]) r hr
      · simp only [Option.some.injEq, Prod.mk.injEq] at hstep
        obtain ⟨rfl, rfl⟩ := hstep
        exact fin rfl h2 (fun q hq => h3 q (by simp [current] at hq ⊢; exact Or.inr hq)) (by simp)
  | checked p r =>
    simp only [thrStep, Option.some.injEq, Prod.mk.injEq] at hstep
    obtain ⟨rfl, rfl⟩ := hstep
    have hr := h4 p r 0 (Or.inl rfl)
    refine fin rfl (sz r _ hr) (fun q hq => h3 q (by simp [current] at hq ⊢; exact Or.inr hq)) ?_
    intro q r' n hq
    simp only [Pc.gotChan.injEq, reduceCtorEq, false_or] at hq
    rw [← hq.2.1]; exact hr
  | gotChan p r n =>
    have hr := h4 p r n (Or.inr rfl)
    simp only [thrStep] at hstep
    split at hstep
    · simp only [Option.some.injEq, Prod.mk.injEq] at hstep
      obtain ⟨rfl, rfl⟩ := hstep
      exact fin rfl (sz r _ hr) (fun q hq => h3 q (by simpa [current] using hq)) (by simp)
    · simp only [Option.some.injEq, Prod.mk.injEq] at hstep
      obtain ⟨rfl, rfl⟩ := hstep
      exact fin rfl (sz r _ hr) (fun q hq => h3 q (by simpa [current] using hq)) (by simp)

theorem ZInv.steps {e0 : Env} {s s' : TState} (h : ZInv e0 s) (hs : TSteps s s') : ZInv e0 s' := by
  induction hs with
  | refl => exact h
  | tail _ hst ih => exact ih.step hst

end ReactorC.Port
