import Verif.Token.ThreadsInv

/-! Programs that do not forward tokens: no two threads ever work on the same token. -/

set_option linter.unusedSimpArgs false
set_option linter.unusedVariables false

namespace ReactorC.Token.Threads

section
variable {n : Nat} {s s' : State}

/-- Each token has one holder at most: a port, or the thread that works on it. -/
structure Uniq (n : Nat) (s : State) : Prop where
  one : ∀ k, holders n s.own k ≤ 1
  toks : ∀ i k, k ∈ (s.pc i).toks →
    (∃ p, (s.pc i).port = some p ∧ s.own p = some k) ∨ (holders n s.own k = 0 ∧ (s.tok k).place = .live)

theorem Uniq.start (n : Nat) : Uniq n start := by
  refine ⟨fun k => ?_, fun i k h => by cases h⟩
  have := (Inv.start n).count k
  have e : (Threads.start.tok k).rc = 0 := rfl
  omega

/-- A port that a thread sets holds a token that others do not work on. -/
theorem Uniq.own_apart (h : Uniq n s) (hI : Inv n s) {p k : Nat} (hp : p < n) (e : s.own p = some k) {j : Nat}
    (hj : (s.pc j).port ≠ some p) : k ∉ (s.pc j).toks := by
  intro hk
  have h0 := holders_pos hp e
  rcases h.toks j k hk with ⟨q, h1, h2⟩ | ⟨h1, _⟩
  · have hq := hI.range j q h1
    have hne : q ≠ p := fun x => hj (by rw [← x]; exact h1)
    have h3 := holders_put (n := n) (own := s.own) none k hp
    rw [if_pos e] at h3
    have h4 : 0 < holders n (put s.own p none) k := holders_pos hq (by rw [put_other _ _ hne]; exact h2)
    have := h.one k
    simp at h3
    omega
  · omega

theorem Uniq.live (h : Uniq n s) (hI : Inv n s) {j k : Nat} (hk : k ∈ (s.pc j).toks) : (s.tok k).place = .live := by
  rcases h.toks j k hk with ⟨q, h1, h2⟩ | ⟨_, h1⟩
  · exact (hI.good_port (hI.range j q h1) h2).1
  · exact h1

/-- A thread goes on with tokens it had, that of its port, or one that was not in use. -/
theorem Uniq.apart (h : Uniq n s) (hI : Inv n s) (hA : Apart s) {i p : Nat} {c : Pc} (hpc : s'.pc = put s.pc i c) (hp : p < n)
    (ho : ∀ j, j ≠ i → (s.pc j).port ≠ some p)
    (hc : ∀ k ∈ c.toks, k ∈ (s.pc i).toks ∨ s.own p = some k ∨ (s.tok k).place ≠ .live) : Apart s' := by
  have ei : s'.pc i = c := by rw [hpc, put_same]
  have ej : ∀ j, j ≠ i → s'.pc j = s.pc j := fun j hj => by rw [hpc, put_other _ _ hj]
  have key : ∀ j, j ≠ i → ∀ k ∈ c.toks, k ∉ (s.pc j).toks := by
    intro j hj k hk hk'
    rcases hc k hk with x | x | x
    · exact hA i j (Ne.symm hj) k x hk'
    · exact h.own_apart hI hp x (ho j hj) hk'
    · exact x (h.live hI hk')
  intro a b hab k hk hk'
  by_cases e1 : a = i
  · subst e1
    rw [ei] at hk
    rw [ej b (Ne.symm hab)] at hk'
    exact key b (Ne.symm hab) k hk hk'
  · rw [ej a e1] at hk
    by_cases e2 : b = i
    · subst e2
      rw [ei] at hk'
      exact key a e1 k hk' hk
    · rw [ej b e2] at hk'
      exact hA a b hab k hk hk'

/-- The property is kept. -/
theorem Uniq.of (h : Uniq n s) (hA : Apart s) (hA' : Apart s') {i : Nat} {c : Pc} (hpc : s'.pc = put s.pc i c)
    (htok : ∀ k, k ∉ (s.pc i).toks → k ∉ c.toks → s'.tok k = s.tok k)
    (hhold : ∀ k, k ∉ (s.pc i).toks → k ∉ c.toks → holders n s'.own k = holders n s.own k)
    (hown : ∀ j, j ≠ i → ∀ q, (s.pc j).port = some q → s'.own q = s.own q)
    (hone : ∀ k, k ∈ (s.pc i).toks ∨ k ∈ c.toks → holders n s'.own k ≤ 1)
    (htoks : ∀ k ∈ c.toks, (∃ p, c.port = some p ∧ s'.own p = some k) ∨ (holders n s'.own k = 0 ∧ (s'.tok k).place = .live)) :
    Uniq n s' := by
  have ei : s'.pc i = c := by rw [hpc, put_same]
  have ej : ∀ j, j ≠ i → s'.pc j = s.pc j := fun j hj => by rw [hpc, put_other _ _ hj]
  refine ⟨fun k => ?_, fun j k hk => ?_⟩
  · by_cases hk : k ∈ (s.pc i).toks ∨ k ∈ c.toks
    · exact hone k hk
    · rw [hhold k (fun x => hk (.inl x)) (fun x => hk (.inr x))]; exact h.one k
  · by_cases e : j = i
    · subst e; rw [ei] at hk ⊢; exact htoks k hk
    · have h2 : k ∉ c.toks := by rw [← ei]; exact hA' j i e k hk
      rw [ej j e] at hk ⊢
      have h1 : k ∉ (s.pc i).toks := hA j i e k hk
      rw [htok k h1 h2, hhold k h1 h2]
      rcases h.toks j k hk with ⟨q, x, y⟩ | x
      · exact .inl ⟨q, x, by rw [hown j e q x]; exact y⟩
      · exact .inr x

/-- A step that changes no references. -/
theorem Uniq.keeps (h : Uniq n s) (hA : Apart s) (hA' : Apart s') {i : Nat} {c : Pc} (hpc : s'.pc = put s.pc i c)
    (htok : ∀ k, k ∉ (s.pc i).toks → k ∉ c.toks → s'.tok k = s.tok k) (ho : s'.own = s.own)
    (htoks : ∀ k ∈ c.toks, (∃ p, c.port = some p ∧ s.own p = some k) ∨ (holders n s.own k = 0 ∧ (s'.tok k).place = .live)) :
    Uniq n s' :=
  h.of hA hA' hpc htok (fun k _ _ => by rw [ho]) (fun _ _ q _ => by rw [ho]) (fun k _ => by rw [ho]; exact h.one k)
    (by rw [ho]; exact htoks)

theorem goto_tok (s : State) (i : Nat) (c : Pc) : (goto s i c).tok = s.tok := rfl

/-- `_lf_replace_template_token` is called with a token that no port has. -/
theorem Uniq.replaces {s0 : State} (h : Uniq n s) (hI : Inv n s) (hA : Apart s) {i p k : Nat} (epc : s.pc i = .newInit p k)
    (ht : ∀ x, x ≠ k → s0.tok x = s.tok x) (ho : s0.own = s.own) (hp : s0.port = s.port) (hpc : s0.pc = s.pc)
    (hlive : (s0.tok k).place = .live) (hz : holders n s.own k = 0) (hown : s.own p = s.port p) :
    Apart (replace s0 i p k) ∧ Uniq n (replace s0 i p k) := by
  have hpn : p < n := hI.range i p (by rw [epc]; rfl)
  have ho' : ∀ j, j ≠ i → (s.pc j).port ≠ some p := fun j hj => hI.alone i j p (Ne.symm hj) (by rw [epc]; rfl)
  have e0 : s0.port p = s.own p := by rw [hp, hown]
  have key : ∀ c : Pc, replace s0 i p k = goto s0 i c → (∀ x ∈ c.toks, x = k ∨ (s.own p = some x ∧ c.port = some p)) →
      Apart (replace s0 i p k) ∧ Uniq n (replace s0 i p k) := by
    intro c e hc
    rw [e]
    have hA' : Apart (goto s0 i c) := h.apart hI hA (by rw [goto_pc, hpc]) hpn ho' (fun x hx => by
      rcases hc x hx with y | y
      · exact .inl (by rw [epc, y]; exact List.mem_cons_self)
      · exact .inr (.inl y.1))
    refine ⟨hA', h.keeps hA hA' (by rw [goto_pc, hpc]) (fun x h1 _ => ?_) (by show s0.own = _; rw [ho]) (fun x hx => ?_)⟩
    · rw [goto_tok]
      exact ht x fun y => h1 (by rw [epc, y]; exact List.mem_cons_self)
    · rcases hc x hx with y | y
      · subst y; exact .inr ⟨hz, hlive⟩
      · exact .inl ⟨p, y.2, y.1⟩
  unfold replace at key ⊢
  rw [e0] at key ⊢
  split
  · rename_i old eo
    simp only [eo] at key
    split
    · rename_i e
      exact absurd (by rw [e] at eo; exact eo) (holders_zero hpn hz)
    · rename_i e
      rw [if_neg e] at key
      refine key (.check p old k) rfl (fun x hx => ?_)
      simp only [Pc.toks, List.mem_cons, List.not_mem_nil, or_false] at hx
      rcases hx with y | y
      · exact .inr ⟨by rw [y], rfl⟩
      · exact .inl y
  · rename_i eo
    simp only [eo] at key
    exact key (.incLoad p k) rfl (fun x hx => .inl (by simpa [Pc.toks] using hx))

theorem place_put {f : Nat → Tok} {o : Nat} {t : Tok} (h : t.place = (f o).place) (x : Nat) : (put f o t x).place = (f x).place := by
  by_cases e : x = o
  · subst e; rw [put_same]; exact h
  · rw [put_other _ _ e]

theorem Uniq.next (h : Uniq n s) (hI : Inv n s) (hA : Apart s) {i k : Nat} {full : Bool} (e : next s i k full = some s') :
    Apart s' ∧ Uniq n s' := by
  have hf := hI.facts i
  have hr := hI.range i
  have ht := h.toks i
  have ha := fun p hp j (hj : j ≠ i) => hI.alone i j p (Ne.symm hj) hp
  -- tokens the thread had, without a change of references
  have same : ∀ {c : Pc} {p : Nat}, s'.pc = put s.pc i c → (s.pc i).port = some p → c.port = some p → s'.own = s.own →
      (∀ x ∈ c.toks, x ∈ (s.pc i).toks) → (∀ x, x ∉ (s.pc i).toks → s'.tok x = s.tok x) →
      (∀ x ∈ c.toks, (s'.tok x).place = (s.tok x).place) → Apart s' ∧ Uniq n s' := by
    intro c p hpc hp hp' ho hc htok hpl
    have hA' := h.apart (s' := s') hI hA hpc (hI.range i p hp) (ha p hp) (fun x hx => .inl (hc x hx))
    refine ⟨hA', h.keeps hA hA' hpc (fun x h1 _ => htok x h1) ho (fun x hx => ?_)⟩
    rcases ht x (hc x hx) with ⟨q, y, z⟩ | ⟨y, z⟩
    · rw [hp] at y; cases y; exact .inl ⟨_, hp', z⟩
    · exact .inr ⟨y, by rw [hpl x hx]; exact z⟩
  have gets : ∀ {p x : Nat}, s'.pc = put s.pc i .idle → (s.pc i).port = some p → s'.own = put s.own p (some x) → s'.tok = s.tok →
      x ∈ (s.pc i).toks → (∀ y, s.own p = some y → y ∈ (s.pc i).toks) → (s.own p = some x ∨ holders n s.own x = 0) →
      Apart s' ∧ Uniq n s' := by
    intro p x hpc hp ho htok hx hold hz
    have hpn := hI.range i p hp
    have hA' := h.apart (s' := s') hI hA hpc hpn (ha p hp) (fun x hx => by cases hx)
    have hh := fun y => holders_put (n := n) (own := s.own) (some x) y hpn
    refine ⟨hA', h.of hA hA' hpc (fun x _ _ => by rw [htok]) (fun y h1 _ => ?_) (fun j hj q hq => ?_) (fun y _ => ?_)
      (fun x hx => by cases hx)⟩
    · have := hh y
      rw [if_neg (fun e => h1 (hold y e)), if_neg (fun e => h1 (by cases e; exact hx))] at this
      rw [ho]; exact this
    · rw [ho, put_other]
      intro e
      subst e
      exact ha q hp j hj hq
    · have := hh y
      have h1 := h.one y
      rw [ho]
      by_cases e : some x = some y
      · cases e
        rw [if_pos rfl] at this
        rcases hz with z | z
        · rw [if_pos z] at this; omega
        · split at this <;> omega
      · rw [if_neg e] at this
        split at this <;> omega
  have created : ∀ {c : Pc} {p : Nat}, s'.pc = put s.pc i c → (s.pc i).port = some p → c.port = some p → s'.own = s.own →
      (s.tok k).place ≠ .live → s'.tok = put s.tok k { s.tok k with place := .live } → (∀ x ∈ c.toks, x = k ∨ x ∈ (s.pc i).toks) →
      k ∈ c.toks → Apart s' ∧ Uniq n s' := by
    intro c p hpc hp hp' ho hpl htok hc hk
    have hA' := h.apart (s' := s') hI hA hpc (hI.range i p hp) (ha p hp) (fun x hx => by
      rcases hc x hx with y | y
      · subst y; exact .inr (.inr hpl)
      · exact .inl y)
    have hz : holders n s.own k = 0 := by
      by_contra hne
      exact hpl (hI.live k (by omega)).1
    refine ⟨hA', h.keeps hA hA' hpc (fun x _ h2 => ?_) ho (fun x hx => ?_)⟩
    · rw [htok, put_other]
      intro e; subst e; exact h2 hk
    · by_cases e : x = k
      · subst e; exact .inr ⟨hz, by rw [htok, put_same]⟩
      · rcases ht x ((hc x hx).resolve_left e) with ⟨q, y, z⟩ | ⟨y, z⟩
        · rw [hp] at y; cases y; exact .inl ⟨_, hp', z⟩
        · exact .inr ⟨y, by rw [htok, put_other _ _ e]; exact z⟩
  unfold Threads.next at e
  split at e <;> rename_i epc <;> rw [epc] at hf hr ht <;> simp only [Facts] at hf <;>
    simp only [Pc.port, Option.some.injEq, forall_eq'] at hr <;> rw [epc] at same gets created
  · cases e
  · rename_i p o m
    split at e <;> cases e
    · exact same rfl rfl rfl rfl (by intro y hy; simp [Pc.toks] at hy ⊢; exact .inr hy) (fun _ _ => rfl) (fun _ _ => rfl)
    · exact same rfl rfl rfl rfl (fun _ hy => hy) (fun _ _ => rfl) (fun _ _ => rfl)
  · cases e
    exact same rfl rfl rfl rfl (fun _ hy => hy) (fun _ _ => rfl) (fun _ _ => rfl)
  · rename_i p o m r
    cases e
    obtain ⟨h1, h2, h3, h4⟩ := hf
    have hg := hI.good_port hr h1
    have hh := fun x => holders_put (n := n) (own := s.own) none x hr
    have hto : put s.tok o { s.tok o with rc := r - 1 } o = { s.tok o with rc := r - 1 } := put_same _ _ _
    have htn : ∀ x, x ≠ o → put s.tok o { s.tok o with rc := r - 1 } x = s.tok x := fun x e => put_other _ _ e
    have hA' : Apart (goto { write s o { s.tok o with rc := r - 1 } with own := put s.own p none } i (.test p o m)) :=
      h.apart hI hA rfl hr (ha p (by rw [epc]; rfl)) (fun x hx => .inl (by rw [epc]; exact hx))
    have ho1 := h.one o
    have hoo := hh o
    rw [if_pos h1] at hoo
    simp at hoo
    refine ⟨hA', h.of hA hA' rfl (fun x hx _ => ?_) (fun x hx _ => ?_) (fun j hj q hq => ?_) (fun x _ => ?_) (fun x hx => ?_)⟩
    · rw [epc] at hx
      exact htn x fun e => hx (by rw [e]; exact List.mem_cons_self)
    · rw [epc] at hx
      have := hh x
      have e1 : ¬ s.own p = some x := fun e => hx (by rw [h1] at e; cases e; exact List.mem_cons_self)
      rw [if_neg e1] at this
      simp at this
      exact this
    · show put s.own p none q = _
      rw [put_other]
      intro e
      subst e
      exact ha q (by rw [epc]; rfl) j hj hq
    · show holders n (put s.own p none) x ≤ 1
      have := hh x
      have := h.one x
      simp at *
      split at * <;> omega
    · refine .inr ?_
      show holders n (put s.own p none) x = 0 ∧ (put s.tok o { s.tok o with rc := r - 1 } x).place = .live
      by_cases ex : x = o
      · subst ex
        rw [hto]
        exact ⟨by omega, hg.1⟩
      · rw [htn x ex]
        rcases ht x hx with ⟨q, y, z⟩ | ⟨y, z⟩
        · cases y
          rw [h1] at z
          cases z
          exact absurd rfl ex
        · refine ⟨?_, z⟩
          have := hh x
          simp at this
          split at this <;> omega
  · split at e <;> cases e
    · exact same rfl rfl rfl rfl (by intro y hy; simp [Pc.toks] at hy ⊢; exact .inr hy) (fun _ _ => rfl) (fun _ _ => rfl)
    · exact same rfl rfl rfl rfl (fun _ hy => hy) (fun _ _ => rfl) (fun _ _ => rfl)
  · split at e <;> cases e
    · exact same rfl rfl rfl rfl (fun _ hy => hy) (fun _ _ => rfl) (fun _ _ => rfl)
    · exact same rfl rfl rfl rfl (fun _ hy => hy) (fun _ _ => rfl) (fun _ _ => rfl)
  · rename_i p o m
    cases e
    exact same rfl rfl rfl rfl (fun _ hy => hy) (fun x hx => put_other _ _ fun e => hx (by rw [e]; exact List.mem_cons_self))
      (fun x _ => by apply place_put; rfl)
  · rename_i p o m
    cases e
    exact same rfl rfl rfl rfl (fun _ hy => hy) (fun x hx => put_other _ _ fun e => hx (by rw [e]; exact List.mem_cons_self))
      (fun x _ => by apply place_put; rfl)
  · rename_i p o m
    cases e
    refine same rfl rfl rfl rfl (by intro y hy; simp [Pc.toks] at hy ⊢; exact .inr hy)
      (fun x hx => put_other _ _ fun e => hx (by rw [e]; exact List.mem_cons_self)) (fun x hx => ?_)
    have ex : x = m := by simpa [Pc.toks] using hx
    show (put s.tok o _ x).place = _
    rw [put_other _ _ (by rw [ex]; exact Ne.symm hf.2.1)]
  · cases e
    exact same rfl rfl rfl rfl (fun _ hy => hy) (fun _ _ => rfl) (fun _ _ => rfl)
  · cases e
    exact same rfl rfl rfl rfl (fun _ hy => hy) (fun x hx => put_other _ _ fun e => hx (by rw [e]; exact List.mem_cons_self))
      (fun x _ => by apply place_put; rfl)
  · rename_i p m
    cases e
    refine gets rfl rfl rfl rfl List.mem_cons_self (fun y hy => by rw [hf.1] at hy; cases hy) ?_
    rcases ht m List.mem_cons_self with ⟨q, y, z⟩ | ⟨y, z⟩
    · cases y; exact .inl z
    · exact .inr y
  · rename_i p o
    split at e
    · split at e <;> cases e
      · exact same rfl rfl rfl rfl (fun _ hy => hy) (fun _ _ => rfl) (fun _ _ => rfl)
      · exact same rfl rfl rfl rfl (fun _ hy => hy) (fun _ _ => rfl) (fun _ _ => rfl)
    · cases e
      exact same rfl rfl rfl rfl (fun _ hy => hy) (fun _ _ => rfl) (fun _ _ => rfl)
  · rename_i p o
    split at e <;> cases e
    · refine same rfl rfl rfl rfl (fun _ hy => hy) (fun x hx => ?_) (fun x _ => ?_)
      · have hx' : x ≠ o := fun e => hx (by rw [e]; exact List.mem_cons_self)
        show put (put s.tok o _) o _ x = _
        rw [put_other _ _ hx', put_other _ _ hx']
      · show (put (put s.tok o _) o _ x).place = _
        by_cases ex : x = o
        · subst ex
          rw [put_same]
          show (put s.tok x _ x).place = _
          rw [put_same]
        · rw [put_other _ _ ex, put_other _ _ ex]
    · exact same rfl rfl rfl rfl (fun _ hy => hy) (fun _ _ => rfl) (fun _ _ => rfl)
  · cases e
    exact same rfl rfl rfl rfl (fun _ hy => by simpa [Pc.toks] using hy)
      (fun x hx => put_other _ _ fun e => hx (by rw [e]; exact List.mem_cons_self)) (fun x _ => by apply place_put; rfl)
  · rename_i p o
    split at e
    · cases e
    · rename_i hpl
      cases e
      exact created rfl rfl rfl rfl hpl rfl (fun x hx => by simpa [Pc.toks] using hx) List.mem_cons_self
  · cases e
    exact same rfl rfl rfl rfl (fun _ hy => hy) (fun x hx => put_other _ _ fun e => hx (by rw [e]; exact List.mem_cons_self))
      (fun x _ => by apply place_put; rfl)
  · rename_i p o x
    cases e
    obtain ⟨h1, h2⟩ := hf
    refine gets rfl rfl rfl rfl List.mem_cons_self (fun y hy => ?_) ?_
    · rcases h2 with ⟨k1, k2⟩ | ⟨k1, k2, k3⟩
      · rw [k1] at hy; cases hy; exact List.mem_cons_self
      · rw [k1] at hy; rw [hy]; exact List.mem_cons_of_mem _ (List.mem_singleton.2 rfl)
    · rcases h2 with ⟨k1, k2⟩ | ⟨k1, k2, k3⟩
      · exact .inl k1
      · exact .inr k2
  · rename_i p
    split at e
    · cases e
    · rename_i hpl
      cases e
      exact created rfl rfl rfl rfl hpl rfl (fun x hx => .inl (by simpa [Pc.toks] using hx)) List.mem_cons_self
  · rename_i p x
    cases e
    obtain ⟨h1, h2, h3⟩ := hf
    refine h.replaces hI hA epc (fun y hy => put_other _ _ hy) rfl rfl rfl ?_ h3 h1
    show (put s.tok x _ x).place = _
    rw [put_same]; exact h2

/-- The program does not forward tokens. -/
def NoForward (_ : State) : Act → Prop
  | .forward _ _ _ _ => False
  | _ => True

theorem Uniq.step (h : Uniq n s) (hI : Inv n s) (hA : Apart s) {a : Act} (hp : Pre n s a) (hN : NoForward s a) (e : exec s a = some s') :
    Apart s' ∧ Uniq n s' := by
  cases a with
  | forward i p q k => exact hN.elim
  | set i p =>
    cases e
    obtain ⟨h1, h2, h3⟩ := hp
    have ht : ∀ k ∈ (Pc.get p (s.port p)).toks, s.own p = some k := by
      intro k hk
      rw [hI.same p h3]
      simpa [Pc.toks] using hk
    have hA' : Apart (goto s i (.get p (s.port p))) := h.apart hI hA rfl h2 (fun j _ => h3 j) (fun k hk => .inr (.inl (ht k hk)))
    exact ⟨hA', h.keeps hA hA' rfl (fun _ _ _ => rfl) rfl (fun k hk => .inl ⟨p, rfl, ht k hk⟩)⟩
  | send i p =>
    cases e
    obtain ⟨h1, h2, h3⟩ := hp
    have hA' : Apart (goto s i (.newToken p)) := h.apart hI hA rfl h2 (fun j _ => h3 j) (fun k hk => by cases hk)
    exact ⟨hA', h.keeps hA hA' rfl (fun _ _ _ => rfl) rfl (fun k hk => by cases hk)⟩
  | go i k full => exact h.next hI hA e

theorem Reach.noForward (h : Reach n NoForward s) : Reach n Keeps s ∧ Uniq n s := by
  induction h with
  | start => exact ⟨.start, Uniq.start n⟩
  | step a hr hp hN e ih =>
    have k := ih.2.step ih.1.inv ih.1.apart hp hN e
    exact ⟨ih.1.step a hp (fun s'' e' => by rw [e] at e'; cases e'; exact k.1) e, k.2⟩

end

end ReactorC.Token.Threads
