import Verif.RtiAddr.Lemmas
import Verif.RtiAddr.Spec

/-! # The expression for addresses -/

namespace Verif.RtiAddr

theorem rep_cls_iff (p : Char → Bool) (lo : Nat) (hi : Option Nat) (w : List Char) (c : Caps) :
    (Re.rep (.cls p) lo hi).L w c ↔
      c = [] ∧ lo ≤ w.length ∧ (∀ m, hi = some m → w.length ≤ m) ∧ ∀ x ∈ w, p x = true := by
  simp only [Re.L]
  constructor
  · rintro ⟨rfl, ps, hps, h1, h2, rfl⟩
    have key : ∀ l : List (List Char), (∀ q ∈ l, ∃ c', c' = ([] : Caps) ∧ ∃ x, p x = true ∧ q = [x]) →
        l.flatten.length = l.length ∧ ∀ x ∈ l.flatten, p x = true := by
      intro l
      induction l with
      | nil => simp
      | cons q l ih =>
          intro h
          obtain ⟨i1, i2⟩ := ih fun q' hq' => h q' (by simp [hq'])
          obtain ⟨-, -, x, hx, rfl⟩ := h q (by simp)
          refine ⟨by simp [i1], ?_⟩
          intro y hy
          simp only [List.flatten_cons, List.singleton_append, List.mem_cons] at hy
          rcases hy with rfl | hy
          · exact hx
          · exact i2 y hy
    obtain ⟨k1, k2⟩ := key ps hps
    rw [k1]
    exact ⟨rfl, h1, h2, k2⟩
  · rintro ⟨rfl, h1, h2, h3⟩
    refine ⟨rfl, w.map fun x => [x], ?_, by simpa using h1, by simpa using h2, ?_⟩
    · intro q hq
      obtain ⟨x, hx, rfl⟩ := List.mem_map.1 hq
      exact ⟨[], rfl, x, h3 x hx, rfl⟩
    · clear h1 h2 h3
      induction w with
      | nil => rfl
      | cons x w ih => simp [← ih]

theorem chr_iff (x : Char) (w : List Char) (c : Caps) : (Re.chr x).L w c ↔ c = [] ∧ w = [x] := by
  simp only [Re.chr, Re.L, beq_iff_eq]
  constructor
  · rintro ⟨rfl, y, rfl, rfl⟩
    exact ⟨rfl, rfl⟩
  · rintro ⟨rfl, rfl⟩
    exact ⟨rfl, x, rfl, rfl⟩

/-- What the groups take when they take the parts of an address. -/
def Addr.caps (a : Addr) : Caps :=
  (a.user.toList.map fun u => (2, u)) ++ (3, a.host) :: (a.port.toList.map fun p => (5, p))

theorem addr_match (pre w post : List Char) (c : Caps) :
    addrPattern.Match pre w post c ↔ ∃ a : Addr, a.Lexical ∧ w = a.text ∧ c = a.caps := by
  simp only [Pattern.Match, addrPattern, List.mem_singleton, exists_eq_left, Bool.false_eq_true, false_implies,
    true_and]
  constructor
  · rintro ⟨w1, w2, c1, c2, rfl, rfl, hu, w3, w4, c3, c4, rfl, rfl, ⟨ch, hh, rfl⟩, hp⟩
    obtain ⟨rfl, hh1, hh2, hh3⟩ := (rep_cls_iff _ _ _ _ _).1 hh
    have U : ∃ u : Option (List Char),
        (∀ v, u = some v → 1 ≤ v.length ∧ v.length ≤ 254 ∧ ∀ x ∈ v, isUserChar x = true) ∧
        w1 = userPart u ∧
        c1 = (u.toList.map fun v => (2, v)) := by
      rcases hu with ⟨a1, a2, d1, d2, rfl, rfl, ⟨d, hr, rfl⟩, ha⟩ | ⟨rfl, rfl⟩
      · obtain ⟨rfl, r1, r2, r3⟩ := (rep_cls_iff _ _ _ _ _).1 hr
        obtain ⟨rfl, rfl⟩ := (chr_iff _ _ _).1 ha
        refine ⟨some a1, ?_, rfl, rfl⟩
        rintro v h
        cases h
        exact ⟨r1, r2 _ rfl, r3⟩
      · exact ⟨none, by simp, rfl, rfl⟩
    have P : ∃ u : Option (List Char),
        (∀ v, u = some v → 1 ≤ v.length ∧ v.length ≤ 5 ∧ ∀ x ∈ v, isNum x = true) ∧
        w4 = portPart u ∧
        c4 = (u.toList.map fun v => (5, v)) := by
      rcases hp with ⟨a1, a2, d1, d2, rfl, rfl, ha, ⟨d, hr, rfl⟩⟩ | ⟨rfl, rfl⟩
      · obtain ⟨rfl, r1, r2, r3⟩ := (rep_cls_iff _ _ _ _ _).1 hr
        obtain ⟨rfl, rfl⟩ := (chr_iff _ _ _).1 ha
        refine ⟨some a2, ?_, rfl, rfl⟩
        rintro v h
        cases h
        exact ⟨r1, r2 _ rfl, r3⟩
      · exact ⟨none, by simp, rfl, rfl⟩
    obtain ⟨u, u1, rfl, rfl⟩ := U
    obtain ⟨p, p1, rfl, rfl⟩ := P
    exact ⟨⟨u, w3, p⟩, ⟨u1, ⟨hh1, hh2 _ rfl, hh3⟩, p1⟩, by simp [Addr.text], by simp [Addr.caps]⟩
  · rintro ⟨⟨u, h, p⟩, ⟨hu, hh, hp⟩, rfl, rfl⟩
    refine ⟨userPart u, h ++ portPart p,
      (u.toList.map fun v => (2, v)), (3, h) :: (p.toList.map fun v => (5, v)),
      by simp [Addr.text], by simp [Addr.caps], ?_,
      h, portPart p,
      [(3, h)], (p.toList.map fun v => (5, v)), rfl, rfl, ?_, ?_⟩
    · cases u with
      | none => exact .inr ⟨rfl, rfl⟩
      | some u =>
          obtain ⟨h1, h2, h3⟩ := hu u rfl
          refine .inl ⟨u, ['@'], [(2, u)], [], rfl, rfl, ⟨[], ?_, rfl⟩, (chr_iff _ _ _).2 ⟨rfl, rfl⟩⟩
          refine (rep_cls_iff _ _ _ _ _).2 ⟨rfl, h1, ?_, h3⟩
          rintro m h
          cases h
          exact h2
    · obtain ⟨h1, h2, h3⟩ := hh
      refine ⟨[], (rep_cls_iff _ _ _ _ _).2 ⟨rfl, h1, ?_, h3⟩, rfl⟩
      rintro m h
      cases h
      exact h2
    · cases p with
      | none => exact .inr ⟨rfl, rfl⟩
      | some p =>
          obtain ⟨h1, h2, h3⟩ := hp p rfl
          refine .inl ⟨[':'], p, [], [(5, p)], rfl, rfl, (chr_iff _ _ _).2 ⟨rfl, rfl⟩, ⟨[], ?_, rfl⟩⟩
          refine (rep_cls_iff _ _ _ _ _).2 ⟨rfl, h1, ?_, h3⟩
          rintro m h
          cases h
          exact h2

theorem host_of_user {x : Char} (h : isUserChar x = true) : isHostChar x = true := by
  simp [isHostChar, h]

theorem host_of_num {x : Char} (h : isNum x = true) : isHostChar x = true := by
  simp [isHostChar, isUserChar, h]

theorem not_host_at : isHostChar '@' = false := by decide
theorem not_host_colon : isHostChar ':' = false := by decide

theorem split_unique {P : Char → Prop} : ∀ {l1 l2 : List Char} {x y : Char} {r1 r2 : List Char},
    l1 ++ x :: r1 = l2 ++ y :: r2 → (∀ z ∈ l1, P z) → ¬ P x → (∀ z ∈ l2, P z) → ¬ P y →
    l1 = l2 ∧ x = y ∧ r1 = r2 := by
  intro l1
  induction l1 with
  | nil =>
      intro l2 x y r1 r2 h _ hx h2 hy
      cases l2 with
      | nil =>
          simp only [List.nil_append, List.cons.injEq] at h
          exact ⟨rfl, h⟩
      | cons z l2 =>
          simp only [List.nil_append, List.cons_append, List.cons.injEq] at h
          exact absurd (h2 x (by simp [h.1])) hx
  | cons z l1 ih =>
      intro l2 x y r1 r2 h h1 hx h2 hy
      cases l2 with
      | nil =>
          simp only [List.nil_append, List.cons_append, List.cons.injEq] at h
          exact absurd (h1 y (by simp [h.1])) hy
      | cons z' l2 =>
          simp only [List.cons_append, List.cons.injEq] at h
          obtain ⟨rfl, h⟩ := h
          obtain ⟨e1, e2⟩ := ih h (fun w hw => h1 w (by simp [hw])) hx (fun w hw => h2 w (by simp [hw])) hy
          exact ⟨by rw [e1], e2⟩

theorem prefix_le {P : Char → Prop} : ∀ {l1 l2 : List Char} {r1 r2 : List Char},
    l1 ++ r1 = l2 ++ r2 → (∀ z ∈ l1, P z) → (∀ x r, r2 = x :: r → ¬ P x) → l1.length ≤ l2.length := by
  intro l1
  induction l1 with
  | nil => simp
  | cons z l1 ih =>
      intro l2 r1 r2 h h1 h2
      cases l2 with
      | nil =>
          simp only [List.nil_append, List.cons_append] at h
          exact absurd (h1 z (by simp)) (h2 z _ h.symm)
      | cons z' l2 =>
          simp only [List.cons_append, List.cons.injEq] at h
          have := ih h.2 (fun w hw => h1 w (by simp [hw])) h2
          simp only [List.length_cons]
          omega

/-- What may follow an address without the address going on. -/
def Stops (a : Addr) (r : List Char) : Prop :=
  ∀ x r', r = x :: r' → x ≠ '@' ∧
    (isHostChar x = true → ∃ p, a.port = some p ∧ (isNum x = true → p.length = 5)) ∧
    (x = ':' → a.port ≠ none ∨ ∀ y r'', r' = y :: r'' → isNum y = false)

theorem stops_nil (a : Addr) : Stops a [] := by
  intro x r' h
  cases h

theorem bound {a b : Addr} {r q : List Char} (ha : a.Lexical) (hb : b.Lexical) (hs : Stops a r)
    (h : b.text ++ q = a.text ++ r) :
    b.text.length ≤ a.text.length ∧ (b.text.length = a.text.length → b = a) := by
  -- both addresses without a user
  have noUser : ∀ {h1 h2 : List Char} {p1 p2 : Option (List Char)},
      (Addr.mk none h1 p1).Lexical → (Addr.mk none h2 p2).Lexical → Stops (Addr.mk none h1 p1) r →
      (Addr.mk none h2 p2).text ++ q = (Addr.mk none h1 p1).text ++ r →
      (Addr.mk none h2 p2).text.length ≤ (Addr.mk none h1 p1).text.length ∧
        ((Addr.mk none h2 p2).text.length = (Addr.mk none h1 p1).text.length → h2 = h1 ∧ p2 = p1) := by
    intro h1 h2 p1 p2 l1 l2 hs h
    have H1 := l1.host.2.2
    have H2 := l2.host.2.2
    have nh : ∀ x r', portPart p1 ++ r = x :: r' → ¬ isHostChar x = true := by
      intro x r' e hx
      cases p1 with
      | none =>
          obtain ⟨p, hp, -⟩ := (hs x r' (by simpa [portPart] using e)).2.1 hx
          simp at hp
      | some p =>
          simp only [portPart, List.cons_append, List.cons.injEq] at e
          rw [← e.1, not_host_colon] at hx
          cases hx
    have e : h2 ++ (portPart p2 ++ q) =
        h1 ++ (portPart p1 ++ r) := by
      simpa [Addr.text, userPart] using h
    cases p2 with
    | none =>
        have hle := prefix_le (P := fun x => isHostChar x = true) e H2 nh
        simp only [Addr.text, userPart, portPart, List.nil_append, List.append_nil, List.length_append]
        refine ⟨by omega, ?_⟩
        intro hl
        have hl1 : h2.length = h1.length := by omega
        refine ⟨(List.append_inj e hl1).1, ?_⟩
        cases p1 with
        | none => rfl
        | some p =>
            simp only [List.length_cons] at hl
            omega
    | some pb =>
        cases p1 with
        | none =>
            simp only [portPart, List.nil_append, List.cons_append] at e
            have hr : ∃ x r', r = x :: r' := by
              cases r with
              | nil =>
                  exfalso
                  have : ':' ∈ h1 := by
                    rw [List.append_nil] at e
                    rw [← e]
                    simp
                  have := H1 ':' this
                  rw [not_host_colon] at this
                  cases this
              | cons x r' => exact ⟨x, r', rfl⟩
            obtain ⟨x, r', rfl⟩ := hr
            obtain ⟨e1, e2, e3⟩ := split_unique (P := fun x => isHostChar x = true) e H2
              (by rw [not_host_colon]; simp) H1 (nh x r' rfl)
            have h5 := (hs x r' rfl).2.2 e2.symm
            rcases h5 with h5 | h5
            · simp at h5
            · exfalso
              obtain ⟨k1, -, k3⟩ := l2.port pb rfl
              cases pb with
              | nil => simp at k1
              | cons y pb =>
                  have := h5 y (pb ++ q) (by rw [← e3]; simp)
                  rw [k3 y (by simp)] at this
                  cases this
        | some pa =>
            simp only [portPart, List.cons_append] at e
            obtain ⟨e1, -, e3⟩ := split_unique (P := fun x => isHostChar x = true) e H2
              (by rw [not_host_colon]; simp) H1 (by rw [not_host_colon]; simp)
            subst e1
            obtain ⟨k1, k2, k3⟩ := l2.port pb rfl
            obtain ⟨j1, j2, j3⟩ := l1.port pa rfl
            have hle : pb.length ≤ pa.length := by
              by_contra hc
              rw [Nat.not_le] at hc
              -- the first digit beyond `pa` is the first character of `r`
              have hlen := congrArg List.length e3
              simp only [List.length_append] at hlen
              cases r with
              | nil =>
                  simp only [List.length_nil] at hlen
                  omega
              | cons x r' =>
                  have hx : isNum x = true := by
                    have h6 : pb[pa.length]? = some x := by
                      have := congrArg (fun l => l[pa.length]?) e3
                      simp only [List.getElem?_append_right (Nat.le_refl _), Nat.sub_self,
                        List.getElem?_cons_zero] at this
                      rwa [List.getElem?_append_left hc] at this
                    exact k3 x (List.mem_of_getElem? h6)
                  obtain ⟨p, hp, h7⟩ := (hs x r' rfl).2.1 (host_of_num hx)
                  simp only [Option.some.injEq] at hp
                  subst hp
                  have := h7 hx
                  omega
            simp only [Addr.text, userPart, portPart, List.nil_append, List.length_append, List.length_cons]
            refine ⟨by omega, ?_⟩
            intro hl
            exact ⟨trivial, by rw [(List.append_inj e3 (by omega)).1]⟩
  obtain ⟨ua, h1, p1⟩ := a
  obtain ⟨ub, h2, p2⟩ := b
  have H1 := ha.host.2.2
  have H2 := hb.host.2.2
  have N1 : (Addr.mk none h1 p1).Lexical := ⟨by simp, ha.host, ha.port⟩
  have N2 : (Addr.mk none h2 p2).Lexical := ⟨by simp, hb.host, hb.port⟩
  have S1 : Stops (Addr.mk none h1 p1) r := hs
  cases ua with
  | none =>
      cases ub with
      | none =>
          obtain ⟨b1, b2⟩ := noUser N1 N2 S1 h
          refine ⟨b1, fun hl => ?_⟩
          obtain ⟨e1, e2⟩ := b2 hl
          rw [e1, e2]
      | some v =>
          exfalso
          have V := (hb.user v rfl).2.2
          have V' : ∀ z ∈ v, isHostChar z = true := fun z hz => host_of_user (V z hz)
          have e : v ++ '@' :: (h2 ++ (portPart p2 ++ q)) =
              h1 ++ (portPart p1 ++ r) := by
            simpa [Addr.text, userPart] using h
          cases p1 with
          | some p =>
              obtain ⟨-, h3, -⟩ := split_unique (P := fun x => isHostChar x = true) e V'
                (by rw [not_host_at]; simp) H1 (by rw [not_host_colon]; simp)
              exact absurd h3 (by decide)
          | none =>
              simp only [portPart, List.nil_append] at e
              cases r with
              | nil =>
                  have : '@' ∈ h1 := by
                    rw [List.append_nil] at e
                    rw [← e]
                    simp
                  have := H1 '@' this
                  rw [not_host_at] at this
                  cases this
              | cons x r' =>
                  obtain ⟨s1, s2, -⟩ := hs x r' rfl
                  obtain ⟨-, h3, -⟩ := split_unique (P := fun x => isHostChar x = true) e V'
                    (by rw [not_host_at]; simp) H1 (by
                      intro hx
                      obtain ⟨p, hp, -⟩ := s2 hx
                      simp at hp)
                  exact s1 h3.symm
  | some u =>
      have U := (ha.user u rfl).2.2
      have U' : ∀ z ∈ u, isHostChar z = true := fun z hz => host_of_user (U z hz)
      cases ub with
      | none =>
          have e : h2 ++ (portPart p2 ++ q) =
              u ++ '@' :: (h1 ++ (portPart p1 ++ r)) := by
            simpa [Addr.text, userPart] using h
          cases p2 with
          | some p =>
              exfalso
              obtain ⟨-, h3, -⟩ := split_unique (P := fun x => isHostChar x = true) e H2
                (by rw [not_host_colon]; simp) U' (by rw [not_host_at]; simp)
              exact absurd h3 (by decide)
          | none =>
              have hle := prefix_le (P := fun x => isHostChar x = true) e H2 (by
                intro x r' hx
                simp only [List.cons.injEq] at hx
                rw [← hx.1, not_host_at]
                simp)
              simp only [Addr.text, userPart, portPart, List.nil_append, List.append_nil, List.length_append, List.length_singleton]
              exact ⟨by omega, fun hl => by omega⟩
      | some v =>
          have V := (hb.user v rfl).2.2
          have V' : ∀ z ∈ v, isHostChar z = true := fun z hz => host_of_user (V z hz)
          have e : v ++ '@' :: (h2 ++ (portPart p2 ++ q)) =
              u ++ '@' :: (h1 ++ (portPart p1 ++ r)) := by
            simpa [Addr.text, userPart] using h
          obtain ⟨e1, -, e3⟩ := split_unique (P := fun x => isHostChar x = true) e V'
            (by rw [not_host_at]; simp) U' (by rw [not_host_at]; simp)
          subst e1
          obtain ⟨b1, b2⟩ := noUser N1 N2 S1 (by simpa [Addr.text, userPart] using e3)
          simp only [Addr.text, userPart, portPart, List.nil_append, List.length_append, List.length_singleton] at b1 b2 ⊢
          refine ⟨by omega, fun hl => ?_⟩
          obtain ⟨f1, f2⟩ := b2 (by omega)
          rw [f1, f2]

theorem text_inj {a b : Addr} (ha : a.Lexical) (hb : b.Lexical) (h : b.text = a.text) : b = a :=
  (bound (q := []) ha hb (stops_nil a) (by rw [h])).2 (by rw [h])

/-- An address begins with a character of a host. -/
theorem text_head {a : Addr} (ha : a.Lexical) : ∃ x t, a.text = x :: t ∧ isHostChar x = true := by
  obtain ⟨u, h, p⟩ := a
  cases u with
  | none =>
      obtain ⟨h1, -, h3⟩ := ha.host
      cases h with
      | nil => simp at h1
      | cons x h => exact ⟨x, _, rfl, h3 x (by simp)⟩
  | some u =>
      obtain ⟨h1, -, h3⟩ := ha.user u rfl
      cases u with
      | nil => simp at h1
      | cons x u => exact ⟨x, _, rfl, host_of_user (h3 x (by simp))⟩

theorem text_chars {a : Addr} (ha : a.Lexical) : ∀ x ∈ a.text, isAddrChar x = true := by
  obtain ⟨u, h, p⟩ := a
  intro x hx
  have key : isHostChar x = true ∨ x = '@' ∨ x = ':' := by
    simp only [Addr.text, userPart, portPart, List.mem_append] at hx
    rcases hx with (hx | hx) | hx
    · cases u with
      | none => simp at hx
      | some u =>
          simp only [List.mem_append, List.mem_singleton] at hx
          rcases hx with hx | hx
          · exact .inl (host_of_user ((ha.user u rfl).2.2 x hx))
          · exact .inr (.inl hx)
    · exact .inl (ha.host.2.2 x hx)
    · cases p with
      | none => simp at hx
      | some p =>
          simp only [List.mem_cons] at hx
          rcases hx with hx | hx
          · exact .inr (.inr hx)
          · exact .inl (host_of_num ((ha.port p rfl).2.2 x hx))
  rcases key with h | h | h <;> simp [isAddrChar, h]

/-- Nothing before it and nothing that stops it behind it: the match is the address. -/
theorem regexec_addr {a : Addr} {g r : List Char} (ha : a.Lexical) (hg : ∀ x ∈ g, isHostChar x = false)
    (hs : Stops a r) : regexec addrPattern (g ++ a.text ++ r) = some a.caps := by
  have hm : addrPattern.Match g a.text r a.caps := (addr_match _ _ _ _).2 ⟨a, ha, rfl, rfl⟩
  cases hc : regexec addrPattern (g ++ a.text ++ r) with
  | none => exact absurd hm ((regexec_none _ _).1 hc g a.text r a.caps rfl)
  | some c =>
      obtain ⟨pre, w, post, l⟩ := regexec_some hc
      obtain ⟨b, hb, rfl, rfl⟩ := (addr_match _ _ _ _).1 l.isMatch
      have h1 := l.leftmost g a.text r a.caps rfl hm
      have htext : g ++ (a.text ++ r) = pre ++ (b.text ++ post) := by simpa using l.text
      have h2 : g.length ≤ pre.length := by
        by_contra hlt
        rw [Nat.not_le] at hlt
        obtain ⟨x, t, hx, hx2⟩ := text_head hb
        have h3 := congrArg (fun l => l[pre.length]?) htext
        simp only [hx, List.cons_append, List.getElem?_append_right (Nat.le_refl _), Nat.sub_self,
          List.getElem?_cons_zero] at h3
        rw [List.getElem?_append_left hlt] at h3
        have := hg x (List.mem_of_getElem? h3)
        rw [hx2] at this
        cases this
      obtain ⟨e1, e2⟩ := List.append_inj htext (by omega)
      subst e1
      obtain ⟨b1, b2⟩ := bound ha hb hs e2.symm
      have h4 := l.longest a.text r a.caps rfl hm
      rw [b2 (by omega)]

end Verif.RtiAddr
