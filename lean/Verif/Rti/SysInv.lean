import Verif.Rti.Inv

/-! The invariant of a federation, second part: the federates and the messages on the way. -/

set_option linter.unusedSimpArgs false
set_option linter.unusedVariables false

namespace ReactorC.Rti
open ReactorC

section
variable {T : Topology} {start : Int}

/-! ## Changing the bounds -/

/-- A property of tags that holds of later tags as well. -/
def UpClosed (R : Tag → Prop) : Prop := ∀ x y, R x → x ≤ y → R y

theorem RInv.rebase {β β' : Nat → Tag} {s : Rti} (hr : RInv T start β s)
    (hs : ∀ u, Sane T (β' u) ∧ (⟨start, 0⟩ : Tag) ≤ β' u) (hn : ∀ u, (s.node u).nextEvent ≤ β' u)
    (hC : ∀ own R i, UpClosed R → CausesOnly T own R β s i → CausesOnly T own R β' s i)
    (hA : ∀ R i, UpClosed R → ActsOnly T R β s i → R (β' i)) : RInv T start β' s := by
  refine ⟨hs, fun u => ⟨(hr.next u).1, hn u⟩, hr.cache, fun i g h => ?_, fun i g h => ?_, fun i g h u w hm => ?_, hr.order⟩
  · rcases hr.tags i g h with k | ⟨k1, k2⟩
    · exact .inl k
    · exact .inr ⟨k1, hC _ _ _ (fun x y a b => Tag.lt_of_lt_of_le a b) k2⟩
  · exact hC _ _ _ (fun x y a b => Tag.le_trans a b) (hr.ptags i g h)
  · have hup : UpClosed (Beyond g w) := fun x y ⟨z, a, b⟩ hxy => ⟨z, Tag.le_trans a hxy, b⟩
    exact (hr.outside i g h u w hm).imp id fun k => ⟨hA _ _ hup k, hC _ _ _ hup k.2⟩

theorem CausesOnly.raise (hT : T.Ok) {β β' : Nat → Tag} {s : Rti} {own : Bool} {R : Tag → Prop} {i : Nat} (hR : UpClosed R)
    (h1 : ∀ u, Sane T (β u)) (h2 : ∀ u, Sane T (β' u)) (hle : ∀ u, β u ≤ β' u) (h : CausesOnly T own R β s i) :
    CausesOnly T own R β' s i := by
  obtain ⟨hi, conn, hc, hx⟩ := h
  refine ⟨hi, conn, hc, fun x => ?_⟩
  obtain ⟨hd, hroom⟩ := @room_delays T hT conn i hi x
  exact hR _ _ (hx x) (add_mono_left (h1 x) (h2 x) hd hroom (hle x))

theorem RInv.raise (hT : T.Ok) {β β' : Nat → Tag} {s : Rti} (hr : RInv T start β s) (h2 : ∀ u, Sane T (β' u))
    (hle : ∀ u, β u ≤ β' u) : RInv T start β' s :=
  hr.rebase (fun u => ⟨h2 u, Tag.le_trans (hr.sane u).2 (hle u)⟩) (fun u => Tag.le_trans (hr.next u).2 (hle u))
    (fun own R i hR h => h.raise hT hR (fun u => (hr.sane u).1) h2 hle) (fun R i hR h => hR _ _ h.1 (hle i))

/-- The table of `j` accounts for the connection from `i` to `d`. -/
theorem delays_connection (hT : T.Ok) {conn : Nat → Bool} {i d j : Nat} {w : Int} (hj : j < T.n) (hd : conn d = true)
    (hw : (i, w) ∈ T.up d) :
    ((searchFrom T conn j).delays d ≠ FOREVER_TAG →
      (searchFrom T conn j).delays i ≤ through w ((searchFrom T conn j).delays d)) ∧
    (j = d → (searchFrom T conn j).delays i ≤ through w ZERO_TAG) := by
  obtain ⟨g, _, cl, ce⟩ := searchFrom_spec (conn := conn) hT hj
  have hc : j = d → (searchFrom T conn j).delays i ≤ through w ZERO_TAG := by
    intro h
    subst h
    exact ce hd i w hw
  refine ⟨fun hne => ?_, hc⟩
  by_cases hjd : j = d
  · refine Tag.le_trans (hc hjd) (through_mono w delay_zero (g.entry d).delay (.inr (by decide)) ?_)
    have := (g.entry d).delay
    obtain ⟨a, b, c⟩ := this
    tag_omega
  · exact cl d (fun h => hjd h.symm) hne hd i w hw

/-- Why a message was sent. -/
structure Cause (T : Topology) (start : Int) (i d : Nat) (s : Tag) (w : Int) (m : Tag) : Prop where
  dest : d < T.n
  conn : (i, w) ∈ T.up d
  sane : Sane T s
  finite : s ≠ FOREVER_TAG
  msg : Sane T m
  started : (⟨start, 0⟩ : Tag) ≤ s
  delay : lf_delay_tag s w ≤ m

theorem add_zero {m : Tag} (h : Sane T m) : lf_tag_add m ZERO_TAG = m := by
  have hF : FOREVER = 9223372036854775807 := rfl
  have hFt : FOREVER_TAG.time = FOREVER := rfl
  have hz1 : ZERO_TAG.time = 0 := rfl
  have hz2 : ZERO_TAG.microstep = 0 := rfl
  rcases h with rfl | ⟨h1, h2, h3⟩
  · exact add_forever_left delay_zero
  · rcases add_cases (a := m) ⟨h1, by omega, by omega⟩ delay_zero with k | k | k | k
    · omega
    · omega
    · rw [k.2.2.2, hz2, Nat.add_zero]
    · omega

/-- What a message causes, by way of the table of `j`. -/
theorem Cause.bound (hT : T.Ok) {i d : Nat} {s : Tag} {w : Int} {m : Tag} (h : Cause T start i d s w m) {b : Tag}
    (hb : Sane T b) (hbs : b ≤ s) {conn : Nat → Bool} {j : Nat} (hj : j < T.n) {x : Tag} (hx : Delay x)
    (hxr : Path.Room T x) (hle : (searchFrom T conn j).delays i ≤ through w x) :
    lf_tag_add b ((searchFrom T conn j).delays i) ≤ lf_tag_add m x := by
  obtain ⟨hd, hroom⟩ := @room_delays T hT conn j hj i
  have hU : UINT_MAX = 4294967295 := rfl
  refine Tag.le_trans (add_mono_left hb h.sane hd hroom hbs) ?_
  refine Tag.le_trans (add_mono_right h.sane.delay hd (delay_through w hx) ?_ hle) (message_then h.sane h.msg hx hxr h.delay)
  rcases hroom with k | k
  · exact .inl k
  · rcases h.sane with hs | hs
    · exact absurd hs h.finite
    · right; omega

/-- A message from `i` to `d` lowers what is known about `d`, but nothing that follows from it was excluded. -/
theorem CausesOnly.lower (hT : T.Ok) {β : Nat → Tag} {a : Rti} {own : Bool} {R : Tag → Prop} {j : Nat} (hR : UpClosed R)
    (hβ : ∀ u, Sane T (β u)) {i d : Nat} {s : Tag} {w : Int} {m : Tag} (hc : Cause T start i d s w m) (hbs : β i ≤ s)
    (hd : (a.node d).connected = true) (h : CausesOnly T own R β a j) : CausesOnly T own R (put β d m) a j := by
  obtain ⟨hj, conn, hcn, hx⟩ := h
  refine ⟨hj, conn, hcn, fun x => ?_⟩
  by_cases hxd : x = d
  · subst hxd
    rw [put_same]
    obtain ⟨hdl, hroom⟩ := @room_delays T hT conn j hj x
    by_cases hF : (searchFrom T conn j).delays x = FOREVER_TAG
    · have := hx x
      rw [hF, add_forever_right (hβ x).delay] at this
      rw [hF, add_forever_right hc.msg.delay]
      exact this
    · exact hR _ _ (hx i) (hc.bound hT (hβ i) hbs hj hdl hroom
        ((delays_connection hT hj (hcn.2 x hd) hc.conn).1 hF))
  · rw [put_other _ _ _ hxd]; exact hx x

/-- A message satisfies what is known about everything that can be caused at its destination. -/
theorem CausesOnly.message (hT : T.Ok) {β : Nat → Tag} {a : Rti} (hβ : ∀ u, Sane T (β u)) {i d : Nat} {s : Tag} {w : Int}
    {m : Tag} (hc : Cause T start i d s w m) (hbs : β i ≤ s) {own : Bool} (hd : own = true ∨ (a.node d).connected = true) {R : Tag → Prop}
    (hR : UpClosed R) (h : CausesOnly T own R β a d) : R m := by
  obtain ⟨hj, conn, hcn, hx⟩ := h
  have := hR _ _ (hx i) (hc.bound hT (hβ i) hbs hj delay_zero (.inr ⟨by decide, by
    have : ZERO_TAG.microstep = 0 := rfl
    omega⟩) ((delays_connection hT hj (hd.elim hcn.1 (hcn.2 d)) hc.conn).2 rfl))
  rwa [add_zero hc.msg] at this

/-- A message is later than what has been granted. -/
theorem RInv.later (hT : T.Ok) {β : Nat → Tag} {a : Rti} (hr : RInv T start β a)
    (hcomp : ∀ u, (a.node u).completed = NEVER_TAG ∨ Sane T (a.node u).completed) {i d : Nat} {s : Tag} {w : Int} {m : Tag}
    (hc : Cause T start i d s w m) (hbs : β i ≤ s) (hcs : (a.node i).completed < s) (hi : (a.node i).connected = true) :
    ∀ x ∈ a.out d, Later x (.msg m) := by
  have key : ∀ R, UpClosed R → CausesOnly T true R β a d → R m := by
    intro R hR h
    exact h.message hT (fun u => (hr.sane u).1) hc hbs (.inl rfl) hR
  intro x hx
  cases x with
  | msg p => trivial
  | tag g =>
    rcases hr.tags d g hx with k | ⟨k1, k2⟩
    · have h1 := k i w hc.conn hi
      rcases strict_lt (hcomp i) hc.sane hc.finite hcs hc.delay hc.msg with h2 | h2
      · exact .inl (Tag.lt_of_le_of_lt h1 h2)
      · exact .inr h2
    · exact .inl (key _ (fun x y a b => Tag.lt_of_lt_of_le a b) k2)
  | ptag g => exact key _ (fun x y a b => Tag.le_trans a b) (hr.ptags d g hx)

theorem strict_mono {c c' : Tag} (w : Int) (hc : c = NEVER_TAG ∨ Sane T c) (hc' : Sane T c') (h : c ≤ c') :
    lf_delay_strict c w ≤ lf_delay_strict c' w := by
  have hF : FOREVER = 9223372036854775807 := rfl
  have hU : UINT_MAX = 4294967295 := rfl
  have hN : NEVER = -9223372036854775808 := rfl
  have hNt : NEVER_TAG.time = NEVER := rfl
  obtain ⟨d1, d2, d3⟩ := hc'.delay
  rcases hc with rfl | hc
  · have : lf_delay_tag NEVER_TAG w = NEVER_TAG := by
      rcases lf_delay_tag_cases NEVER_TAG w with k | k | k | k
      · exact k.2
      all_goals exact absurd rfl k.1
    have e : lf_delay_strict NEVER_TAG w = NEVER_TAG := by
      rcases lf_delay_strict_cases NEVER_TAG w with k | k
      · rw [k.2, this]
      · rw [this] at k; exact absurd rfl k.2.2.2.1
    rw [e]
    have hw2 : wrapU32 (c'.microstep + 1) = c'.microstep + 1 ∨ c'.time = FOREVER := by
      rcases hc' with rfl | k
      · exact .inr rfl
      · left; unfold wrapU32; omega
    rcases lf_delay_strict_cases c' w with k | k <;> rcases lf_delay_tag_cases c' w with y | y | y | y
    all_goals first
      | (rw [k.2, y.2]; tag_omega)
      | (rw [k.2, y.2.2.2]; tag_omega)
      | (rw [k.2.2.2.2.2, y.2]; rw [y.2] at k; tag_omega)
      | (rw [k.2.2.2.2.2, y.2.2.2]; rw [y.2.2.2] at k; tag_omega)
  · obtain ⟨c1, c2, c3⟩ := hc.delay
    rcases hc with rfl | hc
    · have : c' = FOREVER_TAG := by tag_omega
      rw [this]; exact Tag.le_refl _
    · have hw1 : wrapU32 (c.microstep + 1) = c.microstep + 1 := by unfold wrapU32; omega
      have hw2 : wrapU32 (c'.microstep + 1) = c'.microstep + 1 ∨ c' = FOREVER_TAG := by
        rcases hc' with rfl | k
        · exact .inr rfl
        · left; unfold wrapU32; omega
      rcases hw2 with hw2 | rfl
      · rcases lf_delay_strict_cases c w with k | k <;> rcases lf_delay_strict_cases c' w with k' | k' <;>
        rcases lf_delay_tag_cases c w with x | x | x | x <;> rcases lf_delay_tag_cases c' w with y | y | y | y
        all_goals first
          | (exfalso; omega)
          | (rw [k.2, k'.2, x.2, y.2]; exact h)
          | (rw [k.2, k'.2, x.2.2.2, y.2.2.2, hw1, hw2]; tag_omega)
          | (rw [k.2, k'.2, x.2.2.2, y.2.2.2]; tag_omega)
          | (rw [k.2, k'.2, x.2.2.2, y.2.2.2]; exact Tag.le_refl _)
          | (rw [x.2] at k; rw [y.2] at k'; rw [k.2.2.2.2.2, k'.2.2.2.2.2]; tag_omega)
          | (rw [x.2.2.2] at k; rw [y.2.2.2] at k'; rw [k.2.2.2.2.2, k'.2.2.2.2.2]; tag_omega)
          | (rw [x.2.2.2] at k; rw [y.2.2.2] at k'; rw [k.2.2.2.2.2, k'.2]; tag_omega)
          | (rw [x.2.2.2] at k; rw [y.2.2.2] at k'; rw [k.2, k'.2.2.2.2.2]; tag_omega)
          | (rw [x.2] at k; rw [y.2] at k'; rw [k.2.2.2.2.2, k'.2]; tag_omega)
          | (rw [x.2] at k; rw [y.2] at k'; rw [k.2, k'.2.2.2.2.2]; tag_omega)
          | (rw [x.2.2.2] at k; exact absurd rfl k.2.2.2.2.1)
          | (rw [y.2.2.2] at k'; exact absurd rfl k'.2.2.2.2.1)
          | (exfalso; rw [x.2] at k; rw [y.2] at k'; tag_omega)
          | (exfalso; rw [x.2.2.2] at k; rw [y.2.2.2] at k'; tag_omega)
      · have e : lf_delay_strict FOREVER_TAG w = FOREVER_TAG := by
          have e' : lf_delay_tag FOREVER_TAG w = FOREVER_TAG := by
            have hFt : FOREVER_TAG.time = FOREVER := rfl
            rcases lf_delay_tag_cases FOREVER_TAG w with k | k | k | k
            · exact k.2
            · exact k.2.2.2
            · omega
            · omega
          rcases lf_delay_strict_cases FOREVER_TAG w with k | k
          · rw [k.2, e']
          · rw [e'] at k; exact absurd rfl k.2.2.2.2.1
        rw [e]
        rcases lf_delay_strict_cases c w with k | k <;> rcases lf_delay_tag_cases c w with x | x | x | x
        all_goals first
          | (rw [k.2, x.2]; tag_omega)
          | (rw [k.2, x.2.2.2, hw1]; tag_omega)
          | (rw [k.2, x.2.2.2]; tag_omega)
          | (rw [x.2] at k; rw [k.2.2.2.2.2]; tag_omega)
          | (rw [x.2.2.2] at k; rw [k.2.2.2.2.2]; tag_omega)

/-! ## The messages on the way -/

/-- The messages on the way from a federate are consistent with what the RTI knows: `b` is the bound on the tags at which
it acts, `E` are the tags in transit to it and `c` what it has completed; `net` and `done` belong to the federate, after it
has sent all of these. -/
def Pre (T : Topology) (start : Int) (i : Nat) (net done : Tag) : List Up → Tag → (Tag → Prop) → Tag → Prop
  | [], b, _, c => b ≤ net ∧ c ≤ done
  | .msg d s w m :: q, b, E, c => Cause T start i d s w m ∧ b ≤ s ∧ c < s ∧ Pre T start i net done q b E c
  | .net n p :: q, b, E, c => Sane T n ∧ Sane T p ∧ (⟨start, 0⟩ : Tag) ≤ n ∧ n ≤ p ∧ b ≤ p ∧ i < T.n ∧
      ∀ b', b' ≤ p → (∀ t, E t → b' ≤ t) → Pre T start i net done q b' E c
  | .ltc k :: q, b, E, c => Sane T k ∧ c ≤ k ∧ Pre T start i net done q b (fun t => E t ∧ k < t) k
  | .clean k :: q, b, E, c => k ≤ c ∧ Pre T start i net done q b (fun t => E t ∧ k < t) c
  | .resign :: _, _, _, c => c ≤ done

variable {i : Nat} {net done : Tag}

theorem Pre.done_ge {q : List Up} : ∀ {b : Tag} {E : Tag → Prop} {c : Tag}, Pre T start i net done q b E c →
    (∀ t, E t → b ≤ t) → c ≤ done := by
  induction q with
  | nil => intro b E c h _; exact h.2
  | cons x q ih =>
    intro b E c h hl
    cases x with
    | msg d s w m => exact ih h.2.2.2 hl
    | net n p => exact ih (h.2.2.2.2.2.2 b h.2.2.2.2.1 hl) hl
    | ltc k => exact Tag.le_trans h.2.1 (ih h.2.2 fun t ht => hl t ht.1)
    | clean k => exact ih h.2 fun t ht => hl t ht.1
    | resign => exact h

theorem Pre.mono {q : List Up} : ∀ {b b' : Tag} {E E' : Tag → Prop} {c : Tag}, Pre T start i net done q b E c →
    b' ≤ b → (∀ t, E t → E' t) → Pre T start i net done q b' E' c := by
  induction q with
  | nil => intro b b' E E' c h hb _; exact ⟨Tag.le_trans hb h.1, h.2⟩
  | cons x q ih =>
    intro b b' E E' c h hb hE
    cases x with
    | msg d s w m => exact ⟨h.1, Tag.le_trans hb h.2.1, h.2.2.1, ih h.2.2.2 hb hE⟩
    | net n p =>
      refine ⟨h.1, h.2.1, h.2.2.1, h.2.2.2.1, Tag.le_trans hb h.2.2.2.2.1, h.2.2.2.2.2.1, fun x hx hl => ?_⟩
      exact ih (h.2.2.2.2.2.2 x hx fun t ht => hl t (hE t ht)) (Tag.le_refl _) hE
    | ltc k => exact ⟨h.1, h.2.1, ih h.2.2 hb fun t ht => ⟨hE t ht.1, ht.2⟩⟩
    | clean k => exact ⟨h.1, ih h.2 hb fun t ht => ⟨hE t ht.1, ht.2⟩⟩
    | resign => exact h

theorem Pre.sendMsg {q : List Up} {d : Nat} {s : Tag} {w : Int} {m : Tag} (hc : Cause T start i d s w m)
    (hs : net ≤ s) (hd : done < s) : ∀ {b : Tag} {E : Tag → Prop} {c : Tag}, Pre T start i net done q b E c →
    Pre T start i net done (q ++ [.msg d s w m]) b E c := by
  induction q with
  | nil => intro b E c h; exact ⟨hc, Tag.le_trans h.1 hs, Tag.lt_of_le_of_lt h.2 hd, h⟩
  | cons x q ih =>
    intro b E c h
    cases x with
    | msg d s w m => exact ⟨h.1, h.2.1, h.2.2.1, ih h.2.2.2⟩
    | net n p => exact ⟨h.1, h.2.1, h.2.2.1, h.2.2.2.1, h.2.2.2.2.1, h.2.2.2.2.2.1, fun x hx hl => ih (h.2.2.2.2.2.2 x hx hl)⟩
    | ltc k => exact ⟨h.1, h.2.1, ih h.2.2⟩
    | clean k => exact ⟨h.1, ih h.2⟩
    | resign => exact h

theorem Pre.sendNet {q : List Up} {n p : Tag} (hn : Sane T n) (hp : Sane T p) (hst : (⟨start, 0⟩ : Tag) ≤ n)
    (hnp : n ≤ p) (hi : i < T.n) (hs : net ≤ p) : ∀ {b : Tag} {E : Tag → Prop} {c : Tag},
    Pre T start i net done q b E c → Pre T start i p done (q ++ [.net n p]) b E c := by
  induction q with
  | nil => intro b E c h; exact ⟨hn, hp, hst, hnp, Tag.le_trans h.1 hs, hi, fun x hx _ => ⟨hx, h.2⟩⟩
  | cons x q ih =>
    intro b E c h
    cases x with
    | msg d s w m => exact ⟨h.1, h.2.1, h.2.2.1, ih h.2.2.2⟩
    | net n p => exact ⟨h.1, h.2.1, h.2.2.1, h.2.2.2.1, h.2.2.2.2.1, h.2.2.2.2.2.1, fun x hx hl => ih (h.2.2.2.2.2.2 x hx hl)⟩
    | ltc k => exact ⟨h.1, h.2.1, ih h.2.2⟩
    | clean k => exact ⟨h.1, ih h.2⟩
    | resign => exact h

theorem Pre.sendLtc {q : List Up} {k : Tag} (hk : Sane T k) (hd : done ≤ k) : ∀ {b : Tag} {E : Tag → Prop} {c : Tag},
    Pre T start i net done q b E c → Pre T start i net k (q ++ [.ltc k]) b E c := by
  induction q with
  | nil => intro b E c h; exact ⟨hk, Tag.le_trans h.2 hd, h.1, Tag.le_refl _⟩
  | cons x q ih =>
    intro b E c h
    cases x with
    | msg d s w m => exact ⟨h.1, h.2.1, h.2.2.1, ih h.2.2.2⟩
    | net n p => exact ⟨h.1, h.2.1, h.2.2.1, h.2.2.2.1, h.2.2.2.2.1, h.2.2.2.2.2.1, fun x hx hl => ih (h.2.2.2.2.2.2 x hx hl)⟩
    | ltc k => exact ⟨h.1, h.2.1, ih h.2.2⟩
    | clean k => exact ⟨h.1, ih h.2⟩
    | resign => exact Tag.le_trans h hd

theorem Pre.sendResign {q : List Up} : ∀ {b : Tag} {E : Tag → Prop} {c : Tag},
    Pre T start i net done q b E c → Pre T start i net done (q ++ [.resign]) b E c := by
  induction q with
  | nil => intro b E c h; exact h.2
  | cons x q ih =>
    intro b E c h
    cases x with
    | msg d s w m => exact ⟨h.1, h.2.1, h.2.2.1, ih h.2.2.2⟩
    | net n p => exact ⟨h.1, h.2.1, h.2.2.1, h.2.2.2.1, h.2.2.2.2.1, h.2.2.2.2.2.1, fun x hx hl => ih (h.2.2.2.2.2.2 x hx hl)⟩
    | ltc k => exact ⟨h.1, h.2.1, ih h.2.2⟩
    | clean k => exact ⟨h.1, ih h.2⟩
    | resign => exact h

theorem Pre.receive {q : List Up} {p : Tag} (hp : done < p) : ∀ {b : Tag} {E : Tag → Prop} {c : Tag},
    Pre T start i net done q b E c → (∀ t, E t → b ≤ t) → E p → Pre T start i p done q b E c := by
  induction q with
  | nil => intro b E c h hl hE; exact ⟨hl p hE, h.2⟩
  | cons x q ih =>
    intro b E c h hl hE
    cases x with
    | msg d s w m => exact ⟨h.1, h.2.1, h.2.2.1, ih h.2.2.2 hl hE⟩
    | net n p => exact ⟨h.1, h.2.1, h.2.2.1, h.2.2.2.1, h.2.2.2.2.1, h.2.2.2.2.2.1, fun x hx hl' => ih (h.2.2.2.2.2.2 x hx hl') hl' hE⟩
    | ltc k =>
      have hk : k ≤ done := h.2.2.done_ge fun t ht => hl t ht.1
      exact ⟨h.1, h.2.1, ih h.2.2 (fun t ht => hl t ht.1) ⟨hE, Tag.lt_of_le_of_lt hk hp⟩⟩
    | clean k =>
      have hk : k ≤ done := Tag.le_trans h.1 (h.2.done_ge fun t ht => hl t ht.1)
      exact ⟨h.1, ih h.2 (fun t ht => hl t ht.1) ⟨hE, Tag.lt_of_le_of_lt hk hp⟩⟩
    | resign => exact h

end

/-! ## The invariant of the federation -/

structure SInv (T : Topology) (start : Int) (β : Nat → Tag) (σ : Sys) : Prop where
  rti : RInv T start β σ.rti
  comp : ∀ u, (σ.rti.node u).completed = NEVER_TAG ∨ Sane T (σ.rti.node u).completed
  transit : ∀ u t, t ∈ σ.rti.transit u → Sane T t ∧ (⟨start, 0⟩ : Tag) ≤ t
  low : ∀ u, (σ.rti.node u).connected = true → ∀ t ∈ σ.rti.transit u, β u ≤ t
  pre : ∀ u, (σ.rti.node u).connected = true →
    Pre T start u (σ.net u) (σ.done u) (σ.up u) (β u) (fun t => t ∈ σ.rti.transit u) (σ.rti.node u).completed
  msgs : ∀ u, (σ.rti.node u).connected = true → ∀ p, Down.msg p ∈ σ.rti.out u → p ≤ σ.done u ∨ p ∈ σ.rti.transit u

section
variable {T : Topology} {start : Int}

theorem RInv.congr {β : Nat → Tag} {a b : Rti} (hr : RInv T start β a) (h1 : b.node = a.node) (h2 : b.out = a.out) :
    RInv T start β b := by
  cases a; cases b; dsimp only at h1 h2; subst h1; subst h2
  exact ⟨hr.sane, hr.next, hr.cache, hr.tags, hr.ptags, hr.outside, hr.order⟩

/-- A message is forwarded. -/
theorem RInv.writeMsg {β : Nat → Tag} {s : Rti} (hr : RInv T start β s) {d : Nat} {m : Tag}
    (h : ∀ x ∈ s.out d, Later x (.msg m)) : RInv T start β (s.write d (.msg m)) := by
  refine ⟨hr.sane, hr.next, hr.cache, fun j g hg => ?_, fun j g hg => ?_, fun j g hg => ?_, fun j => ?_⟩
  · rw [mem_write] at hg
    rcases hg with hg | ⟨_, hg⟩
    · exact hr.tags j g hg
    · cases hg
  · rw [mem_write] at hg
    rcases hg with hg | ⟨_, hg⟩
    · exact hr.ptags j g hg
    · cases hg
  · rw [mem_write] at hg
    rcases hg with hg | ⟨_, hg⟩
    · exact hr.outside j g hg
    · cases hg
  · unfold Rti.write
    dsimp only
    by_cases hj : j = d
    · subst hj; rw [put_same]; exact pairwise_append_one (hr.order j) h
    · rw [put_other _ _ _ hj]; exact hr.order j

theorem setNode_setNode (s : Rti) (i : Nat) (f g : Node → Node) :
    (s.setNode i f).setNode i g = s.setNode i (fun nd => g (f nd)) := by
  unfold Rti.setNode
  dsimp only
  congr 1
  funext j
  by_cases hj : j = i
  · subst hj; rw [put_same, put_same, put_same]
  · rw [put_other _ _ _ hj, put_other _ _ _ hj, put_other _ _ _ hj]

theorem updateNextEvent_setNext (i : Nat) (t t0 : Tag) (s : Rti) :
    updateNextEvent T start i t (s.setNode i fun nd => { nd with nextEvent := t0 }) = updateNextEvent T start i t s := by
  unfold updateNextEvent
  rw [setNode_setNode]

theorem updateFederate_setNext (i : Nat) (t t0 : Tag) (s : Rti) :
    updateFederateNextEvent T start i t (s.setNode i fun nd => { nd with nextEvent := t0 }) =
      updateFederateNextEvent T start i t s := by
  unfold updateFederateNextEvent
  rw [updateNextEvent_setNext, updateNextEvent_setNext]
  rfl

theorem le_delay {s : Tag} (w : Int) (h : Sane T s) : s ≤ lf_delay_tag s w := by
  have hF : FOREVER = 9223372036854775807 := rfl
  have hU : UINT_MAX = 4294967295 := rfl
  obtain ⟨d1, d2, d3⟩ := h.delay
  have hw : wrapU32 (s.microstep + 1) = s.microstep + 1 ∨ s.time = FOREVER := by
    rcases h with rfl | k
    · exact .inr rfl
    · left; unfold wrapU32; omega
  rcases lf_delay_tag_cases s w with k | k | k | k
  · rw [k.2]; exact Tag.le_refl _
  · rw [k.2.2.2]; exact le_forever h.delay
  · rw [k.2.2.2]; tag_omega
  · rw [k.2.2.2]; tag_omega

theorem SInv.frame {β : Nat → Tag} {σ : Sys} (h : SInv T start β σ) {r : Rti} (hr : RInv T start β r)
    (k : MKeep σ.rti r) : SInv T start β { σ with rti := r } := by
  refine ⟨hr, fun u => ?_, fun u t ht => ?_, fun u hu t ht => ?_, fun u hu => ?_, fun u hu p hp => ?_⟩
  · rw [k.completed u]; exact h.comp u
  · dsimp only at ht; rw [k.transit] at ht; exact h.transit u t ht
  · dsimp only at ht; rw [k.transit] at ht; exact h.low u (k.connected u hu) t ht
  · dsimp only; rw [k.transit, k.completed u]; exact h.pre u (k.connected u hu)
  · dsimp only at hp ⊢; rw [k.transit]; exact h.msgs u (k.connected u hu) p ((k.msgs u p).1 hp)

theorem SInv.init (hT : T.Ok) (h0 : 0 ≤ start) (h1 : start < FOREVER) :
    SInv T start (fun _ => ⟨start, 0⟩) (initSys start) := by
  have hN : NEVER_TAG.time < 0 := by decide
  have hs := sane_start hT h0 h1
  refine ⟨⟨fun u => ⟨hs, Tag.le_refl _⟩, fun u => ⟨.inl rfl, ?_⟩, fun u c hc => ?_, fun i g h => ?_, fun i g h => ?_,
    fun i g h => ?_, fun i => List.Pairwise.nil⟩, fun u => .inl rfl, fun u t ht => ?_, fun u _ t ht => ?_, fun u _ => ⟨Tag.le_refl _, ?_⟩,
    fun u _ p hp => ?_⟩
  · show NEVER_TAG ≤ _
    tag_omega
  · cases hc
  · cases h
  · cases h
  · cases h
  · cases ht
  · cases ht
  · exact Tag.le_refl _
  · cases hp

/-! ## The steps of the federates -/

theorem SInv.send {β : Nat → Tag} {σ : Sys} (h : SInv T start β σ) (i : Nat) (q : List Up) (net done : Tag)
    (hd : σ.done i ≤ done)
    (hq : (σ.rti.node i).connected = true → Pre T start i (σ.net i) (σ.done i) (σ.up i) (β i)
        (fun t => t ∈ σ.rti.transit i) (σ.rti.node i).completed →
      Pre T start i net done q (β i) (fun t => t ∈ σ.rti.transit i) (σ.rti.node i).completed) :
    SInv T start β { σ with up := put σ.up i q, net := put σ.net i net, done := put σ.done i done } := by
  refine ⟨h.rti, h.comp, h.transit, h.low, fun u hu => ?_, fun u hu p hp => ?_⟩
  · dsimp only at hu ⊢
    by_cases hui : u = i
    · subst hui; rw [put_same, put_same, put_same]; exact hq hu (h.pre u hu)
    · rw [put_other _ _ _ hui, put_other _ _ _ hui, put_other _ _ _ hui]; exact h.pre u hu
  · dsimp only at hu hp ⊢
    by_cases hui : u = i
    · subst hui; rw [put_same]
      exact (h.msgs u hu p hp).imp (fun k => Tag.le_trans k hd) id
    · rw [put_other _ _ _ hui]; exact h.msgs u hu p hp

theorem put_self {α : Type} (f : Nat → α) (i : Nat) : put f i (f i) = f := by
  funext j
  by_cases hj : j = i
  · subst hj; rw [put_same]
  · rw [put_other _ _ _ hj]

/-! ## The steps of the RTI -/

/-- The head of the queue of `i` is replaced by nothing or by another one, with another bound, in the same state. -/
theorem SInv.pop {β β' : Nat → Tag} {σ : Sys} (h : SInv T start β σ) (i : Nat) (q : List Up) {r : Rti}
    (hr : RInv T start β' r) (hn : ∀ u, u ≠ i → (r.node u).completed = (σ.rti.node u).completed ∧ β' u = β u ∧
      r.transit u = σ.rti.transit u)
    (hc : ∀ u, (r.node u).connected = true → (σ.rti.node u).connected = true)
    (ho : ∀ u p, Down.msg p ∈ r.out u → Down.msg p ∈ σ.rti.out u)
    (h1 : (r.node i).completed = NEVER_TAG ∨ Sane T (r.node i).completed)
    (h2 : ∀ t ∈ r.transit i, t ∈ σ.rti.transit i)
    (h3 : (r.node i).connected = true → ∀ t ∈ r.transit i, β' i ≤ t)
    (h4 : (r.node i).connected = true → Pre T start i (σ.net i) (σ.done i) q (β' i) (fun t => t ∈ r.transit i)
      (r.node i).completed)
    (h5 : (r.node i).connected = true → ∀ t ∈ σ.rti.transit i, t ≤ σ.done i ∨ t ∈ r.transit i) :
    SInv T start β' { σ with rti := r, up := put σ.up i q } := by
  refine ⟨hr, fun u => ?_, fun u t ht => ?_, fun u hu t ht => ?_, fun u hu => ?_, fun u hu p hp => ?_⟩ <;>
    by_cases hui : u = i
  · subst hui; exact h1
  · rw [(hn u hui).1]; exact h.comp u
  · subst hui; exact h.transit u t (h2 t ht)
  · dsimp only at ht; rw [(hn u hui).2.2] at ht; exact h.transit u t ht
  · subst hui; exact h3 hu t ht
  · dsimp only at ht; rw [(hn u hui).2.2] at ht; rw [(hn u hui).2.1]; exact h.low u (hc u hu) t ht
  · subst hui; dsimp only; rw [put_same]; exact h4 hu
  · dsimp only; rw [put_other _ _ _ hui, (hn u hui).1, (hn u hui).2.1, (hn u hui).2.2]; exact h.pre u (hc u hu)
  · subst hui
    rcases h.msgs u (hc u hu) p (ho u p hp) with k | k
    · exact .inl k
    · exact h5 hu p k
  · dsimp only; rw [(hn u hui).2.2]; exact h.msgs u (hc u hu) p (ho u p hp)

theorem completed_raise {β : Nat → Tag} {s : Rti} (hr : RInv T start β s) {i : Nat} {c : Tag} (hs : Sane T c)
    (h0 : (s.node i).completed = NEVER_TAG ∨ Sane T (s.node i).completed) (hle : (s.node i).completed ≤ c) :
    RInv T start β (s.setNode i fun nd => { nd with completed := c }) := by
  have hconn : ∀ j, ((s.setNode i fun nd => { nd with completed := c }).node j).connected = (s.node j).connected := by
    intro j
    by_cases hj : j = i
    · subst hj; rw [setNode_same]
    · rw [setNode_other _ _ hj]
  have hco : ∀ own R j, CausesOnly T own R β s j → CausesOnly T own R β (s.setNode i fun nd => { nd with completed := c }) j := by
    intro own R j ⟨a, conn, b, d⟩
    exact ⟨a, conn, ⟨b.1, fun j hj => b.2 j (by rw [← hconn j]; exact hj)⟩, d⟩
  refine ⟨hr.sane, fun u => ?_, fun u x hx => ?_, fun j g h => ?_, fun j g h => hco _ _ _ (hr.ptags j g h),
    fun j g h u w hm => (hr.outside j g h u w hm).imp id fun k => ⟨k.1, hco _ _ _ k.2⟩, hr.order⟩
  · by_cases hu : u = i
    · subst hu; rw [setNode_same]; exact hr.next u
    · rw [setNode_other _ _ hu]; exact hr.next u
  · have hx' : (s.node u).cache = some x := by
      by_cases hu : u = i
      · subst hu; rw [setNode_same] at hx; exact hx
      · rw [setNode_other _ _ hu] at hx; exact hx
    obtain ⟨a, conn, b, d⟩ := hr.cache u x hx'
    exact ⟨a, conn, fun j hj => b j (by rw [← hconn j]; exact hj), d⟩
  · rcases hr.tags j g h with k | ⟨k1, k2⟩
    · left
      intro u w hm hu
      rw [hconn u] at hu
      have := k u w hm hu
      by_cases hui : u = i
      · subst hui; rw [setNode_same]; exact Tag.le_trans this (strict_mono w h0 hs hle)
      · rw [setNode_other _ _ hui]; exact this
    · exact .inr ⟨k1, hco _ _ _ k2⟩

theorem logicalTagComplete_micros (h0 : 0 ≤ start) (hT : T.Ok) (hD : T.DownOk) {i : Nat} {c : Tag} {s : Rti} :
    Micros T start (s.setNode i fun nd => { nd with completed := c }) (logicalTagComplete T start i c s) := by
  unfold logicalTagComplete
  generalize (s.setNode i fun nd => { nd with completed := c }) = a
  have : ∀ (l : List Nat) (a : Rti), (∀ j ∈ l, j < T.n) → Micros T start a
      (l.foldl (fun (s : Rti) (j : Nat) => notifyAllDownstream T start j (notifyIfSafe T start j s)) a) := by
    intro l
    induction l with
    | nil => intro a _; exact .refl _
    | cons j l ih =>
      intro a hl
      rw [List.foldl_cons]
      exact (notifyIfSafe_micros h0 hT (hl j List.mem_cons_self) a).trans
        ((notifyAllDownstream_micros h0 hT hD j _).trans (ih _ fun x hx => hl x (List.mem_cons_of_mem _ hx)))
  exact this _ _ (fun j hj => hD i j hj)

end

end ReactorC.Rti
