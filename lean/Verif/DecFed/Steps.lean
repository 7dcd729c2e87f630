import Verif.DecFed.Inv

/-! What holds of a federation with decentralized coordination: messages are read, and tags are executed. -/

set_option linter.unusedVariables false

namespace ReactorC.DecFed
open ReactorC
open ReactorC.Rti (Topology Sane put put_same put_other)
open ReactorC.FedDet (Program Entry Event Inputs Out Fit Single present upTo upTo_cons_old upTo_cons_new Rising)
open ReactorC.Level (Config MIN_SLEEP_DURATION Small exempt blocks waitOver newKnown upd)
open ReactorC.Decentral (Ev Delivery due nextTag open_ raise release handle inTime good_inTime reach_timely dueBy)

variable {S : Setup} {rank : Nat → Nat} {g : State}

theorem Inv.complete (h : Inv S g) (hS : S.Ok rank) {d p : Nat} {t : Tag} {v : Nat} (hd : d < S.P.T.n) (hr : (p, t, v) ∈ (g.fed d).reading)
    (hs : Small ((g.fed d).lv.known p)) (hc : ¬ ((g.fed d).lv.phase = .atStart ∧ t = (S.c d).start)) :
    Inv S { g with
      fed := put g.fed d (release { handle (S.c d) (g.fed d) p t v with reading := (g.fed d).reading.erase (p, t, v) })
      chan := put g.chan d (put (g.chan d) p (g.chan d p).tail) } := by
  obtain ⟨hG, hN, hD⟩ := (h.fed d hd).timely hS hd
  obtain ⟨hp, -, hgs, -, -, hx⟩ := hG.pend p t v hr
  have K := h.chan d hd p hp
  obtain ⟨a, rest, hch⟩ := K.read t v hr
  have hm : (⟨t, some v, a⟩ : Item) ∈ g.chan d p := by rw [hch]; exact List.mem_cons_self
  have hdue := K.due hS hd hp hm
  dsimp only at hdue
  have hl := (h.fed d hd).complete hS hd hr hs hdue hc
  have hm0 : min 0 ((S.c d).port p).staa ≤ ((S.c d).port p).staa := by omega
  have ht : (g.fed d).lv.cur < t ∨ (g.fed d).lv.now + MIN_SLEEP_DURATION ≤ t.time + (S.c d).sta + ((S.c d).port p).staa := by
    right; unfold Decentral.dueBy at hdue; omega
  obtain ⟨lv, l, o, dr, la, x, y, e, e1, e2, e3, -, -⟩ := complete_shape (hS.wf d hd) hG hN hD hr ht hc
  rw [e] at hl ⊢
  have hnd : (g.fed d).reading.Nodup := hG.ports.of_map
  have hno : ∀ t' v', (p, t', v') ∉ (g.fed d).reading.erase (p, t, v) := by
    intro t' v' k
    obtain ⟨a', rest', hch'⟩ := K.read t' v' (List.mem_of_mem_erase k)
    rw [hch] at hch'
    injection hch' with k1 k2
    injection k1 with k3 k4
    injection k4 with k4
    subst k3 k4
    exact hnd.not_mem_erase k
  have hso : (∀ it ∈ rest, t < it.tag) ∧ rest.Pairwise fun a b => a.tag < b.tag := by
    have := K.sorted
    rw [hch, List.pairwise_cons] at this
    exact this
  have hsub : ∀ it ∈ rest, it ∈ g.chan d p := fun it hi => by rw [hch]; exact List.mem_cons_of_mem _ hi
  refine h.receive hd hl (fun q hq => rfl) (fun q hq t' v' => ?_) (fun q hq t' v' => ?_) (fun q hq => rfl) e3 e1 e2 fun _ => ?_
  · dsimp only
    exact List.mem_erase_of_ne fun k => by injection k with k _; exact hq k
  · dsimp only
    rw [List.mem_cons]
    constructor
    · rintro (k | k)
      · cases k; exact absurd rfl hq
      · exact k
    · exact .inr
  · have up : ∀ {t' vo u'}, Src S g d p t' vo u' → Src S { g with
        fed := put g.fed d { g.fed d with
          lv := lv, got := (p, t, v) :: (g.fed d).got, q := (g.fed d).q ++ l, out := (g.fed d).out ++ o, dropped := dr ++ (g.fed d).dropped, last := la,
          reading := (g.fed d).reading.erase (p, t, v), horizon := x, requestors := y }
        chan := put g.chan d (put (g.chan d) p (g.chan d p).tail) } d p t' vo u' :=
      fun k => by refine Inv.upSrc ?_ ?_ k <;> assumption
    rw [hch, List.tail_cons] at up ⊢
    refine ⟨?_, ?_, ?_, ?_, ?_, ?_, ?_, ?_, ?_, ?_, ?_⟩ <;> dsimp only <;> (try rw [put_same]) <;> (try rw [put_same]) <;> (try rw [put_same]) <;> (try dsimp only)
    · exact hso.2
    · exact fun it hi => K.within it (hsub it hi)
    · exact K.saidLe
    · exact fun t' v' k => absurd k (hno t' v')
    · intro _ it hi
      rw [(hN.pend p t v hr).1]
      exact hso.1 it hi
    · intro it hi
      obtain ⟨u, k1, k2⟩ := K.src it (hsub it hi)
      exact ⟨u, up k1, k2⟩
    · rw [e3]; exact fun it hi => K.lat it (hsub it hi)
    · exact K.said.imp id fun ⟨vo, u, k⟩ => ⟨vo, u, up k⟩
    · intro t' v' k
      rcases List.mem_cons.1 k with k | k
      · cases k
        obtain ⟨u, k1, -⟩ := K.src _ hm
        exact ⟨u, up k1⟩
      · obtain ⟨u, k1⟩ := K.got t' v' k
        exact ⟨u, up k1⟩
    · intro k
      rw [(K.gone k).1] at hch; cases hch
    · intro x hx o ho h1 h2 h3
      obtain ⟨k1, k2⟩ := K.posted x hx o ho h1 h2 h3
      refine ⟨k1, ?_⟩
      rcases k2 with ⟨it, k2, k3, k4⟩ | k2
      · rw [hch] at k2
        rcases List.mem_cons.1 k2 with rfl | k2
        · right
          dsimp only at k3 k4
          injection k4 with k4
          rw [← k3, ← k4]
          exact List.mem_cons_self
        · exact .inl ⟨it, k2, k3, k4⟩
      · exact .inr (List.mem_cons_of_mem _ k2)

theorem Inv.absent (h : Inv S g) (hS : S.Ok rank) {d p : Nat} {t : Tag} {a : Int} {rest : List Item} (hd : d < S.P.T.n)
    (hp : p < (S.c d).n) (hch : g.chan d p = ⟨t, none, a⟩ :: rest) (hr : ∀ r ∈ (g.fed d).reading, r.1 ≠ p)
    (hs : Small ((g.fed d).lv.known p)) :
    Inv S { g with
      fed := put g.fed d { g.fed d with
        lv := { Level.updatePort (S.c d) (g.fed d).lv p t with hist := .absent p t :: (g.fed d).lv.hist }
        said := upd (g.fed d).said p t }
      chan := put g.chan d (put (g.chan d) p rest) } := by
  have K := h.chan d hd p hp
  have hm : (⟨t, none, a⟩ : Item) ∈ g.chan d p := by rw [hch]; exact List.mem_cons_self
  obtain ⟨u, k1, k2⟩ := K.src _ hm
  dsimp only at k1 k2
  have hl := (h.fed d hd).absent hS hd hp (by rw [start_first hS hd]; exact k1.first_le) k1.fit hr hs (K.ordered hm hr) (K.due hS hd hp hm)
  dsimp only at hl
  obtain ⟨m, sl, e⟩ := Decentral.updatePort_lv (S.c d) (g.fed d).lv p t
  have hso : (∀ it ∈ rest, t < it.tag) ∧ rest.Pairwise fun a b => a.tag < b.tag := by
    have := K.sorted
    rw [hch, List.pairwise_cons] at this
    exact this
  have hsub : ∀ it ∈ rest, it ∈ g.chan d p := fun it hi => by rw [hch]; exact List.mem_cons_of_mem _ hi
  refine h.receive hd hl (fun q hq => ?_) (fun q hq t v => Iff.rfl) (fun q hq t v => Iff.rfl) (fun q hq => rfl) ?_ ?_ ?_ fun _ => ?_
  · dsimp only; unfold upd; rw [if_neg hq]
  · dsimp only; rw [e]
  · dsimp only; rw [e]
  · dsimp only; rw [e]
  · have up : ∀ {t' vo u'}, Src S g d p t' vo u' → Src S { g with
      fed := put g.fed d { g.fed d with
        lv := { Level.updatePort (S.c d) (g.fed d).lv p t with hist := .absent p t :: (g.fed d).lv.hist }
        said := upd (g.fed d).said p t }
      chan := put g.chan d (put (g.chan d) p rest) } d p t' vo u' :=
      fun k => by refine Inv.upSrc ?_ ?_ k <;> (dsimp only; rw [e])
    refine ⟨?_, ?_, ?_, ?_, ?_, ?_, ?_, ?_, ?_, ?_, ?_⟩ <;> dsimp only <;> (try rw [put_same]) <;> (try rw [put_same]) <;> (try rw [put_same]) <;> (try dsimp only)
    · exact hso.2
    · exact fun it hi => K.within it (hsub it hi)
    · unfold upd; rw [if_pos rfl]; exact K.within _ hm
    · exact fun t' v' k => absurd rfl (hr _ k)
    · intro _ it hi
      unfold upd; rw [if_pos rfl]
      exact hso.1 it hi
    · intro it hi
      obtain ⟨u, k1, k2⟩ := K.src it (hsub it hi)
      exact ⟨u, up k1, k2⟩
    · rw [e]; exact fun it hi => K.lat it (hsub it hi)
    · right
      unfold upd; rw [if_pos rfl]
      exact ⟨_, u, up k1⟩
    · intro t' v' k
      obtain ⟨u, k1⟩ := K.got t' v' k
      exact ⟨u, up k1⟩
    · intro k
      rw [(K.gone k).1] at hch; cases hch
    · intro x hx o ho h1 h2 h3
      obtain ⟨k1, k2⟩ := K.posted x hx o ho h1 h2 h3
      refine ⟨k1, ?_⟩
      rcases k2 with ⟨it, k2, k3, k4⟩ | k2
      · rw [hch] at k2
        rcases List.mem_cons.1 k2 with rfl | k2
        · cases k4
        · exact .inl ⟨it, k2, k3, k4⟩
      · exact .inr k2

theorem Inv.gone (h : Inv S g) (hS : S.Ok rank) {d p : Nat} (hd : d < S.P.T.n) (hp : p < (S.c d).n) (hch : g.chan d p = [])
    (hs : Small ((g.fed d).lv.known p)) (h1 : (g.fed ((S.c d).port p).source).lv.phase = .running)
    (h2 : g.fin ((S.c d).port p).source = true) (h3 : (g.fed ((S.c d).port p).source).lv.cur = S.P.stop) :
    Inv S { g with fed := put g.fed d { g.fed d with
      lv := { Level.updatePort (S.c d) (g.fed d).lv p FOREVER_TAG with hist := .gone p :: (g.fed d).lv.hist }
      gone := upd (g.fed d).gone p true } } := by
  have K := h.chan d hd p hp
  have hr : ∀ r ∈ (g.fed d).reading, r.1 ≠ p := by
    intro r k e
    obtain ⟨a, rest, k2⟩ := K.read r.2.1 r.2.2 (by rw [← e]; exact k)
    rw [hch] at k2; cases k2
  have hl := (h.fed d hd).gone hS hd hp hr hs
  obtain ⟨m, sl, e⟩ := Decentral.updatePort_lv (S.c d) (g.fed d).lv p FOREVER_TAG
  have e0 : ({ g with fed := put g.fed d { g.fed d with
      lv := { Level.updatePort (S.c d) (g.fed d).lv p FOREVER_TAG with hist := .gone p :: (g.fed d).lv.hist }
      gone := upd (g.fed d).gone p true } } : State) =
    { g with fed := put g.fed d { g.fed d with
      lv := { Level.updatePort (S.c d) (g.fed d).lv p FOREVER_TAG with hist := .gone p :: (g.fed d).lv.hist }
      gone := upd (g.fed d).gone p true }, chan := put g.chan d (put (g.chan d) p (g.chan d p)) } := by
    rw [put_id, put_id]
  rw [e0]
  refine h.receive hd hl (fun q hq => rfl) (fun q hq t v => Iff.rfl) (fun q hq t v => Iff.rfl) (fun q hq => ?_) ?_ ?_ ?_ fun _ => ?_
  · dsimp only; unfold upd; rw [if_neg hq]
  · dsimp only; rw [e]
  · dsimp only; rw [e]
  · dsimp only; rw [e]
  · rw [put_id, put_id]
    have up : ∀ {t' vo u'}, Src S g d p t' vo u' → Src S { g with
      fed := put g.fed d { g.fed d with
        lv := { Level.updatePort (S.c d) (g.fed d).lv p FOREVER_TAG with hist := .gone p :: (g.fed d).lv.hist }
        gone := upd (g.fed d).gone p true } } d p t' vo u' :=
      fun k => by refine Inv.upSrc ?_ ?_ k <;> (dsimp only; rw [e])
    refine ⟨?_, ?_, ?_, ?_, ?_, ?_, ?_, ?_, ?_, ?_, ?_⟩ <;> dsimp only <;> (try rw [put_same]) <;> (try dsimp only)
    · exact K.sorted
    · exact K.within
    · exact K.saidLe
    · exact K.read
    · exact K.fresh
    · intro it hi
      obtain ⟨u, k1, k2⟩ := K.src it hi
      exact ⟨u, up k1, k2⟩
    · rw [e]; exact K.lat
    · exact K.said.imp id fun ⟨vo, u, k⟩ => ⟨vo, u, up k⟩
    · intro t' v' k
      obtain ⟨u, k1⟩ := K.got t' v' k
      exact ⟨u, up k1⟩
    · intro _
      refine ⟨hch, ?_⟩
      by_cases c : S.from_ d p = d
      · have c' : ((S.c d).port p).source = d := c
        rw [c'] at h1 h2 h3
        rw [c, put_same]; dsimp only; rw [e]; exact ⟨h1, h2, h3⟩
      · rw [put_other _ _ _ c]; exact ⟨h1, h2, h3⟩
    · exact K.posted

/-! ## Executing a tag -/

theorem posts_cases {i d p : Nat} {t : Tag} {h : List (Entry Nat)} {now : Int} {silent : Bool} {it : Item} (k : it ∈ posts S i d p t h now silent) :
    (∃ o ∈ S.P.outs i h, o.dest = d ∧ o.port = p ∧ lf_delay_tag t o.delay ≤ S.P.stop ∧ it = ⟨lf_delay_tag t o.delay, some o.val, now⟩) ∨
    (S.from_ d p = i ∧ (S.delay d p = 0 ∨ S.delay d p = NEVER) ∧ it = ⟨lf_delay_tag t (S.delay d p), none, now⟩) := by
  unfold posts at k
  dsimp only at k
  split at k
  · rename_i c
    right
    have := c.2.2
    unfold noticeable at this
    simp only [Bool.and_eq_true, Bool.or_eq_true, decide_eq_true_eq] at this
    obtain ⟨⟨-, h1⟩, h2⟩ := this
    rw [strict_eq h2, List.mem_singleton] at k
    exact ⟨h1, h2, k⟩
  · left
    unfold letters at k
    rw [List.mem_filterMap] at k
    obtain ⟨o, ho, k⟩ := k
    split at k
    · rename_i c
      injection k with k
      exact ⟨o, ho, c.1, c.2.1, c.2.2, k.symm⟩
    · cases k

theorem mem_posts {i d p : Nat} {t : Tag} {h : List (Entry Nat)} {now : Int} {silent : Bool} {o : Out Nat} (ho : o ∈ S.P.outs i h) (h1 : o.dest = d)
    (h2 : o.port = p) (h3 : lf_delay_tag t o.delay ≤ S.P.stop) : ⟨lf_delay_tag t o.delay, some o.val, now⟩ ∈ posts S i d p t h now silent := by
  have : ⟨lf_delay_tag t o.delay, some o.val, now⟩ ∈ letters S.P i d p t h now := by
    unfold letters
    rw [List.mem_filterMap]
    exact ⟨o, ho, by rw [if_pos ⟨h1, h2, h3⟩]⟩
  unfold posts
  dsimp only
  rw [if_neg]
  · exact this
  · rintro ⟨k, -⟩; rw [k] at this; cases this

theorem latest_cases {t : Tag} {l : List Item} (h : l.length ≤ 1) : (l = [] ∧ latest t l = t) ∨ ∃ it, l = [it] ∧ latest t l = it.tag := by
  match l, h with
  | [], _ => exact .inl ⟨rfl, rfl⟩
  | [it], _ => exact .inr ⟨it, rfl, rfl⟩

theorem Inv.finish (h : Inv S g) (hS : S.Ok rank) {i : Nat} (silent : Nat → Nat → Bool) (hi : i < S.P.T.n) (hp : (g.fed i).lv.phase = .running)
    (hf : g.fin i = false) (hb : ∀ p < (S.c i).n, blocks (S.c i) (g.fed i).lv.cur (g.fed i).lv.known p = false) (hF : Fine S g i silent) :
    Inv S (finish S g i silent) := by
  unfold Fine at hF
  dsimp only at hF
  unfold DecFed.finish
  dsimp only
  generalize hx : ((g.fed i).lv.cur, inputs (S.c i) (g.fed i).out (g.loc i) (g.fed i).lv.cur) = x at hF ⊢
  have hx1 : x.1 = (g.fed i).lv.cur := by rw [← hx]
  obtain ⟨hF1, hF2, hF3⟩ := hF
  have L := h.fed i hi
  rw [hf] at L
  have hl := L.finish hS hi hp hb hx.symm hF1 hF2
  obtain ⟨hG, -, -⟩ := L.timely hS hi
  have hcur : S.P.first ≤ (g.fed i).lv.cur := by rw [← start_first hS hi]; exact (hG.after (by rw [hp]; simp)).1
  have old : ∀ y ∈ g.log i, y.1 < x.1 := by
    intro y hy
    obtain ⟨-, -, -, -, a5, a6⟩ := L.logs y hy
    rw [hx1]
    rcases Tag.lt_or_eq_of_le a5 with k | k
    · exact k
    · cases a6 k
  have hduty : (g.fed i).lv.now ≤ (g.fed i).lv.cur.time + S.lag i := by
    refine L.duty _ ⟨(L.run hp).1, ?_, .inr (.inr (.inr ⟨hp, rfl⟩))⟩
    rintro ⟨-, k | k⟩
    · exact Tag.lt_irrefl _ k
    · cases k.2
  have hext : ∀ j y, y ∈ g.log j → y ∈ put g.log i (x :: g.log i) j ∧ upTo y.1 (put g.log i (x :: g.log i) j) = upTo y.1 (g.log j) := by
    intro j y hy
    by_cases c : j = i
    · subst c; rw [put_same]; exact ⟨List.mem_cons_of_mem _ hy, upTo_cons_old (old y hy)⟩
    · rw [put_other _ _ _ c]; exact ⟨hy, rfl⟩
  have hpass : ∀ j u, Passed (g.fed j) (g.fin j) u → Passed (put g.fed i (addLocals (g.fed i) (S.P.scheds i (x :: g.log i))) j) (put g.fin i true j) u := by
    intro j u k
    by_cases c : j = i
    · subst c; rw [put_same, put_same]
      refine ⟨k.1, k.2.imp id fun k2 => ⟨k2.1, rfl⟩⟩
    · rw [put_other _ _ _ c, put_other _ _ _ c]; exact k
  -- what a federate downstream is at
  have hsame : ∀ j, (put g.fed i (addLocals (g.fed i) (S.P.scheds i (x :: g.log i))) j).said = (g.fed j).said ∧
      (put g.fed i (addLocals (g.fed i) (S.P.scheds i (x :: g.log i))) j).reading = (g.fed j).reading ∧
      (put g.fed i (addLocals (g.fed i) (S.P.scheds i (x :: g.log i))) j).got = (g.fed j).got ∧
      (put g.fed i (addLocals (g.fed i) (S.P.scheds i (x :: g.log i))) j).gone = (g.fed j).gone ∧
      (put g.fed i (addLocals (g.fed i) (S.P.scheds i (x :: g.log i))) j).lv = (g.fed j).lv := by
    intro j
    by_cases c : j = i
    · subst c; rw [put_same]; exact ⟨rfl, rfl, rfl, rfl, rfl⟩
    · rw [put_other _ _ _ c]; exact ⟨rfl, rfl, rfl, rfl, rfl⟩
  refine ⟨fun j hj => ?_, fun d hd p hpd => ?_, fun j hj k hk => ?_, fun j e => ?_, ?_, fun j hj => ?_⟩
  · dsimp only
    by_cases c : j = i
    · subst c; rw [put_same, put_same, put_same, put_same]; exact hl
    · rw [put_other _ _ _ c, put_other _ _ _ c, put_other _ _ _ c, put_other _ _ _ c]; exact h.fed j hj
  · have K := h.chan d hd p hpd
    obtain ⟨s1, s2, s3, s4, s5⟩ := hsame d
    by_cases c : S.from_ d p = i
    · -- the sender
      obtain ⟨hlen, hpost⟩ := hF3 d p
      have up : ∀ {t' vo u'}, Src S g d p t' vo u' → Src S { g with
          fed := put g.fed i (addLocals (g.fed i) (S.P.scheds i (x :: g.log i)))
          log := put g.log i (x :: g.log i)
          loc := put g.loc i (g.loc i ++ S.P.scheds i (x :: g.log i))
          fin := put g.fin i true
          chan := fun d p => g.chan d p ++ posts S i d p (g.fed i).lv.cur (x :: g.log i) (g.fed i).lv.now (silent d p)
          sent := fun d p => latest (g.sent d p) (posts S i d p (g.fed i).lv.cur (x :: g.log i) (g.fed i).lv.now (silent d p)) } d p t' vo u' :=
        fun k => k.mono (hpass _) (hext _)
      have hsent : g.sent d p ≤ latest (g.sent d p) (posts S i d p (g.fed i).lv.cur (x :: g.log i) (g.fed i).lv.now (silent d p)) ∧
          ∀ it ∈ posts S i d p (g.fed i).lv.cur (x :: g.log i) (g.fed i).lv.now (silent d p),
            it.tag ≤ latest (g.sent d p) (posts S i d p (g.fed i).lv.cur (x :: g.log i) (g.fed i).lv.now (silent d p)) := by
        rcases latest_cases (t := g.sent d p) hlen with ⟨k1, k2⟩ | ⟨it, k1, k2⟩
        · rw [k2, k1]; exact ⟨Tag.le_refl _, fun it hi => by cases hi⟩
        · rw [k2]
          refine ⟨Tag.le_of_lt (hpost it (by rw [k1]; exact List.mem_cons_self)).1, ?_⟩
          rw [k1]
          intro it' hi
          rw [List.mem_singleton] at hi
          rw [hi]; exact Tag.le_refl _
      have hso : (posts S i d p (g.fed i).lv.cur (x :: g.log i) (g.fed i).lv.now (silent d p)).Pairwise fun a b => a.tag < b.tag := by
        rcases latest_cases (t := g.sent d p) hlen with ⟨k1, k2⟩ | ⟨it, k1, k2⟩
        · rw [k1]; exact .nil
        · rw [k1]; exact List.pairwise_singleton _ _
      have hpnow : ∀ it ∈ posts S i d p (g.fed i).lv.cur (x :: g.log i) (g.fed i).lv.now (silent d p), it.sent = (g.fed i).lv.now := by
        intro it hi
        rcases posts_cases hi with ⟨o, -, -, -, -, k⟩ | ⟨-, -, k⟩ <;> rw [k]
      generalize hps : posts S i d p (g.fed i).lv.cur (x :: g.log i) (g.fed i).lv.now (silent d p) = ps at hpost hsent hso hpnow
      refine ⟨?_, ?_, ?_, ?_, ?_, ?_, ?_, ?_, ?_, ?_, ?_⟩ <;> dsimp only <;> (try rw [hps]) <;> (try rw [s1]) <;> (try rw [s2]) <;> (try rw [s3]) <;>
        (try rw [s4]) <;> (try rw [s5])
      · rw [List.pairwise_append]
        exact ⟨K.sorted, hso, fun a ha b hb => Tag.lt_of_le_of_lt (K.within a ha) (hpost b hb).1⟩
      · intro it hi
        rcases List.mem_append.1 hi with hi | hi
        · exact Tag.le_trans (K.within it hi) hsent.1
        · exact hsent.2 it hi
      · exact Tag.le_trans K.saidLe hsent.1
      · intro t v k
        obtain ⟨a, rest, k⟩ := K.read t v k
        exact ⟨a, rest ++ ps, by rw [k]; rfl⟩
      · intro k it hi
        rcases List.mem_append.1 hi with hi | hi
        · exact K.fresh k it hi
        · exact Tag.lt_of_le_of_lt K.saidLe (hpost it hi).1
      · intro it hi
        rcases List.mem_append.1 hi with hi | hi
        · obtain ⟨u, k1, k2⟩ := K.src it hi
          exact ⟨u, up k1, k2⟩
        · have hfit := (hpost it hi).2
          refine ⟨(g.fed i).lv.cur, ⟨hcur, hF1, hfit, ?_, ?_, fun k => ?_, fun v k => ?_⟩, ?_⟩
          · rw [c]; dsimp only; rw [put_same, put_same]
            exact ⟨hp, .inr ⟨rfl, rfl⟩⟩
          · rw [← hps] at hi
            rcases posts_cases hi with ⟨o, ho, o1, o2, o3, o4⟩ | ⟨-, -, o4⟩
            · rw [o4]; dsimp only
              have := (hS.outs i _ o ho).2.2
              rw [o1, o2] at this
              rw [this]
            · rw [o4]
          · rw [← hps] at hi
            rcases posts_cases hi with ⟨o, ho, o1, o2, o3, o4⟩ | ⟨-, o3, o4⟩
            · rw [o4] at k; cases k
            · have hN : NEVER < 0 := by decide
              rcases o3 with o3 | o3 <;> rw [o3] <;> omega
          · rw [← hps] at hi
            rcases posts_cases hi with ⟨o, ho, o1, o2, o3, o4⟩ | ⟨-, o3, o4⟩
            · rw [o4] at k ⊢
              injection k with k
              dsimp only
              refine ⟨o3, x.2, ?_, o, ?_, o1, o2, k⟩
              · rw [c, put_same, ← hx1]; exact List.mem_cons_self
              · rw [c, put_same, ← hx1, upTo_cons_new old]; exact ho
            · rw [o4] at k; cases k
          · rw [hpnow it hi, c]; exact hduty
      · intro it hi
        rcases List.mem_append.1 hi with hi | hi
        · exact K.lat it hi
        · rw [hpnow it hi]
          have k1 := h.clocks d hd i ‹i < S.P.T.n›
          have k2 := hS.latency d hd p hpd
          omega
      · exact K.said.imp id fun ⟨vo, u, k⟩ => ⟨vo, u, up k⟩
      · intro t' v' k
        obtain ⟨u, k1⟩ := K.got t' v' k
        exact ⟨u, up k1⟩
      · intro k
        have := (K.gone k).2.2.1
        rw [c, hf] at this; cases this
      · rw [c, put_same]
        intro y hy o ho h1 h2 h3
        rcases List.mem_cons.1 hy with rfl | hy2
        · rw [upTo_cons_new old] at ho
          have hm := mem_posts (now := (g.fed i).lv.now) (silent := silent d p) ho h1 h2 h3
          rw [hx1, hps] at hm
          rw [hx1]
          exact ⟨hsent.2 _ hm, .inl ⟨_, List.mem_append_right _ hm, rfl, rfl⟩⟩
        · rw [upTo_cons_old (old y hy2)] at ho
          have := K.posted y (by rw [c]; exact hy2) o (by rw [c]; exact ho) h1 h2 h3
          refine ⟨Tag.le_trans this.1 hsent.1, this.2.imp (fun ⟨it, k1, k2⟩ => ⟨it, List.mem_append_left _ k1, k2⟩) id⟩
    · have hnil : posts S i d p (g.fed i).lv.cur (x :: g.log i) (g.fed i).lv.now (silent d p) = [] := by
        rw [List.eq_nil_iff_forall_not_mem]
        intro it hi
        rcases posts_cases hi with ⟨o, ho, o1, o2, o3, o4⟩ | ⟨k, -, -⟩
        · have := (hS.outs i _ o ho).2.1
          rw [o1, o2] at this
          exact c this
        · exact c k
      refine K.keep ?_ ?_ ?_ ?_ ?_ ?_ ?_ ?_ (hpass _) ?_ <;> dsimp only <;> (try rw [s1]) <;> (try rw [s2]) <;> (try rw [s3]) <;>
        (try rw [s4]) <;> (try rw [s5])
      · rw [hnil, List.append_nil]
      · rw [hnil]; rfl
      · exact fun _ _ => Iff.rfl
      · exact fun _ _ => Iff.rfl
      · exact K.lat
      · rw [put_other _ _ _ c]
      · rw [put_other _ _ _ c, put_other _ _ _ c]; exact fun a b c => ⟨a, b, c⟩
  · dsimp only
    rw [(hsame j).2.2.2.2, (hsame k).2.2.2.2]; exact h.clocks j hj k hk
  · dsimp only
    by_cases c : j = i
    · subst c
      rw [put_same, put_same, List.mem_append, h.locs]
      constructor
      · rintro ((k | ⟨y, hy, k⟩) | k)
        · exact .inl k
        · exact .inr ⟨y, List.mem_cons_of_mem _ hy, by rw [upTo_cons_old (old y hy)]; exact k⟩
        · exact .inr ⟨x, List.mem_cons_self, by rw [upTo_cons_new old]; exact k⟩
      · rintro (k | ⟨y, hy, k⟩)
        · exact .inl (.inl k)
        · rcases List.mem_cons.1 hy with rfl | hy2
          · rw [upTo_cons_new old] at k; exact .inr k
          · rw [upTo_cons_old (old y hy2)] at k; exact .inl (.inr ⟨y, hy2, k⟩)
    · rw [put_other _ _ _ c, put_other _ _ _ c]; exact h.locs j e
  · refine h.rising.cons old fun o ho hst y hy o' ho' e1 e2 hst' => ?_
    obtain ⟨k1, k2, k3⟩ := hS.outs i _ o ho
    have hd := (hS.prog.dest i _ o ho).1
    have K := h.chan o.dest hd o.port k1
    have hm := mem_posts (now := (g.fed i).lv.now) (silent := silent o.dest o.port) ho rfl rfl hst
    rw [hx1] at hm ⊢
    refine Tag.lt_of_le_of_lt ?_ ((hF3 o.dest o.port).2 _ hm).1
    have k2' : S.from_ o.dest o.port = i := k2
    exact (K.posted y (by rw [k2']; exact hy) o' (by rw [k2']; exact ho') e1 e2 hst').1
  · dsimp only
    rw [put_other _ _ _ (by omega)]
    exact h.outside j hj

end ReactorC.DecFed
