import Verif.Audio.Spec

/-!
# C90: the invariant of the audio loop
-/

namespace ReactorC.Audio
variable {Vol : Type}

theorem upd_same {α : Type} (f : Nat → α) (i : Nat) (v : α) : upd f i v i = v := by simp [upd]
theorem upd_other {α : Type} (f : Nat → α) {i j : Nat} (v : α) (h : j ≠ i) : upd f i v j = f j := by simp [upd, h]

theorem size_pos : 0 < SIZE := by decide

theorem frames_pos (w : Wave) : 1 ≤ frames w := Nat.le_max_left _ _

theorem ended_iff {w : Wave} (h : w.Ok) {f : Nat} (hf : f < frames w) : (ended w (f * w.channels + w.channels) = true ↔ frames w ≤ f + 1) ∧ f * w.channels + w.channels ≤ w.length := by
  obtain ⟨h1, h2, h3⟩ := h
  have hle : f * w.channels + w.channels ≤ w.length := by
    rcases Nat.eq_zero_or_pos f with rfl | hp
    · omega
    · have h4 : f + 1 ≤ (w.length - 1) / w.channels := by
        unfold frames at hf
        omega
      have h5 := (Nat.le_div_iff_mul_le (by omega)).1 h4
      have h6 : (f + 1) * w.channels = f * w.channels + w.channels := Nat.succ_mul _ _
      omega
  refine ⟨?_, hle⟩
  unfold ended
  rw [decide_eq_true_iff, Nat.mod_eq_of_lt (by omega), show w.length + 4294967296 - w.channels = (w.length - w.channels) + 4294967296 by omega, Nat.add_mod_right,
    Nat.mod_eq_of_lt (by omega)]
  have h7 : (w.length - 1) / w.channels < f + 2 ↔ w.length - 1 < (f + 2) * w.channels := Nat.div_lt_iff_lt_mul (by omega)
  have h8 : (f + 2) * w.channels = f * w.channels + 2 * w.channels := Nat.add_mul _ _ _
  unfold frames
  omega

theorem clamp_range (x : Int) : -MAX ≤ clamp x ∧ clamp x ≤ MAX := by
  unfold clamp
  have : MAX = 32765 := rfl
  split
  · omega
  · split <;> omega

theorem fill_zero (C : Config Vol) (p : Nat) (w : Wave) (v : Vol) (a pos : Nat) (o : Out) : fill C p w v 0 a pos o = (o, some pos) := by rw [fill]

/-- One round of the loop. -/
def put (C : Config Vol) (p : Nat) (w : Wave) (v : Vol) (a pos : Nat) (o : Out) : Out :=
  ⟨add C o.sound a (average w pos) v, o.log ++ [(p, a, pos)], o.fault || decide (w.channels = 0 ∨ w.length < pos + w.channels)⟩

theorem fill_succ (C : Config Vol) (p : Nat) (w : Wave) (v : Vol) (k a pos : Nat) (o : Out) :
    fill C p w v (k + 1) a pos o = if ended w (pos + w.channels) = true then (put C p w v a pos o, none) else fill C p w v k (a + 1) (pos + w.channels) (put C p w v a pos o) := by
  rw [fill]; rfl

/-- What the loop over the samples of a note does. -/
theorem fill_spec (C : Config Vol) (p : Nat) {w : Wave} (v : Vol) (h : w.Ok) : ∀ (k a f : Nat) (o : Out), f < frames w → 0 < k →
    (fill C p w v k a (f * w.channels) o).1.log = o.log ++ (List.range (min k (frames w - f))).map (fun i => (p, a + i, (f + i) * w.channels)) ∧
    (fill C p w v k a (f * w.channels) o).1.fault = o.fault ∧
    (fill C p w v k a (f * w.channels) o).2 = if k < frames w - f then some ((f + k) * w.channels) else none := by
  intro k
  induction k with
  | zero => intro a f o _ hk; omega
  | succ k ih =>
    intro a f o hf _
    obtain ⟨he, hle⟩ := ended_iff h hf
    have hok : (put C p w v a (f * w.channels) o).fault = o.fault := by
      have : decide (w.channels = 0 ∨ w.length < f * w.channels + w.channels) = false := by
        rw [decide_eq_false_iff_not]
        have := h.1
        omega
      unfold put
      dsimp only
      rw [this, Bool.or_false]
    have hlog : (put C p w v a (f * w.channels) o).log = o.log ++ [(p, a, f * w.channels)] := rfl
    rw [fill_succ]
    generalize put C p w v a (f * w.channels) o = o' at hok hlog ⊢
    by_cases hend : frames w ≤ f + 1
    · rw [if_pos (he.2 hend)]
      have h1 : min (k + 1) (frames w - f) = 1 := by omega
      refine ⟨?_, hok, ?_⟩
      · rw [h1, hlog]; simp
      · rw [if_neg (by omega)]
    · rw [if_neg (fun q => hend (he.1 q))]
      have hm : f * w.channels + w.channels = (f + 1) * w.channels := (Nat.succ_mul _ _).symm
      rw [hm]
      rcases Nat.eq_zero_or_pos k with rfl | hk
      · rw [fill_zero]
        have h1 : min (0 + 1) (frames w - f) = 1 := by omega
        refine ⟨?_, hok, ?_⟩
        · rw [h1, hlog]; simp
        · rw [if_pos (by omega)]
      · obtain ⟨i1, i2, i3⟩ := ih (a + 1) (f + 1) o' (by omega) hk
        refine ⟨?_, i2.trans hok, ?_⟩
        · rw [i1, hlog]
          have h1 : min (k + 1) (frames w - f) = min k (frames w - (f + 1)) + 1 := by omega
          rw [h1, List.range_succ_eq_map, List.map_cons, List.map_map, List.append_assoc]
          congr 1
          rw [List.singleton_append, Nat.add_zero, Nat.add_zero]
          congr 1
          apply List.map_congr_left
          intro i _
          show (p, a + 1 + i, (f + 1 + i) * w.channels) = (p, a + (i + 1), (f + (i + 1)) * w.channels)
          rw [show a + 1 + i = a + (i + 1) by omega, show f + 1 + i = f + (i + 1) by omega]
        · rw [i3]
          by_cases hc : k < frames w - (f + 1)
          · rw [if_pos hc, if_pos (by omega), show f + 1 + k = f + (k + 1) by omega]
          · rw [if_neg hc, if_neg (by omega)]

theorem fill_sound (C : Config Vol) (p : Nat) (w : Wave) (v : Vol) : ∀ (k a pos : Nat) (o : Out), (∀ i, -MAX ≤ o.sound i ∧ o.sound i ≤ MAX) →
    ∀ i, -MAX ≤ (fill C p w v k a pos o).1.sound i ∧ (fill C p w v k a pos o).1.sound i ≤ MAX := by
  intro k
  induction k with
  | zero => intro a pos o h; rw [fill_zero]; exact h
  | succ k ih =>
    intro a pos o h
    have h' : ∀ i, -MAX ≤ add C o.sound a (average w pos) v i ∧ add C o.sound a (average w pos) v i ≤ MAX := by
      intro i
      unfold add upd
      split
      · exact clamp_range _
      · exact h i
    rw [fill_succ]
    split
    · exact h'
    · exact ih _ _ _ h'

/-- The first `k` frames, from sample `a` on. -/
def firsts (a ch k : Nat) : List (Nat × Nat) := (List.range k).map fun f => (a + f, f * ch)

/-- The invariant; the note in slot `j` goes on at sample `edge j`. -/
structure Inv (C : Config Vol) (edge : Nat → Nat) (s : State Vol) : Prop where
  ok : s.out.fault = false
  counter : s.counter = s.calls.length % 8
  ids : ∀ e ∈ s.out.log, e.1 < s.calls.length
  unused : ∀ j, s.calls.length ≤ j → (s.notes j).wave = none
  any : ∀ p w v a, s.calls[p]? = some (w, v, a) → w.Ok ∧ ∃ k, played s p = firsts a w.channels k ∧ 1 ≤ k ∧ k ≤ frames w ∧
    (k = frames w ∨ C.silent v = true ∨ p + 8 < s.calls.length ∨ a + k = edge (p % 8))
  slot : ∀ p w v a, s.calls[p]? = some (w, v, a) → s.calls.length ≤ p + 8 →
    (s.notes (p % 8)).play = p ∧ ((s.notes (p % 8)).wave = none ∨ C.silent (s.notes (p % 8)).vol = true ∨
      (s.notes (p % 8)).wave = some w ∧ (s.notes (p % 8)).vol = v ∧ ∃ k, played s p = firsts a w.channels k ∧ (s.notes (p % 8)).pos = k * w.channels ∧ k < frames w ∧ a + k = edge (p % 8))
  ended : ∀ p w v a, s.calls[p]? = some (w, v, a) → s.calls.length ≤ p + 8 → C.silent v = false → ((s.notes (p % 8)).wave = none ∨ C.silent (s.notes (p % 8)).vol = true) →
    played s p = firsts a w.channels (frames w)
  sound : ∀ i, -MAX ≤ s.out.sound i ∧ s.out.sound i ≤ MAX

theorem firsts_inj {a ch k k' : Nat} (h : firsts a ch k = firsts a ch k') : k = k' := by
  have := congrArg List.length h
  simpa [firsts] using this

theorem firsts_append (a ch k m : Nat) : firsts a ch k ++ (List.range m).map (fun i => (a + k + i, (k + i) * ch)) = firsts a ch (k + m) := by
  unfold firsts
  rw [List.range_add, List.map_append, List.map_map]
  congr 1
  apply List.map_congr_left
  intro i _
  show _ = (a + (k + i), (k + i) * ch)
  rw [Nat.add_assoc]

theorem played_append (s : State Vol) (o : Out) (p q : Nat) (m : Nat) (g : Nat → Nat × Nat) (ho : o.log = s.out.log ++ (List.range m).map fun i => (q, g i)) :
    ((o.log.filter fun e => e.1 = p).map (·.2)) = if p = q then played s p ++ (List.range m).map g else played s p := by
  unfold played
  rw [ho, List.filter_append, List.map_append]
  split
  · rename_i e
    subst e
    congr 1
    rw [List.filter_eq_self.2 (by intro e he; obtain ⟨i, _, rfl⟩ := List.mem_map.1 he; simp), List.map_map]
    rfl
  · rename_i e
    have hn : ((List.range m).map fun i => (q, g i)).filter (fun x => x.1 = p) = [] :=
      List.filter_eq_nil_iff.2 (by intro x hx; obtain ⟨i, _, rfl⟩ := List.mem_map.1 hx; simpa using fun h => e h.symm)
    rw [hn, List.map_nil, List.append_nil]

/-- `contSlot` and `play` for buffers of any size. -/
def contN (C : Config Vol) (N b : Nat) (s : State Vol) (j : Nat) : State Vol :=
  match (s.notes j).wave with
  | none => s
  | some w =>
    if C.silent (s.notes j).vol then s
    else
      let r := fill C (s.notes j).play w (s.notes j).vol N (b * N) (s.notes j).pos s.out
      { s with
        out := r.1
        notes := upd s.notes j (match r.2 with
          | none => ⟨(s.notes j).play, none, 0, C.zero⟩
          | some pos => { s.notes j with pos := pos }) }

def playN (C : Config Vol) (N : Nat) (s : State Vol) (b : Nat) (w : Wave) (v : Vol) (t : Int) : State Vol :=
  let i := index s t
  let j := s.counter
  let p := s.calls.length
  let s := { s with counter := if s.counter + 1 ≥ 8 then 0 else s.counter + 1, calls := s.calls ++ [(w, v, b * N + i)] }
  if w.length > 0 then
    let r := fill C (p) w v (N - i) (b * N + i) 0 s.out
    { s with
      out := r.1
      notes := upd s.notes j (match r.2 with
        | none => ⟨p, some w, 0, C.zero⟩
        | some pos => ⟨p, some w, pos, v⟩) }
  else { s with notes := upd s.notes j { s.notes j with play := p, wave := some w } }

theorem contSlot_eq (C : Config Vol) (b : Nat) (s : State Vol) (j : Nat) : contSlot C b s j = contN C SIZE b s j := rfl
theorem play_eq (C : Config Vol) (s : State Vol) (b : Nat) (w : Wave) (v : Vol) (t : Int) : play C s b w v t = playN C SIZE s b w v t := rfl

/-- Slot `j` goes on. -/
theorem inv_slotN {C : Config Vol} {edge : Nat → Nat} {s : State Vol} (h : Inv C edge s) {N b j : Nat} (hN : 0 < N) (hj : j < 8) (he : edge j = b * N) :
    Inv C (upd edge j ((b + 1) * N)) (contN C N b s j) := by
  -- which call the slot belongs to, if it is in use
  have hcall : ∀ w, (s.notes j).wave = some w → ∃ p w v a, s.calls[p]? = some (w, v, a) ∧ s.calls.length ≤ p + 8 ∧ p % 8 = j := by
    intro w hw
    have hlt : j < s.calls.length := by
      by_contra hc
      rw [h.unused j (by omega)] at hw
      cases hw
    have hp : ∃ p, p < s.calls.length ∧ s.calls.length ≤ p + 8 ∧ p % 8 = j := by
      refine ⟨j + 8 * ((s.calls.length - 1 - j) / 8), ?_, ?_, ?_⟩ <;> omega
    obtain ⟨p, h1, h2, h3⟩ := hp
    exact ⟨p, (s.calls[p]).1, (s.calls[p]).2.1, (s.calls[p]).2.2, List.getElem?_eq_getElem h1, h2, h3⟩
  -- if it does not go on
  have hidle : ((s.notes j).wave = none ∨ C.silent (s.notes j).vol = true) → Inv C (upd edge j ((b + 1) * N)) s := by
    intro hi
    refine ⟨h.ok, h.counter, h.ids, h.unused, ?_, ?_, h.ended, h.sound⟩
    · intro p w v a hp
      obtain ⟨h0, k, h1, h2, h3, h4⟩ := h.any p w v a hp
      refine ⟨h0, k, h1, h2, h3, ?_⟩
      by_cases hold : p + 8 < s.calls.length
      · exact .inr (.inr (.inl hold))
      · by_cases hpj : p % 8 = j
        · cases hs : C.silent v with
          | true => exact .inr (.inl rfl)
          | false =>
            left
            have := h.ended p w v a hp (by omega) hs (by rw [hpj]; exact hi)
            rw [h1] at this
            exact firsts_inj this
        · rw [upd_other _ _ hpj]
          exact h4
    · intro p w v a hp hl
      obtain ⟨h1, h2⟩ := h.slot p w v a hp hl
      refine ⟨h1, ?_⟩
      by_cases hpj : p % 8 = j
      · rw [hpj] at h2 ⊢
        rcases hi with hi | hi
        · exact .inl hi
        · exact .inr (.inl hi)
      · rw [upd_other _ _ hpj]
        exact h2
  unfold contN
  split
  · rename_i hw
    exact hidle (.inl hw)
  · rename_i w' hw
    split
    · rename_i hs
      exact hidle (.inr hs)
    · rename_i hs
      obtain ⟨p, w, v, a, hp, hl, hpj⟩ := hcall w' hw
      obtain ⟨g1, g2⟩ := h.slot p w v a hp hl
      rw [hpj] at g1 g2
      rcases g2 with g2 | g2 | ⟨g2, g3, k, g4, g5, g6, g7⟩
      · rw [hw] at g2; cases g2
      · exact absurd g2 hs
      · rw [hw] at g2
        cases g2
        have hwok := (h.any p w' v a hp).1
        dsimp only
        rw [g1, g5, g3]
        have hplt : p < s.calls.length := (List.getElem?_eq_some_iff.1 hp).1
        obtain ⟨f1, f2, f3⟩ := fill_spec C p v hwok N (b * N) k s.out g6 hN
        have f4 := fill_sound C p w' v N (b * N) (k * w'.channels) s.out h.sound
        generalize fill C p w' v N (b * N) (k * w'.channels) s.out = r at f1 f2 f3 f4 ⊢
        rw [← he, ← g7] at f1
        have hpl : ∀ q, (r.1.log.filter fun e => e.1 = q).map (·.2) = if q = p then firsts a w'.channels (k + min N (frames w' - k)) else played s q := by
          intro q
          rw [played_append s r.1 q p _ _ f1]
          split
          · rename_i e
            rw [e, g4, firsts_append]
          · rfl
        have hedge : N < frames w' - k → a + (k + min N (frames w' - k)) = (b + 1) * N := by
          intro hlt
          rw [Nat.min_eq_left (by omega), Nat.succ_mul]
          omega
        have hend : ¬ N < frames w' - k → k + min N (frames w' - k) = frames w' := by omega
        have hone : ∀ q, q < s.calls.length → q ≠ p → s.calls.length ≤ q + 8 → q % 8 ≠ j := by omega
        refine ⟨f2.trans h.ok, h.counter, ?_, ?_, ?_, ?_, ?_, f4⟩
        · intro e hm
          dsimp only at hm
          rw [f1] at hm
          rcases List.mem_append.1 hm with hm | hm
          · exact h.ids e hm
          · obtain ⟨i, _, rfl⟩ := List.mem_map.1 hm
            exact hplt
        · intro q hq
          dsimp only at hq ⊢
          by_cases hqj : q = j
          · subst hqj
            have := h.unused q hq
            rw [hw] at this
            cases this
          · rw [upd_other _ _ hqj]
            exact h.unused q hq
        · intro q w2 v2 a2 hq
          dsimp only at hq
          have hqlt : q < s.calls.length := (List.getElem?_eq_some_iff.1 hq).1
          by_cases hqp : q = p
          · subst hqp
            rw [hp] at hq
            cases hq
            refine ⟨hwok, _, (hpl q).trans (if_pos rfl), ?_, ?_, ?_⟩
            · have := hN
              omega
            · omega
            · by_cases hlt : N < frames w' - k
              · right; right; right
                rw [hpj, upd_same]
                exact hedge hlt
              · exact .inl (hend hlt)
          · obtain ⟨h0, k2, h1, h2, h3, h4⟩ := h.any q w2 v2 a2 hq
            refine ⟨h0, k2, ((hpl q).trans (if_neg hqp)).trans h1, h2, h3, ?_⟩
            by_cases hold : q + 8 < s.calls.length
            · exact .inr (.inr (.inl hold))
            · rw [upd_other _ _ (hone q hqlt hqp (by omega))]
              exact h4
        · intro q w2 v2 a2 hq hql
          dsimp only at hq hql ⊢
          have hqlt : q < s.calls.length := (List.getElem?_eq_some_iff.1 hq).1
          by_cases hqp : q = p
          · subst hqp
            rw [hp] at hq
            cases hq
            rw [hpj, upd_same, upd_same, f3]
            by_cases hlt : N < frames w' - k
            · rw [if_pos hlt]
              refine ⟨rfl, .inr (.inr ⟨hw, rfl, _, (hpl q).trans (if_pos rfl), ?_, ?_, hedge hlt⟩)⟩
              · rw [Nat.min_eq_left (by omega)]
              · omega
            · rw [if_neg hlt]
              exact ⟨rfl, .inl rfl⟩
          · have hqj := hone q hqlt hqp hql
            rw [upd_other _ _ hqj, upd_other _ _ hqj]
            obtain ⟨h1, h2⟩ := h.slot q w2 v2 a2 hq hql
            refine ⟨h1, ?_⟩
            rcases h2 with h2 | h2 | ⟨h2, h3, k2, h4, h5⟩
            · exact .inl h2
            · exact .inr (.inl h2)
            · exact .inr (.inr ⟨h2, h3, k2, ((hpl q).trans (if_neg hqp)).trans h4, h5⟩)
        · intro q w2 v2 a2 hq hql hsil hno
          dsimp only at hq hql hno
          have hqlt : q < s.calls.length := (List.getElem?_eq_some_iff.1 hq).1
          by_cases hqp : q = p
          · subst hqp
            rw [hp] at hq
            cases hq
            refine ((hpl q).trans (if_pos rfl)).trans ?_
            rw [hpj, upd_same, f3] at hno
            by_cases hlt : N < frames w' - k
            · rw [if_pos hlt] at hno
              dsimp only at hno
              rw [hw, hsil] at hno
              rcases hno with hno | hno <;> cases hno
            · rw [hend hlt]
          · have hqj := hone q hqlt hqp hql
            rw [upd_other _ _ hqj] at hno
            exact ((hpl q).trans (if_neg hqp)).trans (h.ended q w2 v2 a2 hq hql hsil hno)

theorem inv_slot {C : Config Vol} {edge : Nat → Nat} {s : State Vol} (h : Inv C edge s) {b j : Nat} (hj : j < 8) (he : edge j = b * SIZE) :
    Inv C (upd edge j ((b + 1) * SIZE)) (contSlot C b s j) := by
  rw [contSlot_eq]
  exact inv_slotN h size_pos hj he

theorem Inv.congr {C : Config Vol} {edge edge' : Nat → Nat} {s : State Vol} (h : Inv C edge s) (he : ∀ j, j < 8 → edge j = edge' j) : Inv C edge' s := by
  refine ⟨h.ok, h.counter, h.ids, h.unused, ?_, ?_, h.ended, h.sound⟩
  · intro p w v a hp
    rw [← he _ (by omega)]
    exact h.any p w v a hp
  · intro p w v a hp hl
    rw [← he _ (by omega)]
    exact h.slot p w v a hp hl

theorem inv_slots {C : Config Vol} {b : Nat} : ∀ (l : List Nat) (edge : Nat → Nat) (s : State Vol), Inv C edge s → l.Nodup → (∀ j ∈ l, j < 8) → (∀ j ∈ l, edge j = b * SIZE) →
    Inv C (fun j => if j ∈ l then (b + 1) * SIZE else edge j) (l.foldl (contSlot C b) s) := by
  intro l
  induction l with
  | nil => intro edge s h _ _ _; simpa using h
  | cons i l ih =>
    intro edge s h hn hb he
    have hn' := List.nodup_cons.1 hn
    have h1 := inv_slot h (b := b) (hb i List.mem_cons_self) (he i List.mem_cons_self)
    have h2 := ih _ _ h1 hn'.2 (fun j hj => hb j (List.mem_cons_of_mem _ hj)) (by
      intro j hj
      rw [upd_other _ _ (by rintro rfl; exact hn'.1 hj)]
      exact he j (List.mem_cons_of_mem _ hj))
    rw [List.foldl_cons]
    refine h2.congr ?_
    intro j _
    by_cases hji : j = i
    · subst hji
      simp [hn'.1, upd]
    · simp [hji, upd]

/-- The sample after the current buffer. -/
def endOf : Option Nat → Nat
  | none => 0
  | some b => (b + 1) * SIZE

theorem inv_callback {C : Config Vol} {s : State Vol} (h : Inv C (fun _ => endOf s.buf) s) : Inv C (fun _ => endOf (callbackMac C s).buf) (callbackMac C s) := by
  have hslot : ∀ (b : Nat) (s : State Vol) (l : List Nat), (l.foldl (contSlot C b) s).buf = s.buf := by
    intro b s l
    induction l generalizing s with
    | nil => rfl
    | cons i l ih =>
      rw [List.foldl_cons, ih]
      unfold contSlot
      split
      · rfl
      · split <;> rfl
  unfold callbackMac
  dsimp only
  generalize hb : following s.buf = b
  have he : endOf s.buf = b * SIZE := by
    rw [← hb]
    cases s.buf with
    | none => exact (Nat.zero_mul _).symm
    | some b => rfl
  have hbuf : (contAll C b { s with buf := some b, start := s.start + DURATION }).buf = some b := hslot _ _ _
  rw [hbuf]
  refine (inv_slots (List.range 8) (fun _ => endOf s.buf) { s with buf := some b, start := s.start + DURATION } ⟨h.ok, h.counter, h.ids, h.unused, h.any, h.slot, h.ended, h.sound⟩ (by decide) (by decide) (fun j _ => he)).congr ?_
  intro j hj
  rw [if_pos (List.mem_range.2 hj)]
  rfl

theorem inv_playN {C : Config Vol} {N e : Nat} {s : State Vol} {b : Nat} {w : Wave} {v : Vol} {t : Int} (h : Inv C (fun _ => e) s) (hw : w.Ok) (hb : e = (b + 1) * N) (hi : index s t < N) :
    Inv C (fun _ => e) (playN C N s b w v t) := by
  have hlen : w.length > 0 := by have := hw.1; have := hw.2.1; omega
  unfold playN
  dsimp only
  rw [if_pos hlen]
  generalize index s t = i at hi
  obtain ⟨f1, f2, f3⟩ := fill_spec C s.calls.length v hw (N - i) (b * N + i) 0 s.out (frames_pos w) (by omega)
  have f4 := fill_sound C s.calls.length w v (N - i) (b * N + i) 0 s.out h.sound
  rw [Nat.zero_mul] at f1 f2 f3
  generalize fill C s.calls.length w v (N - i) (b * N + i) 0 s.out = r at f1 f2 f3 f4 ⊢
  rw [Nat.sub_zero] at f1 f3
  have hF := frames_pos w
  have hnone : played s s.calls.length = [] := by
    unfold played
    rw [List.filter_eq_nil_iff.2, List.map_nil]
    intro e he hc
    have := h.ids e he
    simp at hc
    omega
  have hpl : ∀ q, (r.1.log.filter fun e => e.1 = q).map (·.2) = if q = s.calls.length then firsts (b * N + i) w.channels (min (N - i) (frames w)) else played s q := by
    intro q
    rw [played_append s r.1 q s.calls.length _ _ f1]
    split
    · rename_i e
      rw [e, hnone]
      simp [firsts]
    · rfl
  have hedge : N - i < frames w → (b * N + i) + min (N - i) (frames w) = e := by
    intro hlt
    rw [hb, Nat.min_eq_left (by omega)]
    rw [Nat.succ_mul]
    omega
  have hend : ¬ N - i < frames w → min (N - i) (frames w) = frames w := by omega
  have hcnt := h.counter
  have hget : ∀ (q : Nat) (x : Wave × Vol × Nat), (s.calls ++ [(w, v, b * N + i)])[q]? = some x → q < s.calls.length ∧ s.calls[q]? = some x ∨ q = s.calls.length ∧ x = (w, v, b * N + i) := by
    intro q x hq
    rcases Nat.lt_trichotomy q s.calls.length with hlt | heq | hgt
    · rw [List.getElem?_append_left hlt] at hq
      exact .inl ⟨hlt, hq⟩
    · subst heq
      rw [List.getElem?_append_right (Nat.le_refl _), Nat.sub_self] at hq
      exact .inr ⟨rfl, (Option.some.inj hq).symm⟩
    · rw [List.getElem?_append_right (by omega), show q - s.calls.length = (q - s.calls.length - 1) + 1 by omega] at hq
      cases hq
  have hll : (s.calls ++ [(w, v, b * N + i)]).length = s.calls.length + 1 := by simp
  refine ⟨f2.trans h.ok, ?_, ?_, ?_, ?_, ?_, ?_, f4⟩
  · dsimp only
    rw [hll]
    split <;> omega
  · intro e hm
    dsimp only at hm ⊢
    rw [f1] at hm
    rw [hll]
    rcases List.mem_append.1 hm with hm | hm
    · have := h.ids e hm
      omega
    · obtain ⟨i, _, rfl⟩ := List.mem_map.1 hm
      exact Nat.lt_succ_self _
  · intro q hq
    dsimp only at hq ⊢
    rw [hll] at hq
    rw [upd_other _ _ (by omega)]
    exact h.unused q (by omega)
  · intro q w2 v2 a2 hq
    dsimp only at hq ⊢
    rcases hget q _ hq with ⟨hlt, hq⟩ | ⟨rfl, hx⟩
    · obtain ⟨h0, k2, h1, h2, h3, h4⟩ := h.any q w2 v2 a2 hq
      refine ⟨h0, k2, ((hpl q).trans (if_neg (by omega))).trans h1, h2, h3, ?_⟩
      rw [hll]
      rcases h4 with h4 | h4 | h4 | h4
      · exact .inl h4
      · exact .inr (.inl h4)
      · exact .inr (.inr (.inl (by omega)))
      · exact .inr (.inr (.inr h4))
    · cases hx
      refine ⟨hw, _, (hpl _).trans (if_pos rfl), by omega, by omega, ?_⟩
      by_cases hlt : N - i < frames w
      · exact .inr (.inr (.inr (hedge hlt)))
      · exact .inl (hend hlt)
  · intro q w2 v2 a2 hq hql
    dsimp only at hq hql ⊢
    rw [hll] at hql
    rcases hget q _ hq with ⟨hlt, hq⟩ | ⟨rfl, hx⟩
    · rw [upd_other _ _ (by omega)]
      obtain ⟨h1, h2⟩ := h.slot q w2 v2 a2 hq (by omega)
      refine ⟨h1, ?_⟩
      rcases h2 with h2 | h2 | ⟨h2, h3, k2, h4, h5⟩
      · exact .inl h2
      · exact .inr (.inl h2)
      · exact .inr (.inr ⟨h2, h3, k2, ((hpl q).trans (if_neg (by omega))).trans h4, h5⟩)
    · cases hx
      rw [hcnt, upd_same, f3]
      by_cases hlt : N - i < frames w
      · rw [if_pos hlt]
        refine ⟨rfl, .inr (.inr ⟨rfl, rfl, _, (hpl _).trans (if_pos rfl), ?_, by omega, hedge hlt⟩)⟩
        dsimp only
        rw [Nat.min_eq_left (by omega), Nat.zero_add]
      · rw [if_neg hlt]
        exact ⟨rfl, .inr (.inl C.zero_silent)⟩
  · intro q w2 v2 a2 hq hql hsil hno
    dsimp only at hq hql hno
    rw [hll] at hql
    rcases hget q _ hq with ⟨hlt, hq⟩ | ⟨rfl, hx⟩
    · rw [upd_other _ _ (by omega)] at hno
      exact ((hpl q).trans (if_neg (by omega))).trans (h.ended q w2 v2 a2 hq (by omega) hsil hno)
    · cases hx
      refine ((hpl _).trans (if_pos rfl)).trans ?_
      rw [hcnt, upd_same, f3] at hno
      by_cases hlt : N - i < frames w
      · rw [if_pos hlt] at hno
        dsimp only at hno
        rw [hsil] at hno
        rcases hno with hno | hno <;> cases hno
      · rw [hend hlt]

theorem inv_play {C : Config Vol} {s : State Vol} {b : Nat} {w : Wave} {v : Vol} {t : Int} (h : Inv C (fun _ => endOf s.buf) s) (hw : w.Ok) (hb : s.buf = some b) (hi : index s t < SIZE) :
    Inv C (fun _ => endOf (play C s b w v t).buf) (play C s b w v t) := by
  have h1 : (play C s b w v t).buf = s.buf := by
    unfold play
    dsimp only
    split <;> rfl
  rw [h1, play_eq]
  exact inv_playN h hw (by rw [hb]; rfl) hi

theorem inv_tick {C : Config Vol} {s : State Vol} {b : Nat} {v : Vol} {t : Int} (h : Inv C (fun _ => endOf s.buf) s) : Inv C (fun _ => endOf (tick C s b v t).buf) (tick C s b v t) := by
  refine ⟨h.ok, h.counter, h.ids, h.unused, h.any, h.slot, h.ended, ?_⟩
  intro i
  unfold tick add upd
  dsimp only
  split
  · exact clamp_range _
  · exact h.sound i

theorem inv_reach {C : Config Vol} {t0 : Int} {s : State Vol} (h : ReachMac C t0 s) : Inv C (fun _ => endOf s.buf) s := by
  induction h with
  | init =>
    refine ⟨rfl, rfl, ?_, fun _ _ => rfl, ?_, ?_, ?_, ?_⟩
    · intro e he; cases he
    · intro p w v a hp; cases hp
    · intro p w v a hp; cases hp
    · intro p w v a hp; cases hp
    · intro i
      show -MAX ≤ 0 ∧ 0 ≤ MAX
      decide
  | callback _ ih => exact inv_callback ih
  | play w v t _ hw hb hi ih => exact inv_play ih hw hb hi
  | tick v t _ _ _ ih => exact inv_tick ih

end ReactorC.Audio
