import Verif.Sensor.Spec

namespace ReactorC.Sensor
open ReactorC.Printing (Text render)

inductive Reach (w : Size) : State → Prop
  | start : Reach w initial
  | step {s s'} : Reach w s → Step w s s' → Reach w s'

/-- The nodes `l` form the list that begins with `p`. -/
def IsList (h : Nat → Node) : Option Nat → List Nat → Prop
  | p, [] => p = none
  | p, i :: l => p = some i ∧ IsList h (h i).next l

theorem IsList.congr {h h' : Nat → Node} {l : List Nat} {p : Option Nat} (H : IsList h p l) (e : ∀ i ∈ l, (h' i).next = (h i).next) : IsList h' p l := by
  induction l generalizing p with
  | nil => exact H
  | cons i l ih =>
    obtain ⟨h1, h2⟩ := H
    refine ⟨h1, ?_⟩
    rw [e i (by simp)]
    exact ih h2 fun j hj => e j (by simp [hj])

theorem last_eq {h : Nat → Node} {l : List Nat} {i n : Nat} (H : IsList h (some i) (i :: l)) (hn : l.length ≤ n) :
    last h n i = (i :: l).getLast (by simp) := by
  induction l generalizing i n with
  | nil =>
    have : (h i).next = none := H.2
    cases n with
    | zero => rfl
    | succ n => simp [last, this]
  | cons j l ih =>
    have hj : (h i).next = some j := H.2.1
    cases n with
    | zero => simp at hn
    | succ n =>
      simp only [last, hj]
      rw [ih ⟨rfl, H.2.2⟩ (by simpa using hn)]
      simp

theorem IsList.append {h : Nat → Node} {l : List Nat} {p : Option Nat} {i : Nat} (H : IsList h p l) (hne : l ≠ []) (nd : l.Nodup) (hi : i ∉ l) (hin : (h i).next = none) :
    IsList (upd h (l.getLast hne) { h (l.getLast hne) with next := some i }) p (l ++ [i]) := by
  induction l generalizing p with
  | nil => exact absurd rfl hne
  | cons j l ih =>
    obtain ⟨h1, h2⟩ := H
    refine ⟨h1, ?_⟩
    cases l with
    | nil =>
      have : j ≠ i := by simpa [eq_comm] using hi
      refine ⟨by simp [upd], ?_⟩
      have e : (upd h ([j].getLast hne) { h ([j].getLast hne) with next := some i } i).next = (h i).next := by
        simp [upd, Ne.symm this]
      rw [e]; exact hin
    | cons k l =>
      have hl : (j :: k :: l).getLast hne = (k :: l).getLast (by simp) := by simp
      have nj : j ≠ (k :: l).getLast (by simp) := by
        intro e
        have := List.getLast_mem (l := k :: l) (by simp)
        rw [← e] at this
        exact (List.nodup_cons.1 nd).1 this
      rw [hl]
      have hx : (upd h ((k :: l).getLast (by simp)) { h ((k :: l).getLast (by simp)) with next := some i } j).next = (h j).next := by
        simp [upd, nj]
      rw [hx]
      exact ih h2 (by simp) (List.nodup_cons.1 nd).2 (fun hm => hi (List.mem_cons_of_mem _ hm))

/-- What a node says. -/
def item (h : Nat → Node) (i : Nat) : Kind × Text := ((h i).kind, (h i).body)

structure Inv (w : Size) (s : State) : Prop where
  ex : ∃ l r, IsList s.heap s.queue l ∧ IsList s.heap s.recycle r ∧ (l ++ r).Nodup ∧ (∀ i, i ∈ l ++ r ↔ i < s.size) ∧
    s.posted = s.posted.take s.screen.length ++ l.map (item s.heap) ∧ l.length = s.posted.length - s.screen.length
  len : s.screen.length ≤ s.posted.length
  shown : s.screen.map (fun e => (e.1, e.2.1)) = (s.posted.take s.screen.length).map fun e => (e.1, render e.2 [])
  open' : ∀ e ∈ s.posted.take s.screen.length, e.1 ≠ .close
  closed : s.closed = true → ∃ b, s.posted[s.screen.length]? = some (.close, b)
  freed : s.freed = (s.screen.filter (·.1 = .message)).length

theorem inv_initial (w : Size) : Inv w initial := by
  refine ⟨⟨[], [], rfl, rfl, by simp, by simp [initial], by simp [initial], by simp [initial]⟩, ?_, ?_, ?_, ?_, ?_⟩ <;> simp [initial]

theorem nodup_size {l : List Nat} {n : Nat} (nd : l.Nodup) (h : ∀ i, i ∈ l ↔ i < n) : l.length = n := by
  have : l.Perm (List.range n) := (List.perm_ext_iff_of_nodup nd List.nodup_range).2 (by simpa using h)
  simpa using this.length_eq

/-- The first part of `post`: a node is taken. -/
def newNode (s : State) : Nat × State :=
  match s.recycle with
  | none => (s.size, { s with size := s.size + 1 })
  | some r => (r, { s with recycle := (s.heap r).next })

/-- The second part: the node is put at the end. -/
def link (i : Nat) (k : Kind) (body : Text) (s : State) : State :=
  let heap := upd s.heap i ⟨k, body, none⟩
  match s.queue with
  | none => { s with posted := s.posted ++ [(k, body)], heap := heap, queue := some i }
  | some q => { s with posted := s.posted ++ [(k, body)], heap := upd heap (last heap s.size q) { heap (last heap s.size q) with next := some i } }

theorem post_eq (s : State) (k : Kind) (b : Text) : post s k b = link (newNode s).1 k b (newNode s).2 := by
  unfold post newNode link
  cases s.recycle <;> rfl

/-- The state of the queues with the node `i` taken from the free ones. -/
theorem newNode_spec {s : State} {l r : List Nat} (_hl : IsList s.heap s.queue l) (hr : IsList s.heap s.recycle r) (nd : (l ++ r).Nodup) (hm : ∀ i, i ∈ l ++ r ↔ i < s.size) :
    ∃ r', IsList s.heap (newNode s).2.recycle r' ∧ (l ++ (newNode s).1 :: r').Nodup ∧ (∀ i, i ∈ l ++ (newNode s).1 :: r' ↔ i < (newNode s).2.size) ∧
      (newNode s).2 = { s with recycle := (newNode s).2.recycle, size := (newNode s).2.size } := by
  unfold newNode
  cases r with
  | nil =>
    have : s.recycle = none := hr
    rw [this]
    refine ⟨[], rfl, ?_, ?_, by dsimp only⟩
    · rw [List.nodup_append]
      refine ⟨by simpa using nd, by simp, ?_⟩
      intro a ha b hb
      have h1 : a < s.size := (hm a).1 (by simpa using ha)
      simp only [List.mem_singleton] at hb
      omega
    · intro i
      have := hm i
      simp only [List.append_nil] at this
      simp only [List.mem_append, List.mem_singleton, this]
      omega
  | cons j r =>
    obtain ⟨h1, h2⟩ := hr
    rw [h1]
    exact ⟨r, h2, nd, hm, by dsimp only⟩

theorem map_item_congr {h h' : Nat → Node} {l : List Nat} (e : ∀ i ∈ l, (h' i).kind = (h i).kind ∧ (h' i).body = (h i).body) : l.map (item h') = l.map (item h) := by
  apply List.map_congr_left
  intro i hi
  obtain ⟨a, b⟩ := e i hi
  simp [item, a, b]

theorem link_spec {s : State} {l r : List Nat} {i : Nat} (k : Kind) (b : Text) (hl : IsList s.heap s.queue l) (hr : IsList s.heap s.recycle r) (nd : (l ++ i :: r).Nodup)
    (hs : l.length ≤ s.size) :
    IsList (link i k b s).heap (link i k b s).queue (l ++ [i]) ∧ IsList (link i k b s).heap s.recycle r ∧
      (l ++ [i]).map (item (link i k b s).heap) = l.map (item s.heap) ++ [(k, b)] ∧
      link i k b s = { s with posted := s.posted ++ [(k, b)], heap := (link i k b s).heap, queue := (link i k b s).queue } := by
  rw [List.nodup_append] at nd
  obtain ⟨nl, nir, dis⟩ := nd
  have hil : i ∉ l := fun h => dis i h i (by simp) rfl
  have hir : i ∉ r := (List.nodup_cons.1 nir).1
  have hlr : ∀ a ∈ l, a ∉ r := fun a ha hb => dis a ha a (by simp [hb]) rfl
  have hn : ∀ {j}, j ≠ i → upd s.heap i ⟨k, b, none⟩ j = s.heap j := fun h => by simp [upd, h]
  have hii : upd s.heap i ⟨k, b, none⟩ i = ⟨k, b, none⟩ := by simp [upd]
  have hl' : IsList (upd s.heap i ⟨k, b, none⟩) s.queue l := hl.congr fun j hj => by rw [hn (fun e => hil (e ▸ hj))]
  have hr' : IsList (upd s.heap i ⟨k, b, none⟩) s.recycle r := hr.congr fun j hj => by rw [hn (fun e => hir (e ▸ hj))]
  have hmap : l.map (item (upd s.heap i ⟨k, b, none⟩)) = l.map (item s.heap) := map_item_congr fun j hj => by rw [hn (fun e => hil (e ▸ hj))]; exact ⟨rfl, rfl⟩
  unfold link
  cases l with
  | nil =>
    have hq : s.queue = none := hl
    rw [hq]
    dsimp only
    refine ⟨⟨rfl, ?_⟩, hr', ?_, rfl⟩
    · rw [hii]; rfl
    · simp [item, hii]
  | cons q l =>
    have hq : s.queue = some q := hl.1
    rw [hq] at hl' ⊢
    dsimp only
    rw [last_eq hl' (by simp at hs; omega)]
    generalize hg : (q :: l).getLast (by simp) = t
    have ht : t ∈ q :: l := hg ▸ List.getLast_mem (by simp)
    refine ⟨?_, ?_, ?_, rfl⟩
    · have := hl'.append (i := i) (by simp) nl hil (by rw [hii])
      rw [hg] at this
      exact this
    · refine hr'.congr fun j hj => ?_
      have : j ≠ t := fun e => hlr t ht (e ▸ hj)
      simp [upd, this]
    · rw [List.map_append, ← hmap]
      congr 1
      · refine map_item_congr fun j _ => ?_
        unfold upd
        by_cases e : j = t <;> simp [e]
      · have : i ≠ t := fun e => hil (e ▸ ht)
        simp [item, upd, this]

theorem inv_post {w : Size} {s : State} (h : Inv w s) (k : Kind) (b : Text) : Inv w (post s k b) ∧ (post s k b).screen = s.screen ∧ (post s k b).posted = s.posted ++ [(k, b)] ∧
    (post s k b).size = max s.size (s.posted.length - s.screen.length + 1) ∧ (post s k b).tickX = s.tickX ∧ (post s k b).tickY = s.tickY ∧ (post s k b).printY = s.printY ∧ (post s k b).closed = s.closed := by
  obtain ⟨l, r, hl, hr, nd, hm, hp, hlen⟩ := h.ex
  have hsz : l.length + r.length = s.size := by rw [← nodup_size nd hm, List.length_append]
  obtain ⟨r', g1, g2, g3, g4⟩ := newNode_spec hl hr nd hm
  have hsz' : l.length + r'.length + 1 = (newNode s).2.size := by rw [← nodup_size g2 g3]; simp; omega
  have hsize : (newNode s).2.size = max s.size (s.posted.length - s.screen.length + 1) := by
    rw [← hlen]
    have hcase : (newNode s).2.size = if r = [] then s.size + 1 else s.size := by
      unfold newNode
      cases r with
      | nil => have : s.recycle = none := hr
               rw [this]; simp
      | cons j r => rw [hr.1]; simp
    rw [hcase]
    cases r with
    | nil => simp at hsz ⊢; omega
    | cons j r => simp at hsz ⊢; omega
  rw [post_eq]
  generalize newNode s = p at *
  obtain ⟨i, s1⟩ := p
  dsimp only at g1 g2 g3 g4 hsz' hsize ⊢
  have hq : s1.queue = s.queue := by rw [g4]
  have hh : s1.heap = s.heap := by rw [g4]
  obtain ⟨k1, k2, k3, k4⟩ := link_spec (s := s1) k b (hh ▸ hq ▸ hl) (hh ▸ g1) g2 (by omega)
  have e1 : (link i k b s1).screen = s.screen := by rw [k4, g4]
  have e2 : (link i k b s1).posted = s.posted ++ [(k, b)] := by rw [k4, g4]
  have e3 : (link i k b s1).recycle = s1.recycle := by rw [k4]
  have e4 : (link i k b s1).size = s1.size := by rw [k4]
  have e5 : (link i k b s1).closed = s.closed := by rw [k4, g4]
  have e6 : (link i k b s1).freed = s.freed := by rw [k4, g4]
  have htake : (s.posted ++ [(k, b)]).take s.screen.length = s.posted.take s.screen.length := by
    rw [List.take_append_of_le_length h.len]
  refine ⟨⟨⟨l ++ [i], r', k1, e3 ▸ k2, ?_, ?_, ?_, ?_⟩, ?_, ?_, ?_, ?_, ?_⟩, e1, e2, ?_, ?_, ?_, ?_, e5⟩
  · simpa using g2
  · rw [e4]; simpa using g3
  · rw [e1, e2, htake, k3, hh, ← List.append_assoc, ← hp]
  · rw [e1, e2]; have := h.len; simp; omega
  · rw [e1, e2]; have := h.len; simp; omega
  · rw [e1, e2, htake]; exact h.shown
  · rw [e1, e2, htake]; exact h.open'
  · rw [e1, e2, e5]
    intro hc
    obtain ⟨b', hb⟩ := h.closed hc
    refine ⟨b', ?_⟩
    rw [List.getElem?_append_left]
    · exact hb
    · exact (List.getElem?_eq_some_iff.1 hb).1
  · rw [e6, e1]; exact h.freed
  · rw [e4, hsize]
  · rw [k4, g4]
  · rw [k4, g4]
  · rw [k4, g4]

theorem inv_recycle {w : Size} {s : State} {q : Nat} (h : Inv w s) (hq : s.queue = some q) {s1 : State} {e : Kind × Option Text × Nat × Nat}
    (hs : s1.heap = s.heap ∧ s1.size = s.size ∧ s1.queue = s.queue ∧ s1.recycle = s.recycle ∧ s1.posted = s.posted ∧ s1.closed = s.closed)
    (hc : s.closed = false) (hscr : s1.screen = s.screen ++ [e]) (he : (e.1, e.2.1) = ((s.heap q).kind, render (s.heap q).body [])) (hk : (s.heap q).kind ≠ .close)
    (hf : s1.freed = s.freed + if (s.heap q).kind = .message then 1 else 0) : Inv w (recycleFirst s1 q) := by
  obtain ⟨a1, a2, a3, a4, a5, a6⟩ := hs
  obtain ⟨l, r, hl, hr, nd, hm, hp, hlen⟩ := h.ex
  cases l with
  | nil => rw [hq] at hl; cases hl
  | cons q' l =>
    obtain ⟨b1, b2⟩ := hl
    obtain rfl : q = q' := by rw [hq] at b1; simpa using b1
    have hnd := nd
    rw [List.nodup_append] at nd
    obtain ⟨nl, nr, dis⟩ := nd
    have hql : q ∉ l := (List.nodup_cons.1 nl).1
    have hqr : q ∉ r := fun hx => dis q (by simp) q hx rfl
    have hup : ∀ {j} (v : Node), j ≠ q → upd s.heap q v j = s.heap j := fun v h => by simp [upd, h]
    have hpos : s.posted[s.screen.length]? = some (item s.heap q) := by
      have hx := h.len
      rw [hp, List.getElem?_append_right (by rw [List.length_take]; omega), List.length_take, Nat.min_eq_left hx]
      simp
    have hlt : s.screen.length < s.posted.length := (List.getElem?_eq_some_iff.1 hpos).1
    have htake : s.posted.take (s.screen.length + 1) = s.posted.take s.screen.length ++ [item s.heap q] := by
      rw [List.take_add_one, hpos]; rfl
    unfold recycleFirst
    refine ⟨⟨l, q :: r, ?_, ?_, ?_, ?_, ?_, ?_⟩, ?_, ?_, ?_, ?_, ?_⟩
    · dsimp only; rw [a1]
      exact b2.congr fun j hj => by rw [hup _ (fun e => hql (e ▸ hj))]
    · dsimp only; rw [a1, a4]
      refine ⟨rfl, ?_⟩
      have : (upd s.heap q { s.heap q with next := s.recycle } q).next = s.recycle := by simp [upd]
      rw [this]
      exact hr.congr fun j hj => by rw [hup _ (fun e => hqr (e ▸ hj))]
    · have : (l ++ q :: r).Perm (q :: l ++ r) := by simpa using List.perm_middle
      exact this.nodup_iff.2 hnd
    · dsimp only; rw [a2]
      intro i
      rw [← hm i]; simp only [List.mem_append, List.mem_cons]; tauto
    · dsimp only
      rw [a5, hscr, a1]
      have : l.map (item (upd s.heap q { s.heap q with next := s.recycle })) = l.map (item s.heap) := map_item_congr fun j hj => by rw [hup _ (fun e => hql (e ▸ hj))]; exact ⟨rfl, rfl⟩
      rw [a4, this]
      simp only [List.length_append, List.length_singleton]
      rw [htake]
      simpa using hp
    · dsimp only; rw [a5, hscr]; simp at hlen ⊢; omega
    · dsimp only; rw [a5, hscr, List.length_append, List.length_singleton]; omega
    · dsimp only; rw [a5, hscr]
      simp only [List.length_append, List.length_singleton, List.map_append, List.map_cons, List.map_nil]
      rw [htake, h.shown, he]
      simp [item]
    · dsimp only; rw [a5, hscr]
      simp only [List.length_append, List.length_singleton]
      rw [htake]
      intro x hx
      rcases List.mem_append.1 hx with hx | hx
      · exact h.open' x hx
      · simp only [List.mem_singleton] at hx; subst hx; exact hk
    · dsimp only; rw [a6, hc]; simp
    · dsimp only; rw [hf, hscr, h.freed]
      have : e.1 = (s.heap q).kind := congrArg Prod.fst he
      rw [List.filter_append, List.length_append]
      by_cases hx : (s.heap q).kind = .message <;> simp [hx, this]

theorem queue_first {w : Size} {s : State} {q : Nat} (h : Inv w s) (hq : s.queue = some q) : s.posted[s.screen.length]? = some (item s.heap q) := by
  obtain ⟨l, r, hl, hr, nd, hm, hp, hlen⟩ := h.ex
  cases l with
  | nil => rw [hq] at hl; cases hl
  | cons q' l =>
    obtain ⟨b1, b2⟩ := hl
    obtain rfl : q = q' := by rw [hq] at b1; simpa using b1
    have hx := h.len
    rw [hp, List.getElem?_append_right (by rw [List.length_take]; omega), List.length_take, Nat.min_eq_left hx]
    simp

theorem inv_show {w : Size} {s s' : State} (h : Inv w s) (hc : s.closed = false) (hs : showNext w s = some s') : Inv w s' := by
  unfold showNext at hs
  cases hq : s.queue with
  | none => rw [hq] at hs; cases hs
  | some q =>
    rw [hq] at hs
    dsimp only at hs
    cases hk : (s.heap q).kind with
    | close =>
      rw [hk] at hs
      simp only [Option.some.injEq] at hs
      subst hs
      have hex := h.ex
      rw [hq] at hex
      refine ⟨hex, h.len, h.shown, h.open', fun _ => ?_, h.freed⟩
      exact ⟨(s.heap q).body, by rw [queue_first h hq, item, hk]⟩
    | tick =>
      rw [hk] at hs
      simp only [Option.some.injEq] at hs
      subst hs
      exact inv_recycle h hq ⟨rfl, rfl, hq.symm, rfl, rfl, rfl⟩ hc rfl (by rw [hk]) (by rw [hk]; decide) (by rw [hk]; rfl)
    | message =>
      rw [hk] at hs
      simp only [Option.some.injEq] at hs
      subst hs
      exact inv_recycle h hq ⟨rfl, rfl, hq.symm, rfl, rfl, rfl⟩ hc rfl (by rw [hk]) (by rw [hk]; decide) (by rw [hk]; rfl)

theorem Reach.inv {w : Size} {s : State} (h : Reach w s) : Inv w s := by
  induction h with
  | start => exact inv_initial w
  | step _ hs ih =>
    cases hs with
    | post k b => exact (inv_post ih k b).1
    | «show» hc hs => exact inv_show ih hc hs

/-- Where things are printed. -/
structure Inside (w : Size) (s : State) : Prop where
  x : 1 ≤ s.tickX ∧ s.tickX + 2 ≤ w.tickW
  y : 1 ≤ s.tickY ∧ s.tickY + 2 ≤ w.tickH
  print : s.printY = 0 ∨ s.printY + 1 < w.printH
  ticks : ∀ t y x, (Kind.tick, t, y, x) ∈ s.screen → 1 ≤ x ∧ x + 2 ≤ w.tickW ∧ 1 ≤ y ∧ y + 2 ≤ w.tickH
  messages : ∀ t y x, (Kind.message, t, y, x) ∈ s.screen → x = 0 ∧ (y = 0 ∨ y + 1 < w.printH)

theorem Reach.inside {w : Size} {s : State} (h : Reach w s) (hw : 3 ≤ w.tickW) (hh : 3 ≤ w.tickH) : Inside w s := by
  induction h with
  | start => refine ⟨?_, ?_, ?_, ?_, ?_⟩ <;> simp [initial] <;> omega
  | @step s s' hr hs ih =>
    cases hs with
    | post k b =>
      obtain ⟨_, e1, _, _, e2, e3, e4, _⟩ := inv_post hr.inv k b
      exact ⟨by rw [e2]; exact ih.x, by rw [e3]; exact ih.y, by rw [e4]; exact ih.print, by rw [e1]; exact ih.ticks, by rw [e1]; exact ih.messages⟩
    | «show» hc hs =>
      unfold showNext at hs
      obtain ⟨⟨x1, x2⟩, ⟨y1, y2⟩, p, t, m⟩ := ih
      cases hq : s.queue with
      | none => rw [hq] at hs; cases hs
      | some q =>
        rw [hq] at hs
        dsimp only at hs
        cases hk : (s.heap q).kind with
        | close =>
          rw [hk] at hs
          simp only [Option.some.injEq] at hs
          subst hs
          exact ⟨⟨x1, x2⟩, ⟨y1, y2⟩, p, t, m⟩
        | tick =>
          rw [hk] at hs
          simp only [Option.some.injEq] at hs
          subst hs
          refine ⟨?_, ?_, p, ?_, ?_⟩
          · simp only [recycleFirst]; split <;> dsimp only <;> omega
          · simp only [recycleFirst]; split <;> dsimp only <;> split <;> omega
          · intro t' y x hx
            simp only [recycleFirst, List.mem_append, List.mem_singleton, Prod.mk.injEq] at hx
            rcases hx with hx | ⟨-, -, rfl, rfl⟩
            · exact t _ _ _ hx
            · omega
          · intro t' y x hx
            simp only [recycleFirst, List.mem_append, List.mem_singleton, Prod.mk.injEq] at hx
            rcases hx with hx | ⟨hx, -⟩
            · exact m _ _ _ hx
            · cases hx
        | message =>
          rw [hk] at hs
          simp only [Option.some.injEq] at hs
          subst hs
          refine ⟨⟨x1, x2⟩, ⟨y1, y2⟩, ?_, ?_, ?_⟩
          · simp only [recycleFirst]; split <;> omega
          · intro t' y x hx
            simp only [recycleFirst, List.mem_append, List.mem_singleton, Prod.mk.injEq] at hx
            rcases hx with hx | ⟨hx, -⟩
            · exact t _ _ _ hx
            · cases hx
          · intro t' y x hx
            simp only [recycleFirst, List.mem_append, List.mem_singleton, Prod.mk.injEq] at hx
            rcases hx with hx | ⟨-, -, rfl, rfl⟩
            · exact m _ _ _ hx
            · exact ⟨rfl, p⟩

/-! ## Keys -/
open Spec

/-- Registrations one after the other. -/
def registerAll (s : Keys) (l : List Registration) : Keys := l.foldl (fun s r => (registerKey s r.1 r.2).2) s

/-- The action that a state has for a key. -/
def Keys.get (s : Keys) (key : Int) : Option Nat :=
  if key = 10 then s.newline else if key = 0 then s.any else if 32 ≤ key ∧ key ≤ 127 then s.table (key - 32).toNat else none

theorem registerKey_code (s : Keys) (key : Int) (a : Option Nat) :
    (registerKey s key a).1 = if a = none then 3 else if ¬ Supported key then 2 else if (s.get key).isSome then 1 else 0 := by
  unfold registerKey
  cases a with
  | none => simp
  | some a =>
    dsimp only
    simp only [reduceCtorEq, if_false]
    by_cases h : Supported key
    · have hn : ¬ (key ≠ 10 ∧ key ≠ 0 ∧ (key - 32 < 0 ∨ key - 32 ≥ 96)) := by unfold Supported at h; omega
      rw [if_neg hn, if_neg (not_not.2 h)]
      unfold Keys.get
      by_cases h10 : key = 10
      · rw [if_pos h10, if_pos h10]; split <;> rfl
      · rw [if_neg h10, if_neg h10]
        by_cases h0 : key = 0
        · rw [if_pos h0, if_pos h0]; split <;> rfl
        · have hr : 32 ≤ key ∧ key ≤ 127 := by unfold Supported at h; omega
          rw [if_neg h0, if_neg h0, if_pos hr]; split <;> rfl
    · have hn : key ≠ 10 ∧ key ≠ 0 ∧ (key - 32 < 0 ∨ key - 32 ≥ 96) := by unfold Supported at h; omega
      rw [if_pos hn, if_pos h]

theorem registerKey_get (s : Keys) (key : Int) (a : Option Nat) (c : Int) :
    (registerKey s key a).2.get c = (s.get c).or (if key = c ∧ Supported c then a else none) := by
  cases a with
  | none => simp [registerKey]
  | some a =>
    unfold registerKey
    dsimp only
    by_cases h : Supported key
    · have hn : ¬ (key ≠ 10 ∧ key ≠ 0 ∧ (key - 32 < 0 ∨ key - 32 ≥ 96)) := by unfold Supported at h; omega
      rw [if_neg hn]
      by_cases h10 : key = 10
      · rw [if_pos h10]
        subst h10
        by_cases hc : c = 10
        · subst hc
          cases hx : s.newline <;> simp [Keys.get, hx, h]
        · have : ¬ ((10 : Int) = c ∧ Supported c) := fun x => hc x.1.symm
          rw [if_neg this]
          split <;> simp [Keys.get, hc]
      · rw [if_neg h10]
        by_cases h0 : key = 0
        · rw [if_pos h0]
          subst h0
          by_cases hc : c = 0
          · subst hc
            cases hx : s.any <;> simp [Keys.get, hx, h]
          · have : ¬ ((0 : Int) = c ∧ Supported c) := fun x => hc x.1.symm
            rw [if_neg this]
            split <;> simp [Keys.get, hc]
        · rw [if_neg h0]
          have hr : 32 ≤ key ∧ key ≤ 127 := by unfold Supported at h; omega
          by_cases hc : key = c
          · subst hc
            cases hx : s.table (key - 32).toNat <;> simp [Keys.get, hx, h10, h0, hr, upd, h]
          · have hkc : ¬ (key = c ∧ Supported c) := fun x => hc x.1
            rw [if_neg hkc]
            split
            · simp
            · simp only [Option.or_none]
              unfold Keys.get
              split
              · rfl
              · split
                · rfl
                · split
                  · dsimp only; unfold upd; rw [if_neg (by omega)]
                  · rfl
    · have hn : key ≠ 10 ∧ key ≠ 0 ∧ (key - 32 < 0 ∨ key - 32 ≥ 96) := by unfold Supported at h; omega
      rw [if_pos hn]
      have : ¬ (key = c ∧ Supported c) := by rintro ⟨rfl, hx⟩; exact h hx
      rw [if_neg this]; simp

theorem registerAll_get (s : Keys) (l : List Registration) (c : Int) : (registerAll s l).get c = (s.get c).or (actionFor l c) := by
  induction l generalizing s with
  | nil => simp [registerAll, actionFor]
  | cons r l ih =>
    have : registerAll s (r :: l) = registerAll (registerKey s r.1 r.2).2 l := rfl
    rw [this, ih, registerKey_get, Option.or_assoc]
    congr 1
    unfold actionFor
    rw [List.findSome?_cons]
    cases (if r.1 = c ∧ Supported c then r.2 else none) <;> simp

theorem press_eq (s : Keys) (c : Int) : press s c = ((if c = 0 then [] else (s.get c).toList) ++ (s.get 0).toList).map (·, c % 256) := by
  unfold press
  dsimp only
  have h0 : s.get 0 = s.any := by simp [Keys.get]
  rw [h0, List.map_append]
  congr 1
  by_cases hc : c = 10
  · subst hc
    cases h : s.newline <;> simp [Keys.get, h]
  · have hkc : ¬ (c = 10 ∧ s.newline.isSome = true) := fun x => hc x.1
    rw [if_neg hkc]
    by_cases hc0 : c = 0
    · subst hc0; simp
    · rw [if_neg hc0]
      by_cases hr : 32 ≤ c ∧ c ≤ 127
      · cases h : s.table (c - 32).toNat with
        | none => simp [Keys.get, h, hc, hc0]
        | some a =>
          have hx : c - 32 ≥ 0 ∧ c - 32 < 96 ∧ (some a).isSome = true := ⟨by omega, by omega, rfl⟩
          rw [if_pos hx]; simp [Keys.get, h, hc, hc0, hr]
      · rw [if_neg (by omega)]; simp [Keys.get, hc, hc0, hr]

end ReactorC.Sensor
