import Verif.Encl.Model
import Verif.Rti.SysInv

/-! Lemmas for the enclaves: what has been granted stays safe. -/

set_option linter.unusedSimpArgs false
set_option linter.unusedVariables false

namespace ReactorC.Encl
open ReactorC ReactorC.Rti

section
variable {T : Topology} {start : Int}

theorem notifyIfSafe_micros (h0 : 0 ≤ start) (hT : T.Ok) {i : Nat} (hi : i < T.n) (s : Rti) :
    Micros T start s (notifyIfSafe T start i s) := by
  obtain ⟨s', t, p, h1, h2, h3, h4⟩ := tagAdvanceGrantIfSafe_spec h0 hT hi s
  unfold notifyIfSafe
  rw [h1]
  dsimp only
  by_cases hn : lf_tag_compare t NEVER_TAG ≠ 0
  · rw [if_pos hn]
    have hn' : t ≠ NEVER_TAG := fun h => hn ((cmp_eq_zero _ _).2 h)
    cases p with
    | true => rw [if_pos rfl]; exact h2.micros
    | false =>
      rw [if_neg (by simp)]
      exact h2.micros.trans (notifyTag_micros hi (h3 hn' rfl))
  · rw [if_neg hn]; exact h2.micros

theorem notifyDownstream_micros (h0 : 0 ≤ start) (hT : T.Ok) (hD : T.DownOk) (depth : Nat) :
    ∀ (i : Nat) (a : Rti × (Nat → Bool)), Micros T start a.1 (notifyDownstream T start depth i a).1 := by
  induction depth with
  | zero => intro i a; exact .one (.deep a.1)
  | succ depth ihd =>
    intro i a
    unfold notifyDownstream
    have hr := hD i
    generalize T.down i = js at hr
    have : a.1 = (a.1, put a.2 i true).1 := rfl
    rw [this]
    generalize (a.1, put a.2 i true) = b
    induction js generalizing b with
    | nil => exact .refl _
    | cons j js ih =>
      rw [List.foldl_cons]
      have hrs : ∀ j ∈ js, j < T.n := fun j hj => hr j (List.mem_cons_of_mem _ hj)
      refine Micros.trans ?_ (ih hrs _)
      split
      · exact .refl _
      · exact (notifyIfSafe_micros h0 hT (hr j List.mem_cons_self) b.1).trans (ihd j (notifyIfSafe T start j b.1, b.2))

theorem notifyAllDownstream_micros (h0 : 0 ≤ start) (hT : T.Ok) (hD : T.DownOk) (i : Nat) (s : Rti) :
    Micros T start s (notifyAllDownstream T start i s) :=
  notifyDownstream_micros h0 hT hD (T.n + 1) i (s, fun _ => false)

theorem logicalTagComplete_micros (h0 : 0 ≤ start) (hT : T.Ok) (hD : T.DownOk) {i : Nat} {c : Tag} {s : Rti} :
    Micros T start (s.setNode i fun nd => { nd with completed := c }) (logicalTagComplete T start i c s) := by
  unfold logicalTagComplete
  have : ∀ (l : List Nat) (a : Rti), (∀ j ∈ l, j < T.n) → Micros T start a
      (l.foldl (fun (s : Rti) (j : Nat) => notifyAllDownstream T start j (notifyIfSafe T start j s)) a) := by
    intro l
    induction l with
    | nil => intro a _; exact .refl _
    | cons j l ih =>
      intro a hl
      rw [List.foldl_cons]
      exact (notifyIfSafe_micros h0 hT (hl j List.mem_cons_self) a).trans
        ((notifyAllDownstream_micros h0 hT hD j _).trans (ih _ fun x hx => hl x (List.mem_cons_of_mem _ hx)))
  exact this _ _ (fun j hj => hD i j hj)

/-- What the enclaves rely on besides `RInv`: nobody is disconnected, and what a node was granted was announced. -/
structure LInv (T : Topology) (s : Rti) : Prop where
  ok : ∀ j, s.broken j = false
  conn : ∀ j, (s.node j).connected = true
  sent : ∀ j, T.up j ≠ [] → (s.node j).lastGranted = NEVER_TAG ∨ Down.tag (s.node j).lastGranted ∈ s.out j
  low : ∀ j, T.up j ≠ [] → NEVER_TAG ≤ (s.node j).lastGranted

theorem LInv.setNode {s : Rti} (h : LInv T s) (i : Nat) (f : Node → Node) (h1 : (f (s.node i)).connected = (s.node i).connected)
    (h2 : (f (s.node i)).lastGranted = (s.node i).lastGranted ∨ T.up i = []) : LInv T (s.setNode i f) := by
  refine ⟨h.ok, fun j => ?_, fun j hu => ?_, fun j hu => ?_⟩ <;> by_cases e : j = i
  · subst e; rw [setNode_same, h1]; exact h.conn j
  · rw [setNode_other _ _ e]; exact h.conn j
  · subst e; rw [setNode_same]
    rcases h2 with k | k
    · rw [k]; exact h.sent j hu
    · exact absurd k hu
  · rw [setNode_other _ _ e]; exact h.sent j hu
  · subst e; rw [setNode_same]
    rcases h2 with k | k
    · rw [k]; exact h.low j hu
    · exact absurd k hu
  · rw [setNode_other _ _ e]; exact h.low j hu

theorem LInv.write {s : Rti} (h : LInv T s) (i : Nat) (d : Down) : LInv T (s.write i d) :=
  ⟨h.ok, h.conn, fun j hu => (h.sent j hu).imp id fun k => mem_write.2 (.inl k), h.low⟩

/-- What was granted is not taken back. -/
def Grows (a b : Rti) : Prop :=
  (∀ j, (a.node j).lastGranted ≤ (b.node j).lastGranted) ∧ ∀ j d, d ∈ a.out j → d ∈ b.out j

theorem Grows.refl (a : Rti) : Grows a a := ⟨fun _ => Tag.le_refl _, fun _ _ h => h⟩
theorem Grows.trans {a b c : Rti} (h1 : Grows a b) (h2 : Grows b c) : Grows a c :=
  ⟨fun j => Tag.le_trans (h1.1 j) (h2.1 j), fun j d h => h2.2 j d (h1.2 j d h)⟩

theorem grows_setNode (s : Rti) (i : Nat) (f : Node → Node) (h : (s.node i).lastGranted ≤ (f (s.node i)).lastGranted) :
    Grows s (s.setNode i f) := by
  refine ⟨fun j => ?_, fun _ _ h => h⟩
  by_cases e : j = i
  · subst e; rw [setNode_same]; exact h
  · rw [setNode_other _ _ e]; exact Tag.le_refl _

theorem grows_write (s : Rti) (i : Nat) (d : Down) : Grows s (s.write i d) :=
  ⟨fun _ => Tag.le_refl _, fun j x h => mem_write.2 (.inl h)⟩

theorem Micro.linv {s s' : Rti} (h : Micro T start s s') (hl : LInv T s) : LInv T s' ∧ Grows s s' := by
  cases h with
  | cache i hi =>
    rcases @updateMin_cases T i s with ⟨c, _, h⟩ | ⟨hn, h⟩
    · rw [h]; exact ⟨hl, .refl _⟩
    · rw [h]; exact ⟨hl.setNode i _ rfl (.inl rfl), grows_setNode _ _ _ (Tag.le_refl _)⟩
  | heard i =>
    rcases @heard_cases start i s with ⟨_, h⟩ | ⟨hn, h⟩
    · rw [h]; exact ⟨hl, .refl _⟩
    · rw [h]; exact ⟨hl.setNode i _ rfl (.inl rfl), grows_setNode _ _ _ (Tag.le_refl _)⟩
  | tag i t hi hcn hg hp hb hreason =>
    refine ⟨⟨hl.ok, fun j => ?_, fun j hu => ?_, fun j hu => ?_⟩, (grows_write s i (.tag t)).trans (grows_setNode _ _ _ (Tag.le_of_lt hg))⟩
    · by_cases e : j = i
      · subst e; rw [setNode_same]; exact hl.conn j
      · rw [setNode_other _ _ e]; exact hl.conn j
    · by_cases e : j = i
      · subst e; right; rw [setNode_same]
        show _ ∈ (s.write j (.tag t)).out j
        rw [mem_write]; exact .inr ⟨rfl, rfl⟩
      · rw [setNode_other _ _ e]; exact (hl.write i (.tag t)).sent j hu
    · by_cases e : j = i
      · subst e; rw [setNode_same]; exact Tag.le_trans (hl.low j hu) (Tag.le_of_lt hg)
      · rw [setNode_other _ _ e]; exact hl.low j hu
  | ptag i t hi hcn hg hp hb hF hreason _ =>
    exact ⟨(hl.write i _).setNode i _ rfl (.inl rfl),
      (grows_write s i (.ptag t)).trans (grows_setNode _ _ _ (Tag.le_refl _))⟩
  | drop i hb => rw [hl.ok i] at hb; cases hb
  | deep => exact ⟨⟨hl.ok, hl.conn, hl.sent, hl.low⟩, .refl _⟩

theorem Micros.linv {s s' : Rti} (h : Micros T start s s') (hl : LInv T s) : LInv T s' ∧ Grows s s' := by
  induction h with
  | refl => exact ⟨hl, .refl _⟩
  | tail _ h ih =>
    obtain ⟨r, k⟩ := ih
    obtain ⟨r', k'⟩ := Micro.linv h r
    exact ⟨r', k.trans k'⟩

/-- `update_scheduling_node_next_event_tag_locked` with a tag below the bound. -/
theorem updateNextEvent_inv (hT : T.Ok) (hD : T.DownOk) (h0 : 0 ≤ start) (h1 : start < FOREVER) {β : Nat → Tag} {s : Rti}
    (hr : RInv T start β s) {i : Nat} (hi : i < T.n) {t : Tag} (ht : Sane T t) (hle : t ≤ β i) :
    RInv T start β (updateNextEvent T start i t s) ∧ MKeep s (updateNextEvent T start i t s) := by
  unfold updateNextEvent
  dsimp only
  have r1 := hr.setNext i ht hle
  have k1 := mkeep_setNode s i (fun nd => { nd with nextEvent := t }) (fun _ => rfl) (fun _ h => h)
  generalize s.setNode i (fun nd => { nd with nextEvent := t }) = a at r1 k1
  by_cases hu : T.up i ≠ []
  · rw [if_pos hu]
    obtain ⟨r2, k2⟩ := (notifyIfSafe_micros h0 hT hi a).inv hT h0 h1 r1
    obtain ⟨r3, k3⟩ := (notifyAllDownstream_micros h0 hT hD i (notifyIfSafe T start i a)).inv hT h0 h1 r2
    exact ⟨r3, k1.trans (k2.trans k3)⟩
  · rw [if_neg hu]
    have r2 := r1.setNode i (fun nd => { nd with lastGranted := t }) (fun _ => rfl) (fun _ h => h) (fun _ => rfl) (fun _ => rfl)
    have k2 := mkeep_setNode a i (fun nd => { nd with lastGranted := t }) (fun _ => rfl) (fun _ h => h)
    obtain ⟨r3, k3⟩ := (notifyAllDownstream_micros h0 hT hD i _).inv hT h0 h1 r2
    exact ⟨r3, k1.trans (k2.trans k3)⟩

theorem updateNextEvent_linv (hT : T.Ok) (hD : T.DownOk) (h0 : 0 ≤ start) {s : Rti} (hl : LInv T s) {i : Nat} (hi : i < T.n)
    {t : Tag} : LInv T (updateNextEvent T start i t s) ∧
      (∀ j d, d ∈ s.out j → d ∈ (updateNextEvent T start i t s).out j) ∧
      (∀ j, T.up j ≠ [] → (s.node j).lastGranted ≤ ((updateNextEvent T start i t s).node j).lastGranted) ∧
      (T.up i = [] → t ≤ ((updateNextEvent T start i t s).node i).lastGranted) := by
  unfold updateNextEvent
  dsimp only
  have l1 : LInv T (s.setNode i fun nd => { nd with nextEvent := t }) := hl.setNode i _ rfl (.inl rfl)
  have g1 : Grows s (s.setNode i fun nd => { nd with nextEvent := t }) := grows_setNode _ _ _ (Tag.le_refl _)
  generalize s.setNode i (fun nd => { nd with nextEvent := t }) = a at l1 g1
  by_cases hu : T.up i ≠ []
  · rw [if_pos hu]
    obtain ⟨l2, g2⟩ := Micros.linv (notifyIfSafe_micros h0 hT hi a) l1
    obtain ⟨l3, g3⟩ := Micros.linv (notifyAllDownstream_micros h0 hT hD i (notifyIfSafe T start i a)) l2
    have g := g1.trans (g2.trans g3)
    exact ⟨l3, g.2, fun j _ => g.1 j, fun h => absurd h hu⟩
  · rw [if_neg hu]
    have hu : T.up i = [] := by simpa using hu
    have l2 := l1.setNode i (fun nd => { nd with lastGranted := t }) rfl (.inr hu)
    obtain ⟨l3, g3⟩ := Micros.linv (notifyAllDownstream_micros h0 hT hD i _) l2
    refine ⟨l3, fun j d h => g3.2 j d (g1.2 j d h), fun j hj => ?_, fun _ => ?_⟩
    · refine Tag.le_trans (g1.1 j) (Tag.le_trans ?_ (g3.1 j))
      rw [setNode_other _ _ (by intro e; subst e; exact hj hu)]; exact Tag.le_refl _
    · refine Tag.le_trans ?_ (g3.1 i)
      rw [setNode_same]; exact Tag.le_refl _

/-! ## The invariant -/

/-- A tag was returned because a grant covers it. -/
def Covered (T : Topology) (s : Rti) (e : Nat) (r : Tag) : Prop :=
  T.up e = [] ∨ ∃ g, Down.tag g ∈ s.out e ∧ r ≤ g

theorem Covered.grow {a b : Rti} {e : Nat} {r : Tag} (h : Covered T a e r) (k : ∀ d, d ∈ a.out e → d ∈ b.out e) :
    Covered T b e r := h.imp id fun ⟨g, h1, h2⟩ => ⟨g, k _ h1, h2⟩

/-- What holds whether or not enclaves race. -/
structure BInv (T : Topology) (start : Int) (σ : Sys) : Prop where
  linv : LInv T σ.rti
  rets : ∀ e r, Ev.ret r ∈ σ.hist e → Covered T σ.rti e r
  call : ∀ e, σ.call e ≠ .idle → e < T.n
  tags : ∀ e t, σ.call e = .entering t → Sane T t ∧ (⟨start, 0⟩ : Tag) ≤ t
  waits : ∀ e p t, σ.call e = .waiting p t → T.up e ≠ [] ∧ NEVER_TAG ≤ p

theorem mem_see {σ : Sys} {e j : Nat} {x y : Ev} : y ∈ (σ.see e x).hist j ↔ y ∈ σ.hist j ∨ (j = e ∧ y = x) := by
  unfold Sys.see
  dsimp only
  by_cases hj : j = e
  · subst hj; rw [put_same]; simp
  · rw [put_other _ _ _ hj]; simp [hj]

theorem covered_of_le {s : Rti} (hl : LInv T s) {e : Nat} {r : Tag} (hr : 0 ≤ r.time) (h : r ≤ (s.node e).lastGranted) :
    Covered T s e r := by
  by_cases hu : T.up e = []
  · exact .inl hu
  · right
    rcases hl.sent e hu with k | k
    · rw [k] at h
      have : NEVER_TAG.time < 0 := by decide
      exfalso; tag_omega
    · exact ⟨_, k, h⟩

theorem sane_time {t : Tag} (h : Sane T t) : 0 ≤ t.time := by
  rcases h with rfl | h
  · decide
  · exact h.1

theorem BInv.step (hT : T.Ok) (hD : T.DownOk) (h0 : 0 ≤ start) (hn : T.n ≠ 1) {σ σ' : Sys} (hb : BInv T start σ) {a : Act}
    (hw : a.allowed T start σ) (h : exec T start σ a = some σ') : BInv T start σ' := by
  unfold exec at h
  cases a with
  | enter e t =>
    dsimp only at h
    rw [if_neg hn] at h
    cases h
    obtain ⟨he, hc, ht, hst, hnt⟩ := hw
    refine ⟨hb.linv, hb.rets, fun j hj => ?_, fun j u hj => ?_, fun j p u hj => ?_⟩ <;> dsimp only at hj <;> by_cases x : j = e
    · rw [x]; exact he
    · rw [put_other _ _ _ x] at hj; exact hb.call j hj
    · subst x; rw [put_same] at hj; cases hj; exact ⟨ht, hst⟩
    · rw [put_other _ _ _ x] at hj; exact hb.tags j u hj
    · subst x; rw [put_same] at hj; cases hj
    · rw [put_other _ _ _ x] at hj; exact hb.waits j p u hj
  | update e =>
    dsimp only at h
    split at h
    · rename_i t hc
      have he := hb.call e (by rw [hc]; simp)
      obtain ⟨ht, hst⟩ := hb.tags e t hc
      obtain ⟨l1, l2, l3, l4⟩ := updateNextEvent_linv (start := start) hT hD h0 hb.linv he (t := t)
      generalize updateNextEvent T start e t σ.rti = r at h l1 l2 l3 l4
      by_cases hg : lf_tag_compare (r.node e).lastGranted t ≥ 0
      · rw [if_pos hg] at h
        cases h
        refine ⟨l1, fun j x hx => ?_, fun j hj => ?_, fun j u hj => ?_, fun j p u hj => ?_⟩
        · rcases mem_see.1 (show _ ∈ (σ.see e (.ret t)).hist j from hx) with k | ⟨rfl, k⟩
          · exact (hb.rets j x k).grow (l2 j)
          · cases k
            exact covered_of_le l1 (sane_time ht) ((cmp_ge_zero _ _).1 hg)
        · dsimp only at hj
          by_cases x : j = e
          · rw [x]; exact he
          · rw [put_other _ _ _ x] at hj; exact hb.call j hj
        · dsimp only at hj
          by_cases x : j = e
          · subst x; rw [put_same] at hj; cases hj
          · rw [put_other _ _ _ x] at hj; exact hb.tags j u hj
        · dsimp only at hj
          by_cases x : j = e
          · subst x; rw [put_same] at hj; cases hj
          · rw [put_other _ _ _ x] at hj; exact hb.waits j p u hj
      · rw [if_neg hg] at h
        have hu : ¬ T.up e = [] := by
          intro k
          exact hg ((cmp_ge_zero _ _).2 (l4 k))
        rw [if_neg hu] at h
        cases h
        refine ⟨l1, fun j x hx => (hb.rets j x hx).grow (l2 j), fun j hj => ?_, fun j u hj => ?_, fun j p u hj => ?_⟩
        · dsimp only at hj
          by_cases x : j = e
          · rw [x]; exact he
          · rw [put_other _ _ _ x] at hj; exact hb.call j hj
        · dsimp only at hj
          by_cases x : j = e
          · subst x; rw [put_same] at hj; cases hj
          · rw [put_other _ _ _ x] at hj; exact hb.tags j u hj
        · dsimp only at hj
          by_cases x : j = e
          · subst x; rw [put_same] at hj; cases hj; exact ⟨hu, hb.linv.low j hu⟩
          · rw [put_other _ _ _ x] at hj; exact hb.waits j p u hj
    · cases h
  | wake e =>
    dsimp only at h
    split at h
    · rename_i p t hc
      by_cases hg : lf_tag_compare p (σ.rti.node e).lastGranted < 0
      · rw [if_pos hg] at h
        cases h
        refine ⟨hb.linv, fun j x hx => ?_, fun j hj => ?_, fun j u hj => ?_, fun j q u hj => ?_⟩
        · rcases mem_see.1 (show _ ∈ (σ.see e _).hist j from hx) with k | ⟨rfl, k⟩
          · exact hb.rets j x k
          · cases k
            by_cases hu : T.up j = []
            · exact .inl hu
            · rcases hb.linv.sent j hu with k | k
              · have := (cmp_lt_zero _ _).1 hg
                rw [k] at this
                exact absurd (Tag.lt_of_le_of_lt (hb.waits j p t hc).2 this) (Tag.lt_irrefl _)
              · exact .inr ⟨_, k, Tag.le_refl _⟩
        · dsimp only at hj
          by_cases x : j = e
          · subst x; rw [put_same] at hj; exact absurd rfl hj
          · rw [put_other _ _ _ x] at hj; exact hb.call j hj
        · dsimp only at hj
          by_cases x : j = e
          · subst x; rw [put_same] at hj; cases hj
          · rw [put_other _ _ _ x] at hj; exact hb.tags j u hj
        · dsimp only at hj
          by_cases x : j = e
          · subst x; rw [put_same] at hj; cases hj
          · rw [put_other _ _ _ x] at hj; exact hb.waits j q u hj
      · rw [if_neg hg] at h; cases h
    · cases h
  | complete e c =>
    dsimp only at h
    rw [if_neg hn] at h
    cases h
    have l1 := hb.linv.setNode e (fun nd => { nd with completed := c }) rfl (.inl rfl)
    obtain ⟨l2, g2⟩ := Micros.linv (logicalTagComplete_micros h0 hT hD (i := e) (c := c) (s := σ.rti)) l1
    exact ⟨l2, fun j x hx => (hb.rets j x hx).grow (g2.2 j), hb.call, hb.tags, hb.waits⟩
  | message i d s w m =>
    dsimp only at h
    cases h
    have l1 := hb.linv.write d (.msg m)
    refine ⟨?_, fun j x hx => ?_, hb.call, hb.tags, hb.waits⟩
    · dsimp only
      unfold updateOtherNet
      split
      · exact l1.setNode d _ rfl (.inl rfl)
      · exact l1
    · rcases mem_see.1 (show _ ∈ (σ.see d (.msg m)).hist j from hx) with k | ⟨_, k⟩
      · refine (hb.rets j x k).grow fun y hy => ?_
        dsimp only
        have : y ∈ (σ.rti.write d (.msg m)).out j := mem_write.2 (.inl hy)
        unfold updateOtherNet
        split
        · exact this
        · exact this
      · cases k

theorem BInv.init : BInv T start (initSys start) :=
  ⟨⟨fun _ => rfl, fun _ => rfl, fun _ _ => .inl rfl, fun _ _ => Tag.le_refl _⟩, fun e r h => (by cases h),
    fun e h => absurd rfl h, fun e t h => (by cases h), fun e p t h => (by cases h)⟩

theorem Reach.binv (hT : T.Ok) (hD : T.DownOk) (h0 : 0 ≤ start) (hn : T.n ≠ 1) {races : Bool} {σ : Sys}
    (h : Reach T start races σ) : BInv T start σ := by
  induction h with
  | init => exact .init
  | step a _ hw _ he ih => exact ih.step hT hD h0 hn hw he

/-! ## Without races -/

/-- What may follow what: a message is later than every tag returned before. -/
def After : Ev → Ev → Prop
  | .ret r, .msg m => r < m ∨ m = FOREVER_TAG
  | _, _ => True

structure EInv (T : Topology) (start : Int) (σ : Sys) : Prop where
  rti : RInv T start σ.net σ.rti
  comp : ∀ u, (σ.rti.node u).completed = NEVER_TAG ∨ Sane T (σ.rti.node u).completed
  done : ∀ u, (σ.rti.node u).completed ≤ σ.done u
  order : ∀ u, (σ.hist u).Pairwise After

theorem EInv.init (hT : T.Ok) (h0 : 0 ≤ start) (h1 : start < FOREVER) : EInv T start (initSys start) := by
  have hN : NEVER_TAG.time < 0 := by decide
  have hs := sane_start hT h0 h1
  refine ⟨⟨fun u => ⟨hs, Tag.le_refl _⟩, fun u => ⟨.inl rfl, ?_⟩, fun u c hc => ?_, fun i g h => ?_, fun i g h => ?_,
    fun i g h => ?_, fun i => List.Pairwise.nil⟩, fun u => .inl rfl, fun u => Tag.le_refl _, fun u => List.Pairwise.nil⟩
  · show NEVER_TAG ≤ (⟨start, 0⟩ : Tag)
    tag_omega
  · cases hc
  · cases h
  · cases h
  · cases h

theorem pairwise_see {σ : Sys} {e : Nat} {x : Ev} (h : ∀ u, (σ.hist u).Pairwise After) (hx : ∀ y ∈ σ.hist e, After y x)
    (u : Nat) : ((σ.see e x).hist u).Pairwise After := by
  unfold Sys.see
  dsimp only
  by_cases hj : u = e
  · subst hj; rw [put_same, List.pairwise_append]
    refine ⟨h u, List.pairwise_singleton _ _, fun a ha b hb => ?_⟩
    rw [List.mem_singleton] at hb
    subst hb; exact hx a ha
  · rw [put_other _ _ _ hj]; exact h u

theorem after_ret (y : Ev) (r : Tag) : After y (.ret r) := by cases y <;> trivial

theorem EInv.step (hT : T.Ok) (hD : T.DownOk) (h0 : 0 ≤ start) (h1 : start < FOREVER) (hn : T.n ≠ 1) {σ σ' : Sys}
    (hb : BInv T start σ) (hi : EInv T start σ) {a : Act} (hw : a.allowed T start σ) (hq : a.undisturbed σ)
    (h : exec T start σ a = some σ') : EInv T start σ' := by
  unfold exec at h
  cases a with
  | enter e t =>
    dsimp only at h
    rw [if_neg hn] at h
    cases h
    obtain ⟨he, hc, ht, hst, hnt⟩ := hw
    refine ⟨hi.rti.raise hT (fun u => ?_) (fun u => ?_), hi.comp, hi.done, hi.order⟩ <;> dsimp only <;> by_cases x : u = e
    · subst x; rw [put_same]; exact ht
    · rw [put_other _ _ _ x]; exact (hi.rti.sane u).1
    · subst x; rw [put_same]; exact hnt
    · rw [put_other _ _ _ x]; exact Tag.le_refl _
  | update e =>
    dsimp only at h
    split at h
    · rename_i t hc
      have he := hb.call e (by rw [hc]; simp)
      obtain ⟨ht, hst⟩ := hb.tags e t hc
      obtain ⟨_, _, _, l4⟩ := updateNextEvent_linv (start := start) hT hD h0 hb.linv he (t := t)
      obtain ⟨r1, k1⟩ := updateNextEvent_inv hT hD h0 h1 hi.rti he ht (hq t hc)
      generalize updateNextEvent T start e t σ.rti = r at h r1 k1 l4
      by_cases hg : lf_tag_compare (r.node e).lastGranted t ≥ 0
      · rw [if_pos hg] at h
        cases h
        exact ⟨r1, fun u => by dsimp only; rw [k1.completed u]; exact hi.comp u,
          fun u => by dsimp only; rw [k1.completed u]; exact hi.done u,
          pairwise_see hi.order fun y _ => after_ret y t⟩
      · rw [if_neg hg, if_neg (fun k => hg ((cmp_ge_zero _ _).2 (l4 k)))] at h
        cases h
        exact ⟨r1, fun u => by dsimp only; rw [k1.completed u]; exact hi.comp u,
          fun u => by dsimp only; rw [k1.completed u]; exact hi.done u, hi.order⟩
    · cases h
  | wake e =>
    dsimp only at h
    split at h
    · split at h
      · cases h
        exact ⟨hi.rti, hi.comp, hi.done, pairwise_see hi.order fun y _ => after_ret y _⟩
      · cases h
    · cases h
  | complete e c =>
    dsimp only at h
    rw [if_neg hn] at h
    cases h
    obtain ⟨he, hc, hs, hd⟩ := hw
    have r1 := completed_raise hi.rti hs (hi.comp e) (Tag.le_trans (hi.done e) hd)
    obtain ⟨r2, k2⟩ := (logicalTagComplete_micros h0 hT hD (i := e) (c := c) (s := σ.rti)).inv hT h0 h1 r1
    refine ⟨r2, fun u => ?_, fun u => ?_, hi.order⟩ <;> dsimp only <;> rw [k2.completed u] <;> by_cases x : u = e
    · subst x; rw [setNode_same]; exact .inr hs
    · rw [setNode_other _ _ x]; exact hi.comp u
    · subst x; rw [setNode_same, put_same]; exact Tag.le_refl _
    · rw [setNode_other _ _ x, put_other _ _ _ x]; exact hi.done u
  | message i d s w m =>
    dsimp only at h
    cases h
    obtain ⟨h2, h3, h4, _, h5, h6, h7, h8, h9, h10, h11⟩ := hw
    have hc : Cause T start i d s w m := ⟨h3, h4, h5, h6, h7, h8, h11⟩
    have hlater := hi.rti.later hT hi.comp hc h10 (Tag.lt_of_le_of_lt (hi.done i) h9) (hb.linv.conn i)
    have hmst : (⟨start, 0⟩ : Tag) ≤ m := Tag.le_trans h8 (Tag.le_trans (le_delay w h5) h11)
    have r1 := hi.rti.writeMsg hlater
    -- the next event of the target
    have hmin : ∀ u, ((updateOtherNet d m (σ.rti.write d (.msg m))).node u).nextEvent ≤ σ.net u ∧
        (u = d → ((updateOtherNet d m (σ.rti.write d (.msg m))).node u).nextEvent ≤ m) := by
      intro u
      unfold updateOtherNet
      by_cases hlt : lf_tag_compare m ((σ.rti.write d (.msg m)).node d).nextEvent < 0
      · rw [if_pos hlt]
        have hlt' := (cmp_lt_zero _ _).1 hlt
        by_cases x : u = d
        · subst x; rw [setNode_same]
          exact ⟨Tag.le_trans (Tag.le_of_lt hlt') (r1.next u).2, fun _ => Tag.le_refl _⟩
        · rw [setNode_other _ _ x]; exact ⟨(r1.next u).2, fun e => absurd e x⟩
      · rw [if_neg hlt]
        refine ⟨(r1.next u).2, fun e => ?_⟩
        rw [cmp_lt_zero, Tag.not_lt] at hlt
        rw [e]; exact hlt
    have r2 : RInv T start σ.net (updateOtherNet d m (σ.rti.write d (.msg m))) := by
      have hm := hmin d
      unfold updateOtherNet at hm ⊢
      by_cases hlt : lf_tag_compare m ((σ.rti.write d (.msg m)).node d).nextEvent < 0
      · rw [if_pos hlt] at hm ⊢
        rw [setNode_same] at hm
        exact r1.setNext d h7 hm.1
      · rw [if_neg hlt]; exact r1
    have hcomp : ∀ u, ((updateOtherNet d m (σ.rti.write d (.msg m))).node u).completed = (σ.rti.node u).completed ∧
        ((updateOtherNet d m (σ.rti.write d (.msg m))).node u).connected = true := by
      intro u
      unfold updateOtherNet
      split
      · by_cases x : u = d
        · subst x; rw [setNode_same]; exact ⟨rfl, hb.linv.conn u⟩
        · rw [setNode_other _ _ x]; exact ⟨rfl, hb.linv.conn u⟩
      · exact ⟨rfl, hb.linv.conn u⟩
    refine ⟨?_, fun u => ?_, fun u => ?_, pairwise_see hi.order fun y hy => ?_⟩
    · dsimp only
      by_cases hlt : m < σ.net d
      · rw [if_pos hlt]
        refine r2.rebase (fun u => ?_) (fun u => ?_) (fun _ R j hR hcs => ?_) (fun R j hR hcs => ?_)
        · by_cases x : u = d
          · subst x; rw [put_same]; exact ⟨h7, hmst⟩
          · rw [put_other _ _ _ x]; exact hi.rti.sane u
        · by_cases x : u = d
          · subst x; rw [put_same]; exact (hmin u).2 rfl
          · rw [put_other _ _ _ x]; exact (hmin u).1
        · exact hcs.lower hT hR (fun u => (hi.rti.sane u).1) hc h10 (hcomp d).2
        · by_cases x : j = d
          · subst x; rw [put_same]; exact hcs.2.message hT (fun u => (hi.rti.sane u).1) hc h10 (.inr (hcomp j).2) hR
          · rw [put_other _ _ _ x]; exact hcs.1
      · rw [if_neg hlt]; exact r2
    · dsimp only; rw [(hcomp u).1]; exact hi.comp u
    · dsimp only; rw [(hcomp u).1]; exact hi.done u
    · cases y with
      | msg p => trivial
      | ret r =>
        rcases hb.rets d r hy with k | ⟨g, k1, k2⟩
        · rw [k] at h4; cases h4
        · rcases hlater _ k1 with k | k
          · exact .inl (Tag.lt_of_le_of_lt k2 k)
          · exact .inr k

theorem Reach.einv (hT : T.Ok) (hD : T.DownOk) (h0 : 0 ≤ start) (h1 : start < FOREVER) (hn : T.n ≠ 1) {σ : Sys}
    (h : Reach T start false σ) : EInv T start σ := by
  induction h with
  | init => exact .init hT h0 h1
  | step a hr hw hq he ih =>
    rcases hq with k | k
    · cases k
    · exact ih.step hT hD h0 h1 hn (hr.binv hT hD h0 hn) hw k he

end
end ReactorC.Encl
