import Verif.Stop.Model
import Verif.Tag.Order
import Mathlib.Data.List.Basic
import Mathlib.Data.List.Count

/-! # What the RTI keeps true about the stop protocol -/

namespace ReactorC.Stop
open ReactorC

@[simp] theorem upd_same {α : Type} (f : Nat → α) (i : Nat) (v : α) : upd f i v i = v := by simp [upd]
@[simp] theorem upd_ne {α : Type} (f : Nat → α) {i j : Nat} (v : α) (h : j ≠ i) : upd f i v j = f j := by simp [upd, h]

theorem upd_self {α : Type} (f : Nat → α) (i : Nat) : upd f i (f i) = f := by
  funext j; by_cases h : j = i
  · subst h; simp
  · simp [h]

def isGranted : Msg → Bool
  | .granted _ => true
  | _ => false

def isRequest : Msg → Bool
  | .request _ => true
  | _ => false

/-- How many of the first `n` federates have the property. -/
def num (n : Nat) (f : Nat → Bool) : Nat := (List.range n).countP f

theorem num_le (n : Nat) (f : Nat → Bool) : num n f ≤ n := by
  have := List.countP_le_length (p := f) (l := List.range n)
  simpa [num] using this

theorem num_eq (n : Nat) (f : Nat → Bool) : num n f = n ↔ ∀ i < n, f i = true := by
  have h : num n f = (List.range n).length ↔ ∀ i ∈ List.range n, f i = true := List.countP_eq_length
  rw [List.length_range] at h
  rw [h]
  simp

theorem num_succ (n : Nat) (f : Nat → Bool) : num (n + 1) f = num n f + (if f n = true then 1 else 0) := by
  unfold num
  rw [List.range_succ, List.countP_append, List.countP_singleton]

theorem num_congr (n : Nat) {f g : Nat → Bool} (h : ∀ i < n, f i = g i) : num n f = num n g := by
  unfold num
  apply List.countP_congr
  intro i hi
  rw [h i (List.mem_range.1 hi)]

theorem num_upd {n : Nat} {f : Nat → Bool} {i : Nat} (hi : i < n) (h : f i = false) : num n (upd f i true) = num n f + 1 := by
  induction n with
  | zero => omega
  | succ n ih =>
    rw [num_succ, num_succ]
    by_cases hn : n = i
    · subst hn
      rw [num_congr n (g := f) (fun j hj => upd_ne _ _ (by omega))]
      simp [h]
    · rw [upd_ne _ _ hn, ih (by omega)]; omega

theorem num_pos {n : Nat} {f : Nat → Bool} (h : 0 < num n f) : ∃ i < n, f i = true := by
  unfold num at h
  obtain ⟨i, hi, hf⟩ := List.countP_pos_iff.1 h
  exact ⟨i, List.mem_range.1 hi, hf⟩

/-! ## The functions of the RTI -/

theorem broadcastLoop_spec (k : Nat) (s : Rti) :
    (broadcastLoop k s).maxStop = s.maxStop ∧ (broadcastLoop k s).handling = s.handling ∧
    (broadcastLoop k s).requested = s.requested ∧ (broadcastLoop k s).inProgress = s.inProgress ∧
    (broadcastLoop k s).granted = s.granted ∧ (broadcastLoop k s).connected = s.connected ∧
    (∀ i, (broadcastLoop k s).out i = if i < k ∧ s.connected i = true then s.out i ++ [.granted s.maxStop] else s.out i) ∧
    (∀ i, (broadcastLoop k s).nextEvent i =
      if i < k ∧ s.connected i = true ∧ 0 ≤ lf_tag_compare (s.nextEvent i) s.maxStop then s.maxStop else s.nextEvent i) := by
  induction k with
  | zero => simp [broadcastLoop]
  | succ k ih =>
    obtain ⟨h1, h2, h3, h4, h5, h6, h7, h8⟩ := ih
    unfold broadcastLoop
    simp only []
    rw [h6]
    by_cases hc : s.connected k = false
    · rw [if_pos hc]
      refine ⟨h1, h2, h3, h4, h5, h6, ?_, ?_⟩
      · intro i
        rw [h7]
        by_cases hi : i = k
        · subst hi; simp [hc]
        · have : i < k + 1 ↔ i < k := by omega
          simp only [this]
      · intro i
        rw [h8]
        by_cases hi : i = k
        · subst hi; simp [hc]
        · have : i < k + 1 ↔ i < k := by omega
          simp only [this]
    · rw [if_neg hc]
      have hc' : s.connected k = true := by simpa using hc
      rw [h1]
      have hk : (broadcastLoop k s).nextEvent k = s.nextEvent k := by rw [h8]; simp
      have hk' : (broadcastLoop k s).out k = s.out k := by rw [h7]; simp
      refine ⟨?_, ?_, ?_, ?_, ?_, ?_, ?_, ?_⟩
      · split <;> simpa [send] using h1
      · split <;> simpa [send] using h2
      · split <;> simpa [send] using h3
      · split <;> simpa [send] using h4
      · split <;> simpa [send] using h5
      · split <;> simpa [send] using h6
      · intro i
        by_cases hi : i = k
        · subst hi
          split <;> simp [send, hk', hc', h1]
        · have : i < k + 1 ↔ i < k := by omega
          split <;> simp [send, hi, h7, this]
      · intro i
        by_cases hi : i = k
        · subst hi
          split
          · rename_i hx; rw [hk] at hx; simp [send, hc', hx]
          · rename_i hx; rw [hk] at hx; simp [send, hk, hx]
        · have : i < k + 1 ↔ i < k := by omega
          split <;> simp [send, hi, h8, this]

theorem broadcast_new (n : Nat) (s : Rti) (h : s.granted = false) :
    (broadcast n s).maxStop = s.maxStop ∧ (broadcast n s).handling = s.handling ∧
    (broadcast n s).requested = s.requested ∧ (broadcast n s).inProgress = s.inProgress ∧
    (broadcast n s).granted = true ∧ (broadcast n s).connected = s.connected ∧
    (∀ i, (broadcast n s).out i = if i < n ∧ s.connected i = true then s.out i ++ [.granted s.maxStop] else s.out i) ∧
    (∀ i, (broadcast n s).nextEvent i =
      if i < n ∧ s.connected i = true ∧ 0 ≤ lf_tag_compare (s.nextEvent i) s.maxStop then s.maxStop else s.nextEvent i) := by
  unfold broadcast
  rw [if_neg (by rw [h]; simp)]
  exact broadcastLoop_spec n { s with granted := true }

theorem raiseMax_spec (s : Rti) (t : Tag) :
    (raiseMax s t).handling = s.handling ∧ (raiseMax s t).requested = s.requested ∧
    (raiseMax s t).inProgress = s.inProgress ∧ (raiseMax s t).granted = s.granted ∧
    (raiseMax s t).connected = s.connected ∧ (raiseMax s t).out = s.out ∧ (raiseMax s t).nextEvent = s.nextEvent ∧
    s.maxStop ≤ (raiseMax s t).maxStop ∧ t ≤ (raiseMax s t).maxStop ∧
    ((raiseMax s t).maxStop = t ∧ s.maxStop < t ∨ (raiseMax s t).maxStop = s.maxStop ∧ t ≤ s.maxStop) := by
  unfold raiseMax
  split
  · rename_i h
    rw [cmp_gt_zero] at h
    exact ⟨rfl, rfl, rfl, rfl, rfl, rfl, rfl, Tag.le_of_lt h, Tag.le_refl _, Or.inl ⟨rfl, h⟩⟩
  · rename_i h
    rw [cmp_gt_zero, Tag.not_lt] at h
    exact ⟨rfl, rfl, rfl, rfl, rfl, rfl, rfl, Tag.le_refl _, h, Or.inr ⟨rfl, h⟩⟩

/-! ## The invariant -/

/-- `H i` are the tags proposed by federate `i` that the RTI has handled. -/
structure Core (n : Nat) (H : Nat → List Tag) (s : Rti) : Prop where
  count : s.handling = num n s.requested
  why : ∀ i < n, s.requested i = true → s.connected i = false ∨ H i ≠ []
  known : ∀ i, ∀ t ∈ H i, i < n ∧ s.requested i = true ∧ t ≤ s.maxStop
  max : s.maxStop = NEVER_TAG ∨ ∃ i, s.maxStop ∈ H i
  grants : s.granted = true ↔ ∀ i < n, s.requested i = true
  grant : ∀ i t, .granted t ∈ s.out i → s.granted = true ∧ t = s.maxStop
  once : ∀ i, (s.out i).countP isGranted ≤ 1
  each : s.granted = true → ∀ i < n, s.connected i = true → .granted s.maxStop ∈ s.out i
  asks : ∀ i, s.inProgress = false → (s.out i).countP isRequest = 0
  askOnce : ∀ i, (s.out i).countP isRequest ≤ 1
  below : s.granted = true → ∀ i < n, s.connected i = true → s.nextEvent i ≤ s.maxStop

theorem Core.init (n : Nat) (hn : 0 < n) : Core n (fun _ => []) Rti.init := by
  refine ⟨?_, ?_, ?_, Or.inl rfl, ?_, ?_, ?_, ?_, ?_, ?_, ?_⟩ <;> simp only [Rti.init]
  · have : ¬ 0 < num n (fun _ => false) := fun h => (by obtain ⟨_, _, h⟩ := num_pos h; cases h)
    omega
  · intro _ _ h; cases h
  · intro _ _ h; cases h
  · constructor
    · intro h; cases h
    · intro h; exact h 0 hn
  · intro _ _ h; cases h
  · simp
  · intro h; cases h
  · simp
  · simp
  · intro h; cases h

theorem no_granted {l : List Msg} (h : ∀ t, .granted t ∉ l) : l.countP isGranted = 0 := by
  rw [List.countP_eq_zero]
  intro m hm
  cases m with
  | granted t => exact absurd hm (h t)
  | _ => simp [isGranted]

/-- The beginning of `mark`. -/
def marked (s : Rti) (f : Nat) : Rti :=
  { s with handling := s.handling + 1, requested := upd s.requested f true }

/-- A federate becomes one that has requested to stop. -/
theorem Core.mark' {n : Nat} {H : Nat → List Tag} {s s' : Rti} (c : Core n H s) {f : Nat} (hf : f < n)
    (hr : s.requested f = false) (H' : Nat → List Tag) (hH : ∀ i, i ≠ f → H' i = H i) (hsub : ∀ t ∈ H f, t ∈ H' f)
    (hw : s.connected f = false ∨ H' f ≠ []) (hs : s' = { s with maxStop := s'.maxStop })
    (hm1 : ∀ t ∈ H' f, t ≤ s'.maxStop) (hm2 : s.maxStop ≤ s'.maxStop) (hm3 : s'.maxStop = s.maxStop ∨ s'.maxStop ∈ H' f) :
    Core n H' (mark n s' f).1 ∧ (mark n s' f).1.inProgress = s.inProgress ∧
    (mark n s' f).1.connected = s.connected ∧ (mark n s' f).1.requested = upd s.requested f true ∧
    ((mark n s' f).2 = true ↔ (mark n s' f).1.granted = true) ∧
    (∀ i, (mark n s' f).1.out i = s.out i ∨ ∃ t, (mark n s' f).1.out i = s.out i ++ [.granted t]) ∧
    (mark n s' f).1.maxStop = s'.maxStop := by
  have hg : s.granted = false := by
    rw [Bool.eq_false_iff]; intro h
    rw [c.grants.1 h f hf] at hr; cases hr
  have e1 : s'.requested = s.requested := by rw [hs]
  have e2 : s'.handling = s.handling := by rw [hs]
  have e3 : s'.granted = s.granted := by rw [hs]
  have e4 : s'.connected = s.connected := by rw [hs]
  have e5 : s'.out = s.out := by rw [hs]
  have e6 : s'.inProgress = s.inProgress := by rw [hs]
  have e7 : s'.nextEvent = s.nextEvent := by rw [hs]
  have hnog : ∀ i t, .granted t ∉ s.out i := by
    intro i t h
    rw [(c.grant i t h).1] at hg; cases hg
  have hnum := num_upd hf hr
  have hwhy : ∀ i < n, upd s.requested f true i = true → s.connected i = false ∨ H' i ≠ [] := by
    intro i hi h
    by_cases hif : i = f
    · subst hif; exact hw
    · rw [hH i hif]
      rw [upd_ne _ _ hif] at h
      exact c.why i hi h
  have hknown : ∀ i, ∀ t ∈ H' i, i < n ∧ upd s.requested f true i = true ∧ t ≤ s'.maxStop := by
    intro i t h
    by_cases hif : i = f
    · subst hif; exact ⟨hf, by simp, hm1 t h⟩
    · rw [hH i hif] at h
      obtain ⟨a, b, d⟩ := c.known i t h
      exact ⟨a, by rw [upd_ne _ _ hif]; exact b, Tag.le_trans d hm2⟩
  have hmax : s'.maxStop = NEVER_TAG ∨ ∃ i, s'.maxStop ∈ H' i := by
    rcases hm3 with h | h
    · rcases c.max with h' | ⟨i, h'⟩
      · left; rw [h, h']
      · right
        rw [h]
        by_cases hif : i = f
        · subst hif; exact ⟨i, hsub _ h'⟩
        · exact ⟨i, by rw [hH i hif]; exact h'⟩
    · exact Or.inr ⟨f, h⟩
  have hall : num n (upd s.requested f true) = n ↔ ∀ i < n, upd s.requested f true i = true := num_eq _ _
  have e8 : (mark n s' f) = if s.handling + 1 = n then (broadcast n (marked s' f), true) else (marked s' f, false) := by
    have h0 : (if s'.requested f = true then s' else marked s' f) = marked s' f := if_neg (by rw [e1, hr]; simp)
    have h1 : (marked s' f).handling = s.handling + 1 := by unfold marked; rw [e2]
    show (let s0 := (if s'.requested f = true then s' else marked s' f)
      if s0.handling = n then (broadcast n s0, true) else (s0, false)) = _
    rw [h0]
    simp only [h1]
  have m1 : (marked s' f).handling = s.handling + 1 := by unfold marked; rw [e2]
  have m2 : (marked s' f).requested = upd s.requested f true := by unfold marked; rw [e1]
  have m3 : (marked s' f).granted = s.granted := e3
  have m4 : (marked s' f).connected = s.connected := e4
  have m5 : (marked s' f).out = s.out := e5
  have m6 : (marked s' f).inProgress = s.inProgress := e6
  have m7 : (marked s' f).nextEvent = s.nextEvent := e7
  have m8 : (marked s' f).maxStop = s'.maxStop := rfl
  rw [e8]
  by_cases hn : s.handling + 1 = n
  · rw [if_pos hn]
    obtain ⟨b1, b2, b3, b4, b5, b6, b7, b8⟩ := broadcast_new n (marked s' f) (by rw [m3]; exact hg)
    rw [m8] at b1
    rw [m1] at b2
    rw [m2] at b3
    rw [m6] at b4
    rw [m4] at b6
    simp only [m4, m5, m8] at b7
    simp only [m4, m7, m8] at b8
    have hcnt : ∀ i, ((if i < n ∧ s.connected i = true then s.out i ++ [Msg.granted s'.maxStop] else s.out i)).countP
        isRequest = (s.out i).countP isRequest := by
      intro i
      split
      · simp [isRequest]
      · rfl
    refine ⟨⟨?_, ?_, ?_, ?_, ?_, ?_, ?_, ?_, ?_, ?_, ?_⟩, ?_, ?_, ?_, ?_, ?_, ?_⟩ <;> simp only []
    · rw [b2, b3, hnum, c.count]
    · rw [b3, b6]; exact hwhy
    · rw [b3, b1]; exact hknown
    · rw [b1]; exact hmax
    · rw [b3, b5, ← hall, hnum, ← c.count]; simp [hn]
    · intro i t h
      rw [b7] at h
      rw [b1, b5]
      refine ⟨rfl, ?_⟩
      split at h
      · rw [List.mem_append, List.mem_singleton] at h
        rcases h with h | h
        · exact absurd h (hnog i t)
        · exact Msg.granted.inj h
      · exact absurd h (hnog i t)
    · intro i
      rw [b7]
      split
      · rw [List.countP_append, no_granted (hnog i)]; simp [isGranted]
      · rw [no_granted (hnog i)]; omega
    · intro _ i hi hc
      rw [b6] at hc
      rw [b7, if_pos ⟨hi, hc⟩, b1]; simp
    · intro i h
      rw [b4] at h
      rw [b7, hcnt]; exact c.asks i h
    · intro i
      rw [b7, hcnt]; exact c.askOnce i
    · intro _ i hi hc
      rw [b6] at hc
      rw [b8, b1]
      split
      · exact Tag.le_refl _
      · rename_i hx
        rw [not_and, not_and] at hx
        have := hx hi hc
        rw [cmp_ge_zero, Tag.not_le] at this
        exact Tag.le_of_lt this
    · exact b4
    · exact b6
    · exact b3
    · simp [b5]
    · intro i
      rw [b7]
      split
      · exact Or.inr ⟨_, rfl⟩
      · exact Or.inl rfl
    · exact b1
  · rw [if_neg hn]
    have hnall : ¬ ∀ i < n, upd s.requested f true i = true := by
      rw [← hall, hnum, ← c.count]; exact hn
    refine ⟨⟨?_, ?_, ?_, ?_, ?_, ?_, ?_, ?_, ?_, ?_, ?_⟩, ?_, ?_, ?_, ?_, ?_, ?_⟩ <;> simp only []
    · rw [m1, m2, hnum, c.count]
    · rw [m2, m4]; exact hwhy
    · rw [m2, m8]; exact hknown
    · rw [m8]; exact hmax
    · rw [m2, m3, hg]; simp only [Bool.false_eq_true, false_iff]; exact hnall
    · intro i t h; rw [m5] at h; exact absurd h (hnog i t)
    · rw [m5]; exact c.once
    · rw [m3, hg]; intro h; cases h
    · rw [m5, m6]; exact c.asks
    · rw [m5]; exact c.askOnce
    · rw [m3, hg]; intro h; cases h
    · exact m6
    · exact m4
    · exact m2
    · simp [m3, hg]
    · intro i; rw [m5]; exact Or.inl rfl
    · exact m8

theorem Core.ask {n : Nat} {H : Nat → List Tag} {s : Rti} (c : Core n H s) (hp : s.inProgress = true) {f : Nat} (t : Tag)
    (h0 : (s.out f).countP isRequest = 0) : Core n H (send s f (.request t)) := by
  have hout : ∀ i, (send s f (.request t)).out i = if i = f then s.out f ++ [.request t] else s.out i := by
    intro i
    by_cases h : i = f
    · subst h; simp [send]
    · simp [send, h]
  refine ⟨c.count, c.why, c.known, c.max, c.grants, ?_, ?_, ?_, ?_, ?_, c.below⟩
  · intro i t' h
    rw [hout] at h
    split at h
    · rename_i hi; subst hi
      rw [List.mem_append, List.mem_singleton] at h
      rcases h with h | h
      · exact c.grant _ _ h
      · cases h
    · exact c.grant _ _ h
  · intro i
    rw [hout]
    split
    · rename_i hi; subst hi
      rw [List.countP_append]
      simpa [isGranted] using c.once i
    · exact c.once i
  · intro hg i hi hc
    have := c.each hg i hi hc
    rw [hout]
    split
    · rename_i hi; subst hi; exact List.mem_append_left _ this
    · exact this
  · intro i h
    have h : s.inProgress = false := h
    rw [hp] at h; cases h
  · intro i
    rw [hout]
    split
    · rw [List.countP_append, h0]; simp [isRequest]
    · exact c.askOnce i

/-- What else the RTI keeps true: once the request of a federate has been forwarded, every federate has proposed a tag or
has been asked for one. -/
structure RInv (n : Nat) (H : Nat → List Tag) (s : Rti) : Prop where
  core : Core n H s
  asked : s.inProgress = true → ∀ i < n, s.connected i = true → s.requested i = true ∨ ∃ t, .request t ∈ s.out i
  begun : ∀ i < n, s.requested i = true → s.inProgress = true ∨ s.granted = true

theorem RInv.init (n : Nat) (hn : 0 < n) : RInv n (fun _ => []) Rti.init :=
  ⟨Core.init n hn, fun h => (by cases h), fun _ _ h => (by cases h)⟩

theorem RInv.fresh {n : Nat} {H : Nat → List Tag} {s : Rti} (r : RInv n H s) {f : Nat} (hf : f < n)
    (hc : s.connected f = true) (hH : H f = []) : s.requested f = false ∧ s.granted = false := by
  have h1 : s.requested f = false := by
    rw [Bool.eq_false_iff]; intro h
    rcases r.core.why f hf h with h' | h'
    · rw [hc] at h'; cases h'
    · exact h' hH
  refine ⟨h1, ?_⟩
  rw [Bool.eq_false_iff]; intro h
  rw [r.core.grants.1 h f hf] at h1; cases h1

theorem raiseMax_eq (s : Rti) (t : Tag) : raiseMax s t = { s with maxStop := (raiseMax s t).maxStop } := by
  unfold raiseMax; split <;> rfl

/-- The RTI counts the first proposal of a federate. -/
theorem RInv.propose {n : Nat} {H : Nat → List Tag} {s : Rti} (r : RInv n H s) {f : Nat} (hf : f < n)
    (hc : s.connected f = true) (hH : H f = []) (t : Tag) :
    Core n (upd H f [t]) (mark n (raiseMax s t) f).1 ∧
    (mark n (raiseMax s t) f).1.inProgress = s.inProgress ∧
    (mark n (raiseMax s t) f).1.connected = s.connected ∧
    (mark n (raiseMax s t) f).1.requested = upd s.requested f true ∧
    ((mark n (raiseMax s t) f).2 = true ↔ (mark n (raiseMax s t) f).1.granted = true) ∧
    (∀ i, (mark n (raiseMax s t) f).1.out i = s.out i ∨ ∃ g, (mark n (raiseMax s t) f).1.out i = s.out i ++ [.granted g]) ∧
    (mark n (raiseMax s t) f).1.maxStop = (raiseMax s t).maxStop := by
  obtain ⟨_, _, _, _, _, _, _, h8, h9, h10⟩ := raiseMax_spec s t
  refine r.core.mark' hf (r.fresh hf hc hH).1 (upd H f [t]) (fun i h => upd_ne _ _ h) ?_ (Or.inr (by simp))
    (raiseMax_eq s t) ?_ h8 ?_
  · rw [hH]; intro t h; cases h
  · intro t' h
    rw [upd_same, List.mem_singleton] at h
    rw [h]; exact h9
  · rcases h10 with h | h
    · right; rw [h.1]; simp
    · exact Or.inl h.1

theorem grow {s : Rti} {l : List Msg} {i : Nat} (h : l = s.out i ∨ ∃ g, l = s.out i ++ [.granted g]) {m : Msg}
    (hm : m ∈ s.out i) : m ∈ l := by
  rcases h with h | ⟨g, h⟩ <;> rw [h]
  · exact hm
  · exact List.mem_append_left _ hm

theorem grow_count {s : Rti} {l : List Msg} {i : Nat} (h : l = s.out i ∨ ∃ g, l = s.out i ++ [.granted g]) :
    l.countP isRequest = (s.out i).countP isRequest := by
  rcases h with h | ⟨g, h⟩ <;> rw [h]
  rw [List.countP_append]; simp [isRequest]

theorem RInv.reply {n : Nat} {H : Nat → List Tag} {s : Rti} (r : RInv n H s) {f : Nat} (hf : f < n)
    (hc : s.connected f = true) (hH : H f = []) (t : Tag) (hp : s.inProgress = true) :
    RInv n (upd H f [t]) (handleReply n s f t) := by
  obtain ⟨h1, h2, h3, h4, h5, h6, h7⟩ := r.propose hf hc hH t
  refine ⟨h1, ?_, ?_⟩
  · intro _ i hi hci
    unfold handleReply at hci ⊢
    rw [h3] at hci
    rw [h4]
    rcases r.asked hp i hi hci with h | ⟨t', h⟩
    · left
      by_cases hif : i = f
      · subst hif; simp
      · rw [upd_ne _ _ hif]; exact h
    · exact Or.inr ⟨t', grow (h6 i) h⟩
  · intro _ _ _
    left
    unfold handleReply
    rw [h2]; exact hp

/-- The loop that forwards a request. -/
theorem forward_inv {n f : Nat} {H : Nat → List Tag} {tag : Tag} {s : Rti} (c : Core n H s) (hp : s.inProgress = true)
    (h0 : ∀ i, (s.out i).countP isRequest = 0) (hrf : s.requested f = true) (k : Nat) (hk : k ≤ n) :
    Core n H (forwardLoop n f tag k s) ∧ (forwardLoop n f tag k s).inProgress = true ∧
    (forwardLoop n f tag k s).connected = s.connected ∧
    (∀ i, s.requested i = true → (forwardLoop n f tag k s).requested i = true) ∧
    (∀ i < k, s.connected i = true →
      (forwardLoop n f tag k s).requested i = true ∨ ∃ t, .request t ∈ (forwardLoop n f tag k s).out i) ∧
    (∀ i, k ≤ i → ((forwardLoop n f tag k s).out i).countP isRequest = 0) := by
  induction k with
  | zero => exact ⟨c, hp, rfl, fun i h => h, fun i h => (by omega), fun i _ => h0 i⟩
  | succ k ih =>
    obtain ⟨i1, i2, i3, i4, i5, i6⟩ := ih (by omega)
    unfold forwardLoop
    simp only []
    generalize hS : forwardLoop n f tag k s = S at *
    by_cases hx : k ≠ f ∧ S.requested k = false
    · rw [if_pos hx]
      by_cases hc : S.connected k = false
      · rw [if_pos hc]
        obtain ⟨a1, a2, a3, a4, _, a6, a7⟩ := i1.mark' (s' := S) (f := k) (by omega) hx.2 H (fun _ _ => rfl)
          (fun _ h => h) (Or.inl hc) rfl (fun t h => (i1.known k t h).2.2) (Tag.le_refl _) (Or.inl rfl)
        have hreq : ∀ i, S.requested i = true → (mark n S k).1.requested i = true := by
          intro i h
          rw [a4]
          by_cases hik : i = k
          · subst hik; simp
          · rw [upd_ne _ _ hik]; exact h
        refine ⟨a1, by rw [a2]; exact i2, by rw [a3]; exact i3, fun i h => hreq i (i4 i h), ?_, ?_⟩
        · intro i hi hci
          by_cases hik : i = k
          · subst hik
            left; rw [a4]; simp
          · rcases i5 i (by omega) hci with h | ⟨t, h⟩
            · exact Or.inl (hreq i h)
            · exact Or.inr ⟨t, grow (a6 i) h⟩
        · intro i hi
          rw [grow_count (a6 i)]; exact i6 i (by omega)
      · rw [if_neg hc]
        refine ⟨i1.ask i2 tag (i6 k (Nat.le_refl _)), i2, i3, i4, ?_, ?_⟩
        · intro i hi hci
          by_cases hik : i = k
          · subst hik
            right; exact ⟨tag, by simp [send]⟩
          · rcases i5 i (by omega) hci with h | ⟨t, h⟩
            · exact Or.inl h
            · right; exact ⟨t, by simp only [send]; rw [upd_ne _ _ hik]; exact h⟩
        · intro i hi
          have hik : i ≠ k := by omega
          simp only [send]
          rw [upd_ne _ _ hik]; exact i6 i (by omega)
    · rw [if_neg hx]
      refine ⟨i1, i2, i3, i4, ?_, fun i hi => i6 i (by omega)⟩
      intro i hi hci
      by_cases hik : i = k
      · subst hik
        left
        rw [not_and] at hx
        by_cases hif : i = f
        · subst hif; exact i4 i hrf
        · simpa using hx hif
      · exact i5 i (by omega) hci

theorem Core.start {n : Nat} {H : Nat → List Tag} {s : Rti} (c : Core n H s) : Core n H { s with inProgress := true } :=
  ⟨c.count, c.why, c.known, c.max, c.grants, c.grant, c.once, c.each, fun _ h => (by cases h), c.askOnce, c.below⟩

theorem RInv.request {n : Nat} {H : Nat → List Tag} {s : Rti} (r : RInv n H s) {f : Nat} (hf : f < n)
    (hc : s.connected f = true) (hH : H f = []) (t : Tag) : RInv n (upd H f [t]) (handleRequest n s f t) := by
  obtain ⟨h1, h2, h3, h4, h5, h6, h7⟩ := r.propose hf hc hH t
  have hfr := (r.fresh hf hc hH).1
  unfold handleRequest
  rw [if_neg (by rw [hfr]; simp)]
  simp only []
  generalize hM : mark n (raiseMax s t) f = M at *
  have hasked : s.inProgress = true → ∀ i < n, M.1.connected i = true →
      M.1.requested i = true ∨ ∃ t, .request t ∈ M.1.out i := by
    intro hp i hi hci
    rw [h3] at hci
    rcases r.asked hp i hi hci with h | ⟨t', h⟩
    · left
      rw [h4]
      by_cases hif : i = f
      · subst hif; simp
      · rw [upd_ne _ _ hif]; exact h
    · exact Or.inr ⟨t', grow (h6 i) h⟩
  by_cases hg : M.2 = true
  · rw [if_pos hg]
    exact ⟨h1, fun hp => hasked (by rw [← h2]; exact hp), fun _ _ _ => Or.inr (h5.1 hg)⟩
  · rw [if_neg hg]
    by_cases hp : M.1.inProgress = true
    · rw [if_pos hp]
      exact ⟨h1, fun hp => hasked (by rw [← h2]; exact hp), fun _ _ _ => Or.inl hp⟩
    · rw [if_neg hp]
      have hp' : M.1.inProgress = false := by simpa using hp
      obtain ⟨a1, a2, a3, a4, a5, a6⟩ := forward_inv (f := f) (tag := M.1.maxStop) h1.start rfl
        (fun i => h1.asks i hp') (by simp only []; rw [h4]; simp) n (Nat.le_refl _)
      exact ⟨a1, fun _ i hi hci => a5 i hi (by rw [a3] at hci; exact hci), fun _ _ _ => Or.inl a2⟩

theorem RInv.leave {n : Nat} {H : Nat → List Tag} {s : Rti} (r : RInv n H s) (f : Nat) :
    RInv n H { s with connected := upd s.connected f false, nextEvent := upd s.nextEvent f FOREVER_TAG } := by
  have hup : ∀ i, upd s.connected f false i = true → i ≠ f ∧ s.connected i = true := by
    intro i h
    by_cases hif : i = f
    · subst hif; simp at h
    · rw [upd_ne _ _ hif] at h; exact ⟨hif, h⟩
  refine ⟨⟨r.core.count, ?_, r.core.known, r.core.max, r.core.grants, r.core.grant, r.core.once, ?_, r.core.asks,
    r.core.askOnce, ?_⟩, ?_, r.begun⟩ <;> simp only []
  · intro i hi h
    rcases r.core.why i hi h with h' | h'
    · left
      by_cases hif : i = f
      · subst hif; simp
      · rw [upd_ne _ _ hif]; exact h'
    · exact Or.inr h'
  · intro hg i hi hci
    exact r.core.each hg i hi (hup i hci).2
  · intro hg i hi hci
    rw [upd_ne _ _ (hup i hci).1]
    exact r.core.below hg i hi (hup i hci).2
  · intro hp i hi hci
    exact r.asked hp i hi (hup i hci).2

end ReactorC.Stop
