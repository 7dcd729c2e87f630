import Verif.Modes.Suspended
import Mathlib.Data.List.Nodup
import Mathlib.Data.List.Perm.Subperm
import Mathlib.Data.List.Range

/-!
# C106: the list of suspended events
-/

namespace ReactorC.Modes.Suspended

/-- The elements of a list that begins with `h`. -/
def Chain (next : Nat → Option Nat) : Option Nat → List Nat → Prop
  | h, [] => h = none
  | h, a :: l => h = some a ∧ Chain next (next a) l

/-- The elements in use, `l`, and those that are free, `f`, are all there are, once each. -/
structure Rep (s : St) (l f : List Nat) : Prop where
  used : Chain s.next s.head l
  rest : Chain s.next s.free f
  nodup : (l ++ f).Nodup
  all : l.length + f.length = s.brk
  below : ∀ x ∈ l ++ f, x < s.brk
  num : s.num = l.length
  full : ∀ x ∈ l, (s.event x).isSome

/-- The list has the events `es`, in this order. -/
def Holds (s : St) (es : List Nat) : Prop := ∃ l f, Rep s l f ∧ l.map s.event = es.map some

theorem chain_put {next : Nat → Option Nat} {a : Nat} {x : Option Nat} : ∀ {l : List Nat} {h : Option Nat}, a ∉ l → Chain next h l → Chain (put next a x) h l
  | [], _, _, c => c
  | b :: l, h, ha, c => by
    obtain ⟨rfl, c⟩ := c
    rw [List.mem_cons, not_or] at ha
    refine ⟨rfl, ?_⟩
    have : put next a x b = next b := by simp [put, Ne.symm ha.1]
    rw [this]
    exact chain_put ha.2 c

theorem chain_tail {next : Nat → Option Nat} {a : Nat} {post : List Nat} : ∀ {pre : List Nat} {h : Option Nat}, Chain next h (pre ++ a :: post) → Chain next (next a) post
  | [], _, c => c.2
  | _ :: _, _, c => chain_tail c.2

theorem find_eq {next : Nat → Option Nat} {a p : Nat} {x : Option Nat} {post : List Nat} :
    ∀ {pre : List Nat} {h k : Nat}, Chain next (some h) (pre ++ p :: a :: post) → (pre ++ p :: a :: post).Nodup → pre.length < k →
      findPred (put next a x) a k h = some p
  | _, _, 0, _, _, hk => by omega
  | [], h, k + 1, c, n, _ => by
    obtain ⟨e, e2, _⟩ := c
    cases e
    have : p ≠ a := by simp at n; tauto
    simp [findPred, put, this, e2]
  | b :: pre, h, k + 1, c, n, hk => by
    obtain ⟨e, c⟩ := c
    cases e
    rw [List.cons_append, List.nodup_cons] at n
    have hne : b ≠ a := fun e => n.1 (by simp [e])
    obtain ⟨c', hc, hca⟩ : ∃ c', next b = some c' ∧ c' ≠ a := by
      cases pre with
      | nil => refine ⟨p, c.1, ?_⟩; have := n.2; simp at this; tauto
      | cons d pre => refine ⟨d, c.1, fun e => ?_⟩; have := n.2; rw [List.cons_append, List.nodup_cons] at this; exact this.1 (by simp [e])
    rw [hc] at c
    have := find_eq (x := x) (k := k) c n.2 (by simp at hk; omega)
    simp [findPred, put, hne, hc, hca]
    exact this

theorem chain_splice {next : Nat → Option Nat} {a p : Nat} {x : Option Nat} {post : List Nat} :
    ∀ {pre : List Nat} {h : Option Nat}, Chain next h (pre ++ p :: a :: post) → (pre ++ p :: a :: post).Nodup →
      Chain (put (put next a x) p (next a)) h (pre ++ p :: post)
  | [], h, c, n => by
    obtain ⟨rfl, e2, c⟩ := c
    simp at n
    refine ⟨rfl, ?_⟩
    have : put (put next a x) p (next a) p = next a := by simp [put]
    rw [this]
    exact chain_put (by tauto) (chain_put (by tauto) c)
  | b :: pre, h, c, n => by
    obtain ⟨rfl, c⟩ := c
    rw [List.cons_append, List.nodup_cons] at n
    have h1 : b ≠ p := fun e => n.1 (by simp [e])
    have h2 : b ≠ a := fun e => n.1 (by simp [e])
    refine ⟨rfl, ?_⟩
    have : put (put next a x) p (next a) b = next b := by simp [put, h1, h2]
    rw [this]
    exact chain_splice c n.2

theorem remove_spec {s : St} {pre post f : List Nat} {a : Nat} (r : Rep s (pre ++ a :: post) f) :
    ∃ t, remove s a = some (t, s.next a) ∧ Rep t (pre ++ post) (a :: f) ∧ (∀ x, x ≠ a → t.event x = s.event x) ∧ t.brk = s.brk ∧
      Chain t.next (s.next a) post := by
  obtain ⟨r1, r2, r3, r4, r5, r6, r7⟩ := r
  have n' : (pre ++ post ++ a :: f).Nodup := by
    refine (List.Perm.nodup_iff ?_).mp r3
    simp only [List.append_assoc, List.cons_append]
    exact List.Perm.append_left pre (List.perm_middle.symm)
  have hb : ∀ x ∈ pre ++ post ++ a :: f, x < s.brk := fun x hx => r5 x (by simp at hx ⊢; tauto)
  have hl : (pre ++ post).length + (a :: f).length = s.brk := by rw [← r4]; simp; omega
  have hn : s.num - 1 = ((pre ++ post).length : Int) := by rw [r6]; simp; omega
  have he : ∀ x ∈ pre ++ post, x ≠ a := fun x hx e => by
    subst e; rw [List.nodup_append] at n'; exact n'.2.2 x hx x (by simp) rfl
  have haf : a ∉ f := by rw [List.nodup_append] at n'; exact (List.nodup_cons.mp n'.2.1).1
  have hfull : ∀ x ∈ pre ++ post, (put s.event a none x).isSome := fun x hx => by
    simp only [put, if_neg (he x hx)]; exact r7 x (by simp at hx ⊢; tauto)
  have hev : ∀ x, x ≠ a → put s.event a none x = s.event x := fun x hx => by simp [put, hx]
  have hpost : a ∉ post := fun h => he a (by simp [h]) rfl
  have hf : Chain (put s.next a s.free) (some a) (a :: f) := ⟨rfl, by simp only [put, if_true]; exact chain_put haf r2⟩
  have ct := chain_tail r1
  rcases List.eq_nil_or_concat pre with rfl | ⟨pre, p, rfl⟩
  · have hh : s.head = some a := r1.1
    refine ⟨⟨put s.next a s.free, put s.event a none, s.next a, some a, s.num - 1, s.brk⟩, by unfold remove; rw [if_pos hh], ⟨?_, hf, n', hl, hb, hn, hfull⟩, hev, rfl, ?_⟩
    · exact chain_put hpost ct
    · exact chain_put hpost ct
  · rw [List.concat_eq_append, List.append_assoc, List.singleton_append] at r1
    have n1 : (pre ++ p :: a :: post).Nodup := by
      have := (List.nodup_append.mp r3).1
      simpa using this
    have hpa : p ≠ a := he p (by simp)
    obtain ⟨h, hh, hha⟩ : ∃ h, s.head = some h ∧ h ≠ a := by
      cases pre with
      | nil => exact ⟨p, r1.1, hpa⟩
      | cons d pre => exact ⟨d, r1.1, he d (by simp)⟩
    have hfind : findPred (put s.next a s.free) a s.brk h = some p :=
      find_eq (hh ▸ r1) n1 (by rw [← r4]; simp; omega)
    have hpf : p ∉ a :: f := fun hm => by
      rw [List.nodup_append] at n'; exact n'.2.2 p (by simp) p hm rfl
    have hpp : p ∉ post := by
      rw [List.nodup_append] at n1; have := n1.2.1; simp at this; tauto
    refine ⟨⟨put (put s.next a s.free) p (s.next a), put s.event a none, s.head, some a, s.num - 1, s.brk⟩,
      by unfold remove; rw [if_neg (by rw [hh]; simpa using hha)]; simp only [hh, hfind], ⟨?_, ?_, n', hl, hb, hn, hfull⟩, hev, rfl, ?_⟩
    · have := chain_splice (x := s.free) r1 n1
      simpa [hh] using this
    · exact chain_put hpf hf
    · exact chain_put hpp (chain_put hpost ct)

theorem sweep_spec (P : Nat → Bool) : ∀ (suf pre f : List Nat) (s : St) (cur : Option Nat) (k : Nat) (es : List Nat),
    Rep s (pre ++ suf) f → Chain s.next cur suf → suf.length ≤ k → suf.map s.event = es.map some →
    ∃ t l f', sweep P k cur s = some (t, es.filter P) ∧ Rep t (pre ++ l) f' ∧ (∀ x ∈ pre, t.event x = s.event x) ∧
      l.map t.event = (es.filter fun e => !P e).map some ∧ t.brk = s.brk
  | [], pre, f, s, cur, k, es, r, c, _, he => by
    cases c
    have : es = [] := by simpa using he.symm
    subst this
    exact ⟨s, [], f, by cases k <;> simp [sweep], r, fun _ _ => rfl, rfl, rfl⟩
  | a :: suf, pre, f, s, cur, 0, es, _, _, hk, _ => by simp at hk
  | a :: suf, pre, f, s, cur, k + 1, [], _, _, _, he => by simp at he
  | a :: suf, pre, f, s, cur, k + 1, e :: es, r, c, hk, he => by
    obtain ⟨rfl, c⟩ := c
    simp only [List.map_cons, List.cons.injEq] at he
    obtain ⟨hea, he⟩ := he
    have hk : suf.length ≤ k := by simpa using hk
    have hn := (List.nodup_append.mp r.nodup).1
    have hna : a ∉ pre ∧ a ∉ suf := by
      have := List.nodup_middle.mp hn
      rw [List.nodup_cons] at this; simpa using this.1
    by_cases hP : P e = true
    · obtain ⟨t, h1, h2, h3, h4, h5⟩ := remove_spec r
      obtain ⟨u, l, f', g1, g2, g3, g4, g5⟩ := sweep_spec P suf pre (a :: f) t (s.next a) k es h2 h5 hk (by
        rw [← he]; exact List.map_congr_left fun x hx => h3 x (fun e => hna.2 (e ▸ hx)))
      refine ⟨u, l, f', ?_, g2, fun x hx => ?_, ?_, by rw [g5, h4]⟩
      · simp [sweep, hea, hP, h1, g1]
      · rw [g3 x hx, h3 x (fun e => hna.1 (e ▸ hx))]
      · simp [hP, g4]
    · obtain ⟨u, l, f', g1, g2, g3, g4, g5⟩ := sweep_spec P suf (pre ++ [a]) f s (s.next a) k es (by simpa using r) c hk he
      refine ⟨u, a :: l, f', ?_, by simpa using g2, fun x hx => g3 x (by simp [hx]), ?_, g5⟩
      · simp [sweep, hea, hP, g1]
      · simp [hP, g4, g3 a (by simp), hea]

/-- At the beginning the list is empty. -/
theorem C106_begins_empty : Holds .init [] := ⟨[], [], by constructor <;> simp [St.init, Chain], rfl⟩

/-- Suspending an event puts it in front of the others, which stay; an element is allocated only if all elements there are are in use. -/
theorem C106_suspended_event_is_kept {s : St} {es : List Nat} (h : Holds s es) (e : Nat) :
    Holds (add s e) (e :: es) ∧ (add s e).brk = max s.brk (es.length + 1) := by
  obtain ⟨l, f, ⟨r1, r2, r3, r4, r5, r6, r7⟩, he⟩ := h
  have hlen : l.length = es.length := by simpa using congrArg List.length he
  unfold add
  cases f with
  | nil =>
    have hf : s.free = none := r2
    have hb : s.brk ∉ l := fun m => absurd (r5 _ (by simp [m])) (lt_irrefl _)
    rw [hf]
    refine ⟨⟨s.brk :: l, [], ?_, ?_⟩, by simp at r4 ⊢; omega⟩
    · refine ⟨⟨rfl, by simp only [put, if_true]; exact chain_put hb r1⟩, rfl, by simpa using ⟨hb, by simpa using r3⟩, by simp at r4 ⊢; omega, ?_, by simp [r6], ?_⟩
      · intro x hx; simp at hx
        rcases hx with rfl | hx
        · simp
        · have := r5 x (by simp [hx]); simp; omega
      · intro x hx; simp only [put]; split
        · rfl
        · rename_i hne; exact r7 x (by simpa [hne] using hx)
    · simp only [List.map_cons, put, if_true, List.cons.injEq, true_and]
      rw [← he]
      exact List.map_congr_left fun x hx => by unfold put; rw [if_neg (fun e => hb (by rw [← e]; exact hx))]
  | cons a f =>
    obtain ⟨hf, r2⟩ := r2
    have n' := List.nodup_middle.mp r3
    rw [List.nodup_cons] at n'
    have hal : a ∉ l := fun m => n'.1 (by simp [m])
    have haf : a ∉ f := fun m => n'.1 (by simp [m])
    rw [hf]
    refine ⟨⟨a :: l, f, ?_, ?_⟩, by simp at r4 ⊢; omega⟩
    · refine ⟨⟨rfl, by simp only [put, if_true]; exact chain_put hal r1⟩, chain_put haf r2, List.nodup_cons.mpr n', by simp at r4 ⊢; omega, ?_, by simp [r6], ?_⟩
      · intro x hx; exact r5 x (by simp at hx ⊢; tauto)
      · intro x hx; simp only [put]; split
        · rfl
        · rename_i hne; exact r7 x (by simpa [hne] using hx)
    · simp only [List.map_cons, put, if_true, List.cons.injEq, true_and]
      rw [← he]
      exact List.map_congr_left fun x hx => by unfold put; rw [if_neg (fun e => hal (by rw [← e]; exact hx))]

/-- When a mode becomes active, the loop ends without a crash, takes all its events off the list, each once and in order, and leaves all others, in order; nothing is allocated. -/
theorem C106_events_of_the_mode_are_taken {s : St} {es : List Nat} (h : Holds s es) (P : Nat → Bool) :
    ∃ t, sweep P s.brk s.head s = some (t, es.filter P) ∧ Holds t (es.filter fun e => !P e) ∧ t.brk = s.brk := by
  obtain ⟨l, f, r, he⟩ := h
  obtain ⟨t, l', f', h1, h2, _, h4, h5⟩ := sweep_spec P l [] f s s.head s.brk es r r.used (by have := r.all; omega) he
  exact ⟨t, h1, ⟨l', f', h2, h4⟩, h5⟩

/-- The number of suspended events is that of the list. -/
theorem C106_number_is_exact {s : St} {es : List Nat} (h : Holds s es) : s.num = es.length := by
  obtain ⟨l, f, r, he⟩ := h
  have hlen : l.length = es.length := by simpa using congrArg List.length he
  rw [r.num, hlen]

theorem collect_eq {next : Nat → Option Nat} : ∀ {l : List Nat} {h : Option Nat} {k : Nat}, Chain next h l → l.length ≤ k → collect next k h = l
  | [], _, k, c, _ => by cases c; cases k <;> rfl
  | _ :: _, _, 0, _, hk => by simp at hk
  | a :: l, _, k + 1, c, hk => by
    obtain ⟨rfl, c⟩ := c
    simp only [collect, List.cons.injEq, true_and]
    exact collect_eq c (by simpa using hk)

/-- At the end every element that has been allocated is freed, once. -/
theorem C106_all_elements_are_freed_once {s : St} {es : List Nat} (h : Holds s es) :
    (freed s).Nodup ∧ ∀ x, x ∈ freed s ↔ x < s.brk := by
  obtain ⟨l, f, r, _⟩ := h
  have e : freed s = l ++ f := by
    unfold freed
    rw [collect_eq r.used (by have := r.all; omega), collect_eq r.rest (by have := r.all; omega)]
  rw [e]
  refine ⟨r.nodup, fun x => ⟨r.below x, fun hx => ?_⟩⟩
  have sub : l ++ f ⊆ List.range s.brk := fun y hy => List.mem_range.mpr (r.below y hy)
  have p := (List.Nodup.subperm r.nodup sub).perm_of_length_le (by simp [r.all])
  exact p.mem_iff.mpr (List.mem_range.mpr hx)

/-- Histories: events are suspended, and those of a mode are taken off the list.  `es`: the events that are suspended.  `m`: the most there have been at one time. -/
inductive History : St → List Nat → Nat → Prop
  | init : History .init [] 0
  | suspend {s es m} (e : Nat) : History s es m → History (add s e) (e :: es) (max m (es.length + 1))
  | activate {s es m} (P : Nat → Bool) {t r} : History s es m → sweep P s.brk s.head s = some (t, r) → History t (es.filter fun e => !P e) m

/-- In all histories the list has the events that are suspended, and there are as many elements as there have been suspended events at one time. -/
theorem C106_all_histories {s : St} {es : List Nat} {m : Nat} (h : History s es m) : Holds s es ∧ s.brk = m := by
  induction h with
  | init => exact ⟨C106_begins_empty, rfl⟩
  | suspend e _ ih =>
    have := C106_suspended_event_is_kept ih.1 e
    exact ⟨this.1, by rw [this.2, ih.2]⟩
  | activate P _ e ih =>
    obtain ⟨t, h1, h2, h3⟩ := C106_events_of_the_mode_are_taken ih.1 P
    rw [h1] at e
    cases e
    exact ⟨h2, by rw [h3, ih.2]⟩

/-- An element that is not in the list cannot be removed from it: the test for NULL comes after the access. -/
theorem C106_removal_of_others_not_safe : remove (add .init 3) 7 = none := by rfl

/-! ## The hypotheses are met -/

example : Holds (add (add (add .init 3) 4) 5) [5, 4, 3] :=
  (C106_suspended_event_is_kept (C106_suspended_event_is_kept (C106_suspended_event_is_kept C106_begins_empty 3).1 4).1 5).1

example : (sweep (· = 4) 3 (some 2) (add (add (add .init 3) 4) 5)).map (·.2) = some [4] := by decide
example : (sweep (fun _ => true) 3 (some 2) (add (add (add .init 3) 4) 5)).map (fun r => (r.2, r.1.head, r.1.free, freed r.1)) =
    some ([5, 4, 3], none, some 0, [0, 1, 2]) := by decide

-- Three events, of which two are taken off, and another one: three elements.
example : ∃ s, History s [6, 4] 3 := by
  have h := ((History.init.suspend 3).suspend 4).suspend 5
  obtain ⟨t, e, _⟩ := C106_events_of_the_mode_are_taken (C106_all_histories h).1 (fun e => e % 2 = 1)
  exact ⟨_, (h.activate _ e).suspend 6⟩

end ReactorC.Modes.Suspended
