import Verif.Http.Spec

namespace ReactorC.Http

/-! ## The bytes that are read -/

/-- The first `n` bytes that are read. -/
def stream : Nat → Conn → Text
  | 0, _ => []
  | n + 1, s => (next s).1 :: stream n (next s).2

theorem run_eq : ∀ (n : Nat) (p : Parser) (s : Conn), (run n p s).1 = (stream n s).foldl step p
  | 0, _, _ => rfl
  | n + 1, p, s => by simp only [run, stream, List.foldl_cons]; exact run_eq n _ _

/-- After `n` bytes. -/
def after (s : Conn) (n : Nat) : Conn := Nat.rec s (fun _ x => (next x).2) n

theorem stream_length : ∀ (n : Nat) (s : Conn), (stream n s).length = n
  | 0, _ => rfl
  | n + 1, s => by simp [stream, stream_length n]

/-- The bytes received and to be received. -/
def rest (s : Conn) : Text := s.got ++ flow s.inc

theorem flow_recv {n : Nat} (hn : n ≠ 0) {es inc : List Event} {t : Text} (h : recv n es = some (t, inc)) : flow es = t ++ flow inc ∧ (t = [] → es = [] ∧ inc = []) := by
  cases es with
  | nil => simp [recv] at h; obtain ⟨rfl, rfl⟩ := h; simp [flow]
  | cons e r =>
    cases e with
    | fail => simp [recv] at h
    | data c u =>
      simp only [recv, if_neg hn, Option.some.injEq, Prod.mk.injEq] at h
      obtain ⟨h1, h2⟩ := h
      subst h1
      refine ⟨?_, ?_⟩
      · have e := List.take_append_drop n (c :: u)
        cases hd : (c :: u).drop n with
        | nil => rw [hd] at h2 e; simp only at h2; subst h2; rw [List.append_nil] at e; rw [e]; rfl
        | cons d ds =>
          rw [hd] at h2 e; simp only at h2; subst h2
          simp only [flow]
          rw [← List.append_assoc, e]
      · intro hx
        have : n ≠ 0 := hn
        cases n with
        | zero => exact absurd rfl hn
        | succ k => simp at hx

/-- Something is left to be asked for. -/
def Open (s : Conn) : Prop := s.size ≠ 0

/-- As long as something comes in, the next byte is the next that comes in. -/
theorem next_flow {s : Conn} (ho : Open s) {c : Char} {t : Text} (h : rest s = c :: t) : (next s).1 = c ∧ rest (next s).2 = t ∧ Open (next s).2 := by
  unfold next
  cases hg : s.got with
  | cons d r =>
    unfold rest at h
    rw [hg] at h
    simp only [List.cons_append, List.cons.injEq] at h
    exact ⟨h.1, by unfold rest; exact h.2, ho⟩
  | nil =>
    dsimp only
    unfold rest at h
    rw [hg, List.nil_append] at h
    cases hr : recv s.size s.inc with
    | none =>
      exfalso
      cases hi : s.inc with
      | nil => rw [hi] at hr; simp [recv] at hr
      | cons e r =>
        cases e with
        | fail => rw [hi] at h; simp [flow] at h
        | data d u => rw [hi] at hr; simp only [recv] at hr; rw [if_neg ho] at hr; cases hr
    | some x =>
      obtain ⟨u, inc⟩ := x
      have hf := flow_recv ho hr
      cases u with
      | nil => rw [(hf.2 rfl).1] at h; simp [flow] at h
      | cons d ds =>
        rw [hf.1] at h
        simp only [List.cons_append, List.cons.injEq] at h
        exact ⟨h.1, by unfold rest; exact h.2, by unfold Open; exact Nat.succ_ne_zero _⟩

theorem stream_flow : ∀ (t : Text) (s : Conn) (u : Text), Open s → rest s = t ++ u → ∃ s', stream t.length s = t ∧ Open s' ∧ rest s' = u ∧ ∀ n, stream (t.length + n) s = t ++ stream n s'
  | [], s, u, ho, h => ⟨s, rfl, ho, h, fun n => by simp⟩
  | c :: t, s, u, ho, h => by
    obtain ⟨h1, h2, h3⟩ := next_flow ho (show rest s = c :: (t ++ u) from h)
    obtain ⟨s', k1, k2, k3, k4⟩ := stream_flow t (next s).2 u h3 h2
    refine ⟨s', ?_, k2, k3, fun n => ?_⟩
    · simp only [List.length_cons, stream, h1, k1]
    · rw [List.length_cons, show t.length + 1 + n = (t.length + n) + 1 by omega]
      simp only [stream, h1, k4 n, List.cons_append]

/-! ## After the end -/

theorem recv_end (n : Nat) : recv n [] = some ([], []) := rfl

/-- Once the server has closed the connection, the first byte of the buffer is read for ever. -/
theorem stream_closed : ∀ (n : Nat) (s : Conn), s.got = [] → s.inc = [] → stream n s = List.replicate n s.first
  | 0, _, _, _ => rfl
  | n + 1, s, hg, hi => by
    have e : next s = (s.first, { s with size := 0, inc := [] }) := by
      unfold next; rw [hg, hi]; rfl
    simp only [stream, e, List.replicate_succ]
    rw [stream_closed n { s with size := 0, inc := [] } hg rfl]

/-- No errors come in. -/
def Calm : List Event → Prop
  | [] => True
  | .data _ _ :: r => Calm r
  | .fail :: _ => False

theorem calm_recv {n : Nat} {es inc : List Event} {t : Text} (hc : Calm es) (h : recv n es = some (t, inc)) : Calm inc := by
  cases es with
  | nil => simp [recv] at h; rw [h.2]; trivial
  | cons e r =>
    cases e with
    | fail => exact hc.elim
    | data c u =>
      simp only [recv] at h
      split at h
      · simp only [Option.some.injEq, Prod.mk.injEq] at h; rw [← h.2]; exact hc
      · simp only [Option.some.injEq, Prod.mk.injEq] at h
        rw [← h.2]
        split
        · exact hc
        · exact hc

theorem calm_flow_nil {es : List Event} (hc : Calm es) (h : flow es = []) : es = [] := by
  cases es with
  | nil => rfl
  | cons e r =>
    cases e with
    | fail => exact hc.elim
    | data c u => simp [flow] at h

/-- The first byte of the buffer is one that has been read, as is all that is in the buffer. -/
theorem next_first (s : Conn) (S : List Char) (h : s.first ∈ S) (hr : ∀ c ∈ rest s, c ∈ S) (ho : Open s) :
    (next s).2.first ∈ S := by
  unfold next
  cases hg : s.got with
  | cons d r => exact h
  | nil =>
    dsimp only
    cases hx : recv s.size s.inc with
    | none => exact h
    | some x =>
      obtain ⟨u, inc⟩ := x
      cases u with
      | nil => exact h
      | cons d ds =>
        refine hr d ?_
        unfold rest; rw [hg, List.nil_append, (flow_recv ho hx).1]; simp

theorem next_calm (s : Conn) (hc : Calm s.inc) : Calm (next s).2.inc := by
  unfold next
  cases hg : s.got with
  | cons d r => exact hc
  | nil =>
    dsimp only
    cases hx : recv s.size s.inc with
    | none => exact hc
    | some x =>
      obtain ⟨u, inc⟩ := x
      have := calm_recv hc hx
      cases u with
      | nil => exact this
      | cons d ds => exact this

/-- What is read when the server closes the connection: what came in, and then one byte again and again. -/
theorem stream_calm : ∀ (t : Text) (s : Conn) (S : List Char), Open s → Calm s.inc → rest s = t → s.first ∈ S → (∀ c ∈ t, c ∈ S) →
    ∃ b ∈ S, ∀ n, stream (t.length + n) s = t ++ List.replicate n b
  | [], s, S, ho, hc, h, hf, _ => by
    unfold rest at h
    obtain ⟨h1, h2⟩ := List.append_eq_nil_iff.1 h
    exact ⟨s.first, hf, fun n => by
      rw [List.length_nil, Nat.zero_add, List.nil_append]; exact stream_closed n s h1 (calm_flow_nil hc h2)⟩
  | c :: t, s, S, ho, hc, h, hf, hS => by
    obtain ⟨h1, h2, h3⟩ := next_flow ho h
    obtain ⟨b, hb, k⟩ := stream_calm t (next s).2 S h3 (next_calm s hc) h2 (next_first s S hf (by rw [h]; exact hS) ho)
      (fun x hx => hS x (List.mem_cons_of_mem _ hx))
    refine ⟨b, hb, fun n => ?_⟩
    rw [List.length_cons, show t.length + 1 + n = (t.length + n) + 1 by omega]
    simp only [stream, h1, k n, List.cons_append]

/-- After an error, the bytes that were received are read and then a zero. -/
theorem stream_fail : ∀ (t : Text) (s : Conn), Open s → rest s = t → (∃ a b, s.inc = a ++ .fail :: b ∧ Calm a) → stream (t.length + 1) s = t ++ [nul]
  | [], s, ho, h, ⟨a, b, he, hc⟩ => by
    unfold rest at h
    obtain ⟨h1, h2⟩ := List.append_eq_nil_iff.1 h
    have ha : a = [] := by
      cases a with
      | nil => rfl
      | cons e r =>
        cases e with
        | fail => exact hc.elim
        | data c u => rw [he] at h2; simp [flow] at h2
    subst ha
    have : (next s).1 = nul := by
      unfold next
      rw [h1, he]; rfl
    simp [stream, this]
  | c :: t, s, ho, h, ⟨a, b, he, hc⟩ => by
    obtain ⟨h1, h2, h3⟩ := next_flow ho h
    have h4 : ∃ a b, (next s).2.inc = a ++ .fail :: b ∧ Calm a := by
      unfold next
      cases hg : s.got with
      | cons d r => exact ⟨a, b, he, hc⟩
      | nil =>
        dsimp only
        cases hx : recv s.size s.inc with
        | none => exact ⟨a, b, he, hc⟩
        | some x =>
          obtain ⟨u, inc⟩ := x
          have : ∃ a b, inc = a ++ .fail :: b ∧ Calm a := by
            cases a with
            | nil => rw [he] at hx; simp [recv] at hx
            | cons e r =>
              cases e with
              | fail => exact hc.elim
              | data d v =>
                rw [he] at hx
                simp only [List.cons_append, recv] at hx
                split at hx
                · simp only [Option.some.injEq, Prod.mk.injEq] at hx
                  exact ⟨.data d v :: r, b, hx.2.symm, hc⟩
                · simp only [Option.some.injEq, Prod.mk.injEq] at hx
                  rw [← hx.2]
                  split
                  · exact ⟨r, b, rfl, hc⟩
                  · rename_i x xs _
                    exact ⟨.data x xs :: r, b, rfl, hc⟩
          cases u with
          | nil => exact this
          | cons d ds => exact this
    have k := stream_fail t (next s).2 h3 h2 h4
    rw [List.length_cons]
    show (next s).1 :: stream (t.length + 1) (next s).2 = _
    rw [k, h1]; rfl

/-! ## The parser -/

theorem feed_version : ∀ (v : Text), (∀ c ∈ v, c ≠ ' ' ∧ c ≠ nul) → ∀ r l, v.foldl step ⟨.version, r, l⟩ = ⟨.version, r, l⟩
  | [], _, _, _ => rfl
  | c :: v, h, r, l => by
    have hc := h c (by simp)
    rw [List.foldl_cons, show step ⟨.version, r, l⟩ c = ⟨.version, r, l⟩ by simp [step, hc.1, hc.2]]
    exact feed_version v (fun x hx => h x (List.mem_cons_of_mem _ hx)) r l

theorem feed_seek : ∀ (v : Text), (∀ c ∈ v, c ≠ '\n' ∧ c ≠ nul) → ∀ r l, v.foldl step ⟨.seek, r, l⟩ = ⟨.seek, r, l⟩
  | [], _, _, _ => rfl
  | c :: v, h, r, l => by
    have hc := h c (by simp)
    rw [List.foldl_cons, show step ⟨.seek, r, l⟩ c = ⟨.seek, r, l⟩ by simp [step, hc.1, hc.2]]
    exact feed_seek v (fun x hx => h x (List.mem_cons_of_mem _ hx)) r l

theorem isDigit_eq (c : Char) : isDigit c = c.isDigit := by
  unfold isDigit Char.isDigit
  rw [Bool.eq_iff_iff]
  simp only [decide_eq_true_eq, Bool.and_eq_true, ge_iff_le]
  exact Iff.rfl

/-- The number that is read, when there is a number before. -/
def valueFrom (n : Nat) (t : Text) : Nat := t.foldl (fun n c => 10 * n + (c.toNat - 48)) n

theorem valueFrom_mono : ∀ (t : Text) (n : Nat), n ≤ valueFrom n t
  | [], n => Nat.le_refl n
  | c :: t, n => by
    have := valueFrom_mono t (10 * n + (c.toNat - 48))
    simp only [valueFrom, List.foldl_cons] at *
    omega

theorem addDigit_eq (n : Nat) (c : Char) : addDigit n c = 10 * n + (c.toNat - 48) := by
  unfold addDigit; rw [show '0'.toNat = 48 from rfl, Nat.mul_comm]

theorem isDigit_nul {c : Char} (h : c.isDigit = true) : c ≠ nul := by
  rintro rfl; revert h; decide

theorem feed_code : ∀ (d : Text), (∀ c ∈ d, c.isDigit = true) → ∀ r l, valueFrom r d ≤ 2147483647 → d.foldl step ⟨.code, r, l⟩ = ⟨.code, valueFrom r d, l⟩
  | [], _, _, _, _ => rfl
  | c :: d, h, r, l, hb => by
    have hc := h c (by simp)
    have hm := valueFrom_mono d (10 * r + (c.toNat - 48))
    have he : valueFrom r (c :: d) = valueFrom (10 * r + (c.toNat - 48)) d := rfl
    rw [he] at hb ⊢
    have hs : step ⟨.code, r, l⟩ c = ⟨.code, addDigit r c, l⟩ := by
      simp only [step]
      rw [if_neg (isDigit_nul hc), if_pos (by rw [isDigit_eq]; exact hc), if_pos (by rw [addDigit_eq]; omega)]
    rw [List.foldl_cons, hs, addDigit_eq]
    exact feed_code d (fun x hx => h x (List.mem_cons_of_mem _ hx)) _ l hb

theorem feed_number : ∀ (d : Text), (∀ c ∈ d, c.isDigit = true) → ∀ r l, valueFrom l d ≤ 2147483647 → d.foldl step ⟨.field [], r, l⟩ = ⟨.field [], r, valueFrom l d⟩
  | [], _, _, _, _ => rfl
  | c :: d, h, r, l, hb => by
    have hc := h c (by simp)
    have hm := valueFrom_mono d (10 * l + (c.toNat - 48))
    have he : valueFrom l (c :: d) = valueFrom (10 * l + (c.toNat - 48)) d := rfl
    rw [he] at hb ⊢
    have hs : step ⟨.field [], r, l⟩ c = ⟨.field [], r, addDigit l c⟩ := by
      simp only [step]
      rw [if_neg (isDigit_nul hc), if_pos (by rw [isDigit_eq]; exact hc), if_pos (by rw [addDigit_eq]; omega)]
    rw [List.foldl_cons, hs, addDigit_eq]
    exact feed_number d (fun x hx => h x (List.mem_cons_of_mem _ hx)) r _ hb

/-- The end of a number that is not the end of a line. -/
theorem number_end {c : Char} (hd : c.isDigit = false) (hn : c ≠ nul) (r l : Nat) : step ⟨.field [], r, l⟩ c = ⟨.seek, r, l⟩ := by
  simp only [step]
  rw [if_neg hn, if_neg (by rw [isDigit_eq, hd]; simp)]

/-- Within the name of a header: it goes on as the name does, or the rest of the line is skipped. -/
theorem feed_field : ∀ (w u : Text), (∀ c ∈ u, c ≠ '\n' ∧ c ≠ nul) → ∀ r l, ¬ w <+: u → (u ++ ['\r']).foldl step ⟨.field w, r, l⟩ = ⟨.seek, r, l⟩ ∨ w.head? = some '\r' ∨ '\r' ∈ w
  | [], u, _, _, _, hp => absurd (List.nil_prefix) hp
  | w :: ws, [], _, r, l, _ => by
    by_cases hw : '\r' = w
    · right; right; rw [hw]; simp
    · left
      show step ⟨.field (w :: ws), r, l⟩ '\r' = _
      simp only [step]
      rw [if_neg hw, if_neg (by decide)]
  | w :: ws, c :: u, hu, r, l, hp => by
    have hc := hu c (by simp)
    by_cases hw : c = w
    · subst hw
      have hp' : ¬ ws <+: u := fun h => hp (by rw [List.cons_prefix_cons]; exact ⟨rfl, h⟩)
      rcases feed_field ws u (fun x hx => hu x (List.mem_cons_of_mem _ hx)) r l hp' with h | h | h
      · left
        rw [List.cons_append, List.foldl_cons, show step ⟨.field (c :: ws), r, l⟩ c = ⟨.field ws, r, l⟩ by simp [step]]
        exact h
      · right; right
        cases ws with
        | nil => simp at h
        | cons x xs => simp only [List.head?_cons, Option.some.injEq] at h; rw [h]; simp
      · right; right; exact List.mem_cons_of_mem _ h
    · left
      have hs : step ⟨.field (w :: ws), r, l⟩ c = ⟨.seek, r, l⟩ := by
        simp only [step]; rw [if_neg hw, if_neg hc.2]
      rw [List.cons_append, List.foldl_cons, hs]
      apply feed_seek
      intro x hx
      rcases List.mem_append.1 hx with h | h
      · exact hu x (List.mem_cons_of_mem _ h)
      · simp only [List.mem_singleton] at h; subst h; decide

theorem feed_match : ∀ (w u : Text) (r l : Nat), w.foldl step ⟨.field (w ++ u), r, l⟩ = ⟨.field u, r, l⟩
  | [], _, _, _ => rfl
  | c :: w, u, r, l => by
    rw [List.cons_append, List.foldl_cons, show step ⟨.field (c :: (w ++ u)), r, l⟩ c = ⟨.field (w ++ u), r, l⟩ by simp [step]]
    exact feed_match w u r l

theorem seek_ends {r l : Nat} : step ⟨.seek, r, l⟩ '\n' = ⟨.first, r, l⟩ := by
  simp only [step]; rw [if_neg (by decide)]; rfl

/-- A line that does not give the length. -/
theorem feed_plain {h : Text} (hne : h ≠ []) (hl : ∀ c ∈ h, c ≠ '\n' ∧ c ≠ nul) (ha : ¬ announces h) (r l : Nat) :
    (h ++ "\r\n".toList).foldl step ⟨.first, r, l⟩ = ⟨.first, r, l⟩ := by
  have e : h ++ "\r\n".toList = (h ++ ['\r']) ++ ['\n'] := by simp
  rw [e, List.foldl_append]
  suffices hx : (h ++ ['\r']).foldl step ⟨.first, r, l⟩ = ⟨.seek, r, l⟩ by rw [hx]; exact seek_ends
  cases h with
  | nil => exact absurd rfl hne
  | cons c u =>
    have hc := hl c (by simp)
    have hu : ∀ x ∈ u, x ≠ '\n' ∧ x ≠ nul := fun x hx => hl x (List.mem_cons_of_mem _ hx)
    have hur : ∀ x ∈ u ++ ['\r'], x ≠ '\n' ∧ x ≠ nul := by
      intro x hx
      rcases List.mem_append.1 hx with h | h
      · exact hu x h
      · simp only [List.mem_singleton] at h; subst h; decide
    rw [List.cons_append, List.foldl_cons]
    by_cases h1 : c = 'C'
    · have hs : step ⟨.first, r, l⟩ c = ⟨.field "ontent-Length: ".toList, r, l⟩ := by simp only [step]; rw [if_pos h1]
      rw [hs]
      have hp : ¬ "ontent-Length: ".toList <+: u := by
        intro hp
        apply ha
        unfold announces
        rw [show "Content-Length: ".toList = 'C' :: "ontent-Length: ".toList by decide, h1, List.cons_prefix_cons]
        exact ⟨rfl, hp⟩
      rcases feed_field _ u hu r l hp with h | h | h
      · exact h
      · exact absurd h (by decide)
      · exact absurd h (by decide)
    · by_cases h2 : c = '\r'
      · have hs : step ⟨.first, r, l⟩ c = ⟨.cr, r, l⟩ := by simp only [step]; rw [if_neg h1, if_pos h2]
        rw [hs]
        cases hv : u ++ ['\r'] with
        | nil => simp at hv
        | cons x xs =>
          have hx := hur x (by rw [hv]; simp)
          have hs : step ⟨.cr, r, l⟩ x = ⟨.seek, r, l⟩ := by simp only [step]; rw [if_neg hx.1, if_neg hx.2]
          rw [List.foldl_cons, hs]
          exact feed_seek xs (fun y hy => hur y (by rw [hv]; exact List.mem_cons_of_mem _ hy)) r l
      · have hs : step ⟨.first, r, l⟩ c = ⟨.seek, r, l⟩ := by simp only [step]; rw [if_neg h1, if_neg h2, if_neg hc.2]
        rw [hs]
        exact feed_seek _ hur r l

/-- A line that gives the length. -/
theorem feed_length {h : Text} (hl : ∀ c ∈ h, c ≠ '\n' ∧ c ≠ nul) (ha : announces h) (hs : announced h ≤ 2147483647) (r : Nat) :
    (h ++ "\r\n".toList).foldl step ⟨.first, r, 0⟩ = ⟨.first, r, announced h⟩ := by
  obtain ⟨u, rfl⟩ := ha
  have e : "Content-Length: ".toList ++ u ++ "\r\n".toList = 'C' :: ("ontent-Length: ".toList ++ (u ++ ['\r'] ++ ['\n'])) := by
    rw [show "Content-Length: ".toList = 'C' :: "ontent-Length: ".toList by decide]; simp
  have ed : announced ("Content-Length: ".toList ++ u) = value (u.takeWhile Char.isDigit) := by
    unfold announced
    rw [show (16 : Nat) = "Content-Length: ".toList.length by decide, List.drop_left]
  rw [ed] at hs ⊢
  rw [e, List.foldl_cons, show step ⟨.first, r, 0⟩ 'C' = ⟨.field "ontent-Length: ".toList, r, 0⟩ by simp [step], List.foldl_append]
  have hm := feed_match "ontent-Length: ".toList [] r 0
  rw [List.append_nil] at hm
  rw [hm, List.foldl_append]
  have hd := List.takeWhile_append_dropWhile (p := Char.isDigit) (l := u)
  have hw : ∀ c ∈ u.takeWhile Char.isDigit, c.isDigit = true := fun c hc => List.all_takeWhile (l := u) (p := Char.isDigit) |> List.all_eq_true.1 |> fun h => h c hc
  have hu : ∀ c ∈ u.dropWhile Char.isDigit, c ≠ '\n' ∧ c ≠ nul := fun c hc => hl c (List.mem_append_right _ (List.dropWhile_sublist _ |>.mem hc))
  have hx : (u ++ ['\r']).foldl step ⟨.field [], r, 0⟩ = ⟨.seek, r, value (u.takeWhile Char.isDigit)⟩ := by
    conv_lhs => rw [← hd]
    rw [List.append_assoc, List.foldl_append, feed_number _ hw r 0 hs]
    show _ = Parser.mk Ctl.seek r (valueFrom 0 (u.takeWhile Char.isDigit))
    cases hv : u.dropWhile Char.isDigit with
    | nil => exact number_end (c := '\r') (by decide) (by decide) _ _
    | cons x xs =>
      have hx := hu x (by rw [hv]; simp)
      have hxd : x.isDigit = false := by
        have := List.head?_dropWhile_not Char.isDigit u
        rw [hv] at this
        simpa using this
      rw [List.cons_append, List.foldl_cons, number_end hxd hx.2]
      apply feed_seek
      intro y hy
      rcases List.mem_append.1 hy with h | h
      · exact hu y (by rw [hv]; exact List.mem_cons_of_mem _ h)
      · simp only [List.mem_singleton] at h; subst h; decide
  rw [hx]; exact seek_ends

/-- Headers that do not give the length. -/
theorem feed_plains : ∀ (hs : List Text), (∀ h ∈ hs, h ≠ [] ∧ ∀ c ∈ h, c ≠ '\n' ∧ c ≠ nul) → (∀ h ∈ hs, ¬ announces h) → ∀ r l,
    (hs.flatMap (fun h => h ++ "\r\n".toList)).foldl step ⟨.first, r, l⟩ = ⟨.first, r, l⟩
  | [], _, _, _, _ => rfl
  | h :: hs, hl, ha, r, l => by
    have h1 := hl h (by simp)
    rw [List.flatMap_cons, List.foldl_append, feed_plain h1.1 h1.2 (ha h (by simp)) r l]
    exact feed_plains hs (fun x hx => hl x (List.mem_cons_of_mem _ hx)) (fun x hx => ha x (List.mem_cons_of_mem _ hx)) r l

/-- All headers. -/
theorem feed_headers : ∀ (hs : List Text), (∀ h ∈ hs, h ≠ [] ∧ ∀ c ∈ h, c ≠ '\n' ∧ c ≠ nul) → (∀ h ∈ hs, announces h → announced h ≤ 2147483647) → ∀ r,
    (hs.filter (fun h => decide (announces h))).length ≤ 1 →
    (hs.flatMap (fun h => h ++ "\r\n".toList)).foldl step ⟨.first, r, 0⟩ = ⟨.first, r, ((hs.find? (fun h => decide (announces h))).map announced).getD 0⟩
  | [], _, _, _, _ => rfl
  | h :: hs, hl, ha, r, ho => by
    rw [List.flatMap_cons, List.foldl_append]
    have h1 := hl h (by simp)
    by_cases hx : announces h
    · rw [List.filter_cons_of_pos (by simpa using hx), List.length_cons] at ho
      rw [feed_length h1.2 hx (ha h (by simp) hx) r, List.find?_cons_of_pos (by simpa using hx)]
      refine feed_plains hs (fun x hx => hl x (List.mem_cons_of_mem _ hx)) (fun x hx ha => ?_) r _
      have : x ∈ hs.filter (fun h => decide (announces h)) := List.mem_filter.2 ⟨hx, by simpa using ha⟩
      rw [List.length_eq_zero_iff.1 (show (hs.filter (fun h => decide (announces h))).length = 0 by omega)] at this
      cases this
    · rw [List.filter_cons_of_neg (by simpa using hx)] at ho
      rw [feed_plain h1.1 h1.2 hx r 0, List.find?_cons_of_neg (by simpa using hx)]
      exact feed_headers hs (fun x hx => hl x (List.mem_cons_of_mem _ hx)) (fun x hx => ha x (List.mem_cons_of_mem _ hx)) r ho

/-- The body ends. -/
theorem body_ends (r l : Nat) : ∀ (n : Nat) (s : Conn), ∃ k, ((stream k s).foldl step (inBody ⟨.cr, r, l⟩ n)).ctl = .done (result r)
  | 0, s => ⟨0, rfl⟩
  | n + 1, s => by
    by_cases hc : (next s).1 = nul
    · refine ⟨1, ?_⟩
      simp [stream, inBody, step, hc]
    · obtain ⟨k, hk⟩ := body_ends r l n (next s).2
      refine ⟨k + 1, ?_⟩
      simp only [stream, List.foldl_cons]
      have : step (inBody ⟨.cr, r, l⟩ (n + 1)) (next s).1 = inBody ⟨.cr, r, l⟩ n := by
        simp [inBody, step, hc]
      rw [this]; exact hk

/-- The answer without its last byte. -/
def headOf (a : Answer) : Text :=
  a.version ++ ' ' :: (a.status ++ (a.reason ++ "\r\n".toList ++ (a.headers.flatMap (fun h => h ++ "\r\n".toList) ++ ['\r'])))

theorem text_eq (a : Answer) : a.text = headOf a ++ ['\n'] := by simp [Answer.text, headOf]

theorem feed_head {a : Answer} (hg : a.Good) : (headOf a).foldl step start = ⟨.cr, value a.status, a.length⟩ := by
  unfold headOf start
  rw [List.foldl_append, feed_version _ hg.version, List.foldl_cons, show step ⟨.version, 0, 0⟩ ' ' = ⟨.code, 0, 0⟩ by simp only [step]; rw [if_neg (by decide)]; rfl]
  rw [List.foldl_append, feed_code _ hg.status 0 0 hg.small, List.foldl_append]
  have h1 : (a.reason ++ "\r\n".toList).foldl step ⟨.code, valueFrom 0 a.status, 0⟩ = ⟨.first, value a.status, 0⟩ := by
    show _ = Parser.mk Ctl.first (valueFrom 0 a.status) 0
    generalize valueFrom 0 a.status = v
    have key : ∀ c : Char, c.isDigit = false → c ≠ nul → step ⟨.code, v, 0⟩ c = ⟨.seek, v, 0⟩ := by
      intro c hd hn
      simp only [step]
      rw [if_neg hn, if_neg (by rw [isDigit_eq, hd]; simp)]
    cases hr : a.reason with
    | nil =>
      show step (step ⟨.code, v, 0⟩ '\r') '\n' = _
      rw [key _ (by decide) (by decide)]; exact seek_ends
    | cons c u =>
      have hc : c = ' ' := hg.space c (by rw [hr]; rfl)
      have hu : ∀ x ∈ u ++ ['\r'], x ≠ '\n' ∧ x ≠ nul := by
        intro x hx
        rcases List.mem_append.1 hx with h | h
        · exact hg.reason x (by rw [hr]; exact List.mem_cons_of_mem _ h)
        · simp only [List.mem_singleton] at h; subst h; decide
      rw [show c :: u ++ "\r\n".toList = c :: ((u ++ ['\r']) ++ ['\n']) by simp, List.foldl_cons, hc, key _ (by decide) (by decide), List.foldl_append,
        feed_seek _ hu]
      exact seek_ends
  rw [h1, List.foldl_append]
  rw [feed_headers a.headers hg.lines hg.length (value a.status) hg.once]
  show step ⟨.first, value a.status, a.length⟩ '\r' = _
  simp [step]

/-- The whole answer. -/
theorem feed_answer {a : Answer} (hg : a.Good) : a.text.foldl step start = inBody ⟨.cr, value a.status, a.length⟩ a.length := by
  rw [text_eq, List.foldl_append, feed_head hg]
  simp [step]

/-- Before the last byte of the answer. -/
theorem feed_last {a : Answer} (hg : a.Good) {t : Text} {d : Char} (ht : a.text = t ++ [d]) : (t.foldl step start).ctl = .cr := by
  rw [text_eq] at ht
  rw [← (List.append_inj' ht rfl).1, feed_head hg]

/-! ## Without an empty line -/

/-- Where the code can be after `t`, without zeros and without an empty line. -/
def Inside (p : Parser) (t : Text) : Prop :=
  match p.ctl with
  | .version | .code | .seek | .undef => True
  | .field w => nul ∉ w
  | .first => ['\n'] <:+ t
  | .cr => ['\n', '\r'] <:+ t
  | .body _ | .done _ => False

theorem inside_step {p : Parser} {t : Text} (h : Inside p t) {c : Char} (hn : c ≠ nul) (hb : ¬ blank <:+: t ++ [c]) : Inside (step p c) (t ++ [c]) := by
  obtain ⟨ctl, r, l⟩ := p
  cases ctl with
  | version =>
    simp only [step]; rw [if_neg hn]; split <;> trivial
  | code =>
    simp only [step]; rw [if_neg hn]
    split
    · split <;> trivial
    · trivial
  | seek =>
    simp only [step]; rw [if_neg hn]
    split
    · rename_i h; subst h; exact List.suffix_append _ _
    · trivial
  | first =>
    simp only [step]
    split
    · show nul ∉ "ontent-Length: ".toList
      decide
    · split
      · rename_i h2; subst h2
        obtain ⟨u, hu⟩ := (show ['\n'] <:+ t from h)
        refine ⟨u, ?_⟩
        rw [← hu]; simp
      · trivial
  | field w =>
    cases w with
    | nil =>
      simp only [step]; rw [if_neg hn]
      split
      · split
        · exact h
        · trivial
      · trivial
    | cons x xs =>
      simp only [step]
      split
      · exact fun hx => h (List.mem_cons_of_mem _ hx)
      · trivial
  | cr =>
    simp only [step]
    split
    · rename_i h2; subst h2
      exfalso; apply hb
      obtain ⟨u, hu⟩ := (show ['\n', '\r'] <:+ t from h)
      refine ⟨u, [], ?_⟩
      rw [← hu, show blank = ['\n', '\r', '\n'] by decide]; simp
    · trivial
  | body n => exact h.elim
  | done r => exact h.elim
  | undef => trivial

theorem inside_feed : ∀ (u t : Text) (p : Parser), Inside p t → (∀ c ∈ u, c ≠ nul) → ¬ blank <:+: t ++ u → Inside (u.foldl step p) (t ++ u)
  | [], t, p, h, _, _ => by rw [List.append_nil]; exact h
  | c :: u, t, p, h, hn, hb => by
    rw [List.foldl_cons, show t ++ c :: u = (t ++ [c]) ++ u by simp]
    rw [show t ++ c :: u = (t ++ [c]) ++ u by simp] at hb
    exact inside_feed u (t ++ [c]) _ (inside_step h (hn c (by simp)) (fun hx => hb (hx.trans (List.prefix_append _ _).isInfix)))
      (fun x hx => hn x (List.mem_cons_of_mem _ hx)) hb

theorem inside_start (u : Text) (hn : ∀ c ∈ u, c ≠ nul) (hb : ¬ blank <:+: u) : Inside (u.foldl step start) u := by
  have := inside_feed u [] start trivial hn (by simpa using hb)
  simpa using this

/-- A byte repeated behind a text does not make an empty line, unless it is the line feed that is missing. -/
theorem blank_replicate {t : Text} (h : ¬ blank <:+: t ++ ['\n']) (b : Char) (n : Nat) : ¬ blank <:+: t ++ List.replicate n b := by
  induction n with
  | zero =>
    rw [List.replicate_zero, List.append_nil]
    exact fun hx => h (hx.trans (List.prefix_append _ _).isInfix)
  | succ k ih =>
    rintro ⟨x, y, hxy⟩
    rw [List.replicate_succ', ← List.append_assoc] at hxy
    rcases List.eq_nil_or_concat y with rfl | ⟨y', d, rfl⟩
    · rw [List.append_nil, show blank = ['\n', '\r'] ++ ['\n'] by decide, ← List.append_assoc] at hxy
      obtain ⟨h1, h2⟩ := List.append_inj' hxy rfl
      simp only [List.cons.injEq, and_true] at h2
      subst h2
      cases k with
      | zero =>
        rw [List.replicate_zero, List.append_nil] at h1
        apply h
        refine ⟨x, [], ?_⟩
        rw [← h1, show blank = ['\n', '\r'] ++ ['\n'] by decide]; simp
      | succ j =>
        rw [List.replicate_succ', ← List.append_assoc, show ['\n', '\r'] = ['\n'] ++ ['\r'] by rfl, ← List.append_assoc] at h1
        have := (List.append_inj' h1 rfl).2
        simp at this
    · rw [List.concat_eq_append, ← List.append_assoc] at hxy
      exact ih ⟨x, y', (List.append_inj' hxy rfl).1⟩

/-- At the end nothing changes. -/
theorem step_done {p : Parser} {r : Int} (h : p.ctl = .done r) : ∀ t : Text, t.foldl step p = p
  | [] => rfl
  | c :: t => by
    obtain ⟨ctl, a, b⟩ := p
    simp only at h; subst h
    rw [List.foldl_cons, show step ⟨.done r, a, b⟩ c = ⟨.done r, a, b⟩ from rfl]
    exact step_done rfl t

theorem stream_prefix : ∀ (n k : Nat) (s : Conn), stream n s <+: stream (n + k) s
  | 0, k, s => by simp [stream]
  | n + 1, k, s => by
    rw [show n + 1 + k = (n + k) + 1 by omega]
    simp only [stream]
    rw [List.cons_prefix_cons]
    exact ⟨rfl, stream_prefix n k _⟩

end ReactorC.Http
