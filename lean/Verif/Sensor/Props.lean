import Verif.Sensor.Inv
import Verif.Print.Props

/-!
# C92: messages, ticks and keys of the sensor simulator
-/

namespace ReactorC.Sensor
open ReactorC.Printing (Text render)
open Spec

theorem render_plain {t : Text} (h : '%' ∉ t) : render t [] = some t := by
  have := Printing.render_lit t [] [] h
  rw [Printing.render_nil] at this
  simpa using this

/-- Messages and ticks are shown in the order in which they were posted, none is left out, shown twice or shown after the windows are closed; the thread waits only if all have been shown.
Partial: text with `%` is taken for a format, see `C92_percent_not_shown`. -/
theorem C92_messages_are_shown_in_order_partial {w : Size} {s : State} (h : Reach w s) (hp : ∀ e ∈ s.posted, '%' ∉ e.2) :
    ∃ n ≤ (wanted s.posted).length, s.screen.map (fun e => (e.1, e.2.1)) = ((wanted s.posted).take n).map (fun e => (e.1, some e.2)) ∧
      (s.closed = true → n = (wanted s.posted).length) ∧ (showNext w s = none ↔ n = s.posted.length) := by
  have hi := h.inv
  have htw : (wanted s.posted).take s.screen.length = s.posted.take s.screen.length ∧ s.screen.length ≤ (wanted s.posted).length := by
    have hsplit := List.take_append_drop s.screen.length s.posted
    have hw : wanted s.posted = s.posted.take s.screen.length ++ wanted (s.posted.drop s.screen.length) := by
      conv_lhs => rw [← hsplit]
      unfold wanted
      rw [List.takeWhile_append_of_pos]
      intro e he
      simpa using hi.open' e he
    have hlen : (s.posted.take s.screen.length).length = s.screen.length := by rw [List.length_take]; exact Nat.min_eq_left hi.len
    rw [hw]
    constructor
    · rw [List.take_append_of_le_length (by omega), List.take_of_length_le (by omega)]
    · rw [List.length_append]; omega
  refine ⟨s.screen.length, htw.2, ?_, ?_, ?_⟩
  · rw [hi.shown, htw.1]
    apply List.map_congr_left
    intro e he
    rw [render_plain (hp e (List.mem_of_mem_take he))]
  · intro hc
    obtain ⟨b, hb⟩ := hi.closed hc
    have hlt := (List.getElem?_eq_some_iff.1 hb).1
    by_contra hne
    have hl : s.screen.length < (wanted s.posted).length := by omega
    have hmem : (wanted s.posted)[s.screen.length] ∈ wanted s.posted := List.getElem_mem hl
    have hk : ((wanted s.posted)[s.screen.length]).1 ≠ .close := by
      have hall := List.all_takeWhile (p := fun e : Kind × Text => decide (e.1 ≠ .close)) (l := s.posted)
      have := List.all_eq_true.1 hall _ hmem
      simpa using this
    have hpre : wanted s.posted <+: s.posted := List.takeWhile_prefix _
    have := hpre.getElem hl
    have hx := (List.getElem?_eq_some_iff.1 hb).2
    rw [this, hx] at hk
    exact hk rfl
  · obtain ⟨l, r, hl, hr, nd, hm, hpp, hlen⟩ := hi.ex
    have hqe : showNext w s = none ↔ s.queue = none := by
      unfold showNext
      cases s.queue with
      | none => simp
      | some q => cases hk : (s.heap q).kind <;> simp [hk]
    rw [hqe]
    have := hi.len
    cases l with
    | nil =>
      have : s.queue = none := hl
      simp at hlen
      simp [this]; omega
    | cons q l =>
      rw [hl.1]
      simp at hlen ⊢
      omega

/-- Everything that has been posted before the windows are closed is shown, once the thread has had its turn. -/
theorem C92_all_messages_are_shown_partial {w : Size} {s : State} (h : Reach w s) (hp : ∀ e ∈ s.posted, '%' ∉ e.2) :
    (showAll w s.posted.length s).screen.map (fun e => (e.1, e.2.1)) = (wanted s.posted).map fun e => (e.1, some e.2) := by
  have key : ∀ n (s : State), Reach w s → (∀ e ∈ s.posted, '%' ∉ e.2) → s.posted.length - s.screen.length ≤ n →
      ((showAll w n s).screen.map (fun e => (e.1, e.2.1)) = (wanted s.posted).map fun e => (e.1, some e.2)) := by
    intro n
    induction n with
    | zero =>
      intro s h hp hn
      obtain ⟨k, hk, h1, h2, h3⟩ := C92_messages_are_shown_in_order_partial h hp
      have hl : s.screen.length = k := by
        have := congrArg List.length h1
        simpa [Nat.min_eq_left hk] using this
      have hw : (wanted s.posted).length ≤ s.posted.length := (List.takeWhile_prefix _).length_le
      have : k = (wanted s.posted).length := by omega
      simp only [showAll]
      rw [h1, this, List.take_length]
    | succ n ih =>
      intro s h hp hn
      obtain ⟨k, hk, h1, h2, h3⟩ := C92_messages_are_shown_in_order_partial h hp
      have hl : s.screen.length = k := by
        have := congrArg List.length h1
        simpa [Nat.min_eq_left hk] using this
      have hw : (wanted s.posted).length ≤ s.posted.length := (List.takeWhile_prefix _).length_le
      simp only [showAll]
      cases hc : s.closed with
      | true => simp only [if_true]; rw [h1, h2 hc, List.take_length]
      | false =>
        simp only [Bool.false_eq_true, if_false]
        cases hs : showNext w s with
        | none =>
          dsimp only
          have : k = (wanted s.posted).length := by have := h3.1 hs; omega
          rw [h1, this, List.take_length]
        | some s' =>
          dsimp only
          have hr' : Reach w s' := .step h (.show hc hs)
          have hfacts : s'.posted = s.posted ∧ (s'.screen.length = s.screen.length + 1 ∨ s'.closed = true ∧ s'.screen = s.screen) := by
            unfold showNext at hs
            cases hq : s.queue with
            | none => rw [hq] at hs; cases hs
            | some q =>
              rw [hq] at hs
              dsimp only at hs
              cases hkd : (s.heap q).kind <;> rw [hkd] at hs <;> simp only [Option.some.injEq] at hs <;> subst hs <;> simp [recycleFirst]
          rw [← hfacts.1]
          rcases hfacts.2 with hx | ⟨hx, hy⟩
          · exact ih s' hr' (hfacts.1 ▸ hp) (by rw [hfacts.1, hx]; omega)
          · have hsa : showAll w n s' = s' := by cases n <;> simp [showAll, hx]
            rw [hsa]
            obtain ⟨k', hk', g1, g2, -⟩ := C92_messages_are_shown_in_order_partial hr' (hfacts.1 ▸ hp)
            rw [g1, g2 hx, List.take_length]
  exact key _ s h hp (by omega)

/-- Three posts, one of them after closing. -/
example : (showAll ⟨5, 4, 6⟩ 4 (post (post (post (post initial .message "a\n".toList) .tick ".".toList) .close []) .message "b".toList)).screen =
    [(.message, some "a\n".toList, 0, 0), (.tick, some ".".toList, 1, 1)] := by decide +kernel

/-- Nodes are used again: there are as many as messages that have waited at the same time. -/
theorem C92_nodes_are_used_again {w : Size} {s : State} (h : Reach w s) (k : Kind) (b : Text) :
    (post s k b).size = max s.size (s.posted.length - s.screen.length + 1) := (inv_post h.inv k b).2.2.2.1

example : (post (showAll ⟨5, 4, 6⟩ 4 (post (post initial .tick []) .tick [])) .tick []).size = 2 := by decide +kernel

/-- Ticks are placed within the box of the tick window, and messages within the print window. -/
theorem C92_windows_are_respected {w : Size} (hw : 3 ≤ w.tickW) (hh : 3 ≤ w.tickH) (hp : 2 ≤ w.printH) {s : State} (h : Reach w s) :
    (∀ t y x, (Kind.tick, t, y, x) ∈ s.screen → 1 ≤ x ∧ x < w.tickW - 1 ∧ 1 ≤ y ∧ y < w.tickH - 1) ∧
    (∀ t y x, (Kind.message, t, y, x) ∈ s.screen → x = 0 ∧ y < w.printH - 1) := by
  have hi := h.inside hw hh
  refine ⟨fun t y x hx => ?_, fun t y x hx => ?_⟩
  · have := hi.ticks t y x hx; omega
  · have := hi.messages t y x hx; omega

example : (showAll ⟨5, 4, 4⟩ 4 (post (post (post initial .tick ".".toList) .tick ".".toList) .tick ".".toList)).screen.map (·.2.2) = [(1, 1), (1, 2), (2, 1)] := by decide +kernel

/-- The memory of ticks is not freed: whenever a tick has been shown, fewer texts have been freed than shown. -/
theorem C92_ticks_not_freed {w : Size} {s : State} (h : Reach w s) {t : Option Text} {y x : Nat} (ht : (Kind.tick, t, y, x) ∈ s.screen) : s.freed < s.screen.length := by
  rw [h.inv.freed]
  refine Nat.lt_of_le_of_ne (List.length_filter_le _ _) fun e => ?_
  have := List.length_filter_eq_length_iff.1 e _ ht
  simp at this

example : let s := showAll ⟨5, 4, 6⟩ 4 (post (post initial .tick ".".toList) .message "a".toList); (s.freed, s.screen.length) = (1, 2) := by decide +kernel

/-- A message whose text ends with `%` is undefined behaviour, as the text is used as a format. -/
theorem C92_percent_not_shown (w : Size) {s : State} (h : Reach w s) (hc : s.closed = false) (hq : s.screen.length = s.posted.length) (t : Text) (ht : '%' ∉ t) :
    ∃ s', showNext w (post s .message (t ++ ['%'])) = some s' ∧ s'.screen.map (fun e => (e.1, e.2.1)) = s.screen.map (fun e => (e.1, e.2.1)) ++ [(.message, none)] := by
  have hp : Reach w (post s .message (t ++ ['%'])) := .step h (.post _ _)
  obtain ⟨_, e1, e2, _, _, _, _, e3⟩ := inv_post h.inv .message (t ++ ['%'])
  have hr : render (t ++ ['%']) [] = none := by
    rw [Printing.render_lit _ _ _ ht, Printing.render_cons]; simp
  generalize post s .message (t ++ ['%']) = s1 at *
  cases hs : showNext w s1 with
  | none =>
    exfalso
    obtain ⟨l, r, hl, hr', nd, hm, hpp, hlen⟩ := hp.inv.ex
    rw [e1, e2] at hlen
    unfold showNext at hs
    cases l with
    | nil => simp at hlen; omega
    | cons q l =>
      rw [hl.1] at hs
      cases hk : (s1.heap q).kind <;> simp [hk] at hs
  | some s' =>
    refine ⟨s', rfl, ?_⟩
    cases hq1 : s1.queue with
    | none => simp [showNext, hq1] at hs
    | some q =>
      have hf := queue_first hp.inv hq1
      rw [e1, e2, hq] at hf
      simp only [List.getElem?_concat_length, Option.some.injEq] at hf
      have hk : (s1.heap q).kind = .message := (congrArg Prod.fst hf).symm
      have hb : (s1.heap q).body = t ++ ['%'] := (congrArg Prod.snd hf).symm
      unfold showNext at hs
      rw [hq1] at hs
      simp only [hk, Option.some.injEq] at hs
      subst hs
      simp [recycleFirst, e1, hb, hr]

example : (showAll ⟨5, 4, 6⟩ 1 (post initial .message "50%".toList)).screen = [(.message, none, 0, 0)] := by decide +kernel

/-! ## Keys -/

/-- Registering gives the documented codes, whatever has been registered before. -/
theorem C92_registering_gives_codes (before : List Registration) (r : Registration) : (registerKey (registerAll {} before) r.1 r.2).1 = code before r := by
  rw [registerKey_code, registerAll_get]
  have : (Keys.get {} r.1) = none := by unfold Keys.get; simp
  rw [this, Option.none_or]
  rfl

/-- Typing a key schedules the first action that was registered for it, then the first one for any key, and nothing else; the value is the code of the key, if it is a byte. -/
theorem C92_keys_schedule_actions (l : List Registration) (c : Int) : press (registerAll {} l) c = (scheduled l c).map (·, c % 256) := by
  rw [press_eq, registerAll_get, registerAll_get]
  have : ∀ k, (Keys.get {} k) = none := by intro k; unfold Keys.get; simp
  rw [this, this, Option.none_or, Option.none_or]
  rfl

example : press (registerAll {} [(97, some 1), (0, some 2), (97, some 3), (200, some 4), (10, some 5)]) 97 = [(1, 97), (2, 97)] := by decide
example : [(97, some 1), (200, some 2), (97, none), (97, some 3)].map (fun r => (registerKey (registerAll {} [(97, some 5)]) r.1 r.2).1) = [1, 2, 3, 1] := by decide

/-- Keys with codes from 256 on (arrows, function keys) cannot be told from others by their value. -/
theorem C92_special_keys_not_told_apart (l : List Registration) (a : Nat) (ha : actionFor l 0 = some a) (c : Int) (hc : 256 ≤ c) :
    press (registerAll {} l) c = [(a, c % 256)] ∧ (a, c % 256) ∈ press (registerAll {} l) (c % 256) := by
  have hn : actionFor l c = none := by
    unfold actionFor
    rw [List.findSome?_eq_none_iff]
    intro x _
    have : ¬ (x.1 = c ∧ Supported c) := by unfold Supported; omega
    rw [if_neg this]
  have h0 : c ≠ 0 := by omega
  rw [C92_keys_schedule_actions, C92_keys_schedule_actions]
  unfold scheduled
  rw [ha, hn, if_neg h0]
  refine ⟨by simp, ?_⟩
  have : c % 256 % 256 = c % 256 := by omega
  simp [this]

example : press (registerAll {} [(0, some 7)]) 259 = [(7, 3)] := by decide

/-- Starting again forgets the keys of the table, but not newline and any key, which cannot be registered any more. -/
theorem C92_restart_not_clean (l : List Registration) (a : Nat) :
    (∀ c, c ≠ 10 → c ≠ 0 → Supported c → (registerKey (restart (registerAll {} l)) c (some a)).1 = OK) ∧
    (∀ c, c = 10 ∨ c = 0 → (actionFor l c).isSome = true → (registerKey (restart (registerAll {} l)) c (some a)).1 = IN_USE) := by
  have hg : ∀ c, (registerAll {} l).get c = actionFor l c := by
    intro c
    have : (Keys.get {} c) = none := by unfold Keys.get; simp
    rw [registerAll_get, this, Option.none_or]
  refine ⟨fun c h1 h2 h3 => ?_, fun c hc hs => ?_⟩
  · rw [registerKey_code]
    have : (restart (registerAll {} l)).get c = none := by simp [restart, Keys.get, h1, h2]
    simp [this, h3, OK]
  · have h3 : Supported c := by unfold Supported; omega
    have : (restart (registerAll {} l)).get c = (registerAll {} l).get c := by
      rcases hc with rfl | rfl <;> simp [restart, Keys.get]
    rw [registerKey_code, this, hg]
    simp [hs, h3, IN_USE]

example : (actionFor [(10, some 1)] 10).isSome = true := by decide

/-! ## Starting twice, printing with a log file, and ending -/

/-- A second start is not ignored: messages that wait are never shown, and their nodes are lost. -/
theorem C92_second_start_not_ignored {w : Size} {s : State} (h : Reach w s) (hw : s.screen.length < s.posted.length) :
    showNext w s ≠ none ∧ showNext w (startAgain s) = none ∧ (startAgain s).screen.length < (startAgain s).posted.length := by
  refine ⟨?_, rfl, hw⟩
  obtain ⟨l, r, hl, hr', nd, hm, hpp, hlen⟩ := h.inv.ex
  cases l with
  | nil => simp at hlen; omega
  | cons q l =>
    unfold showNext
    rw [hl.1]
    cases hk : (s.heap q).kind <;> simp [hk]

example : let s := post initial .message "a".toList; s.screen.length < s.posted.length := by decide +kernel

theorem render_enough : ∀ (n : Nat) (f : Text), f.length ≤ n → ∀ (as : List Text) (t : Text), render f as = some t → conversions f ≤ as.length := by
  intro n
  induction n with
  | zero => intro f hf as t _; cases f with
    | nil => simp [conversions]
    | cons c f => simp at hf
  | succ n ih =>
    intro f hf as t h
    cases f with
    | nil => simp [conversions]
    | cons c f =>
      rw [Printing.render_cons] at h
      unfold conversions
      by_cases hc : c = '%'
      · rw [if_pos hc] at h ⊢
        cases f with
        | nil => simp
        | cons d f =>
          simp only [List.length_cons] at hf
          dsimp only at h ⊢
          by_cases hd : d = '%'
          · rw [if_pos hd] at h ⊢
            obtain ⟨u, hu, -⟩ := Option.map_eq_some_iff.1 h
            exact ih f (by omega) as u hu
          · rw [if_neg hd] at h ⊢
            cases as with
            | nil => cases h
            | cons a as =>
              obtain ⟨u, hu, -⟩ := Option.map_eq_some_iff.1 h
              have := ih f (by omega) as u hu
              simp; omega
      · rw [if_neg hc] at h ⊢
        obtain ⟨u, hu, -⟩ := Option.map_eq_some_iff.1 h
        exact ih f (by simp at hf; omega) as u hu

/-- With a log file, a message with arguments is undefined behaviour: the arguments have been used for the file. -/
theorem C92_log_files_not_safe (f : Text) (as : List Text) (hn : as.length = conversions f) (h0 : 0 < conversions f) : printed true f as = none := by
  unfold printed
  rw [if_pos rfl, ← hn, List.drop_length]
  cases h : render f [] with
  | none => rfl
  | some t =>
    have := render_enough _ f le_rfl [] t h
    simp at this; omega

example : (printed false "x = %d\n".toList ["5".toList], printed true "x = %d\n".toList ["5".toList]) = (some "x = 5\n".toList, none) := by decide +kernel

/-- Ending in a reaction, as the comments recommend, and again at exit, as `atexit` does, is undefined behaviour. -/
theorem C92_end_not_twice (log : Option Bool) : (endSimulator (endSimulator { log := log })).fault = true := by
  rcases log with _ | _ | _ <;> rfl

/-- Ending once is fine. -/
example : (endSimulator { log := some true }).fault = false := rfl

end ReactorC.Sensor
