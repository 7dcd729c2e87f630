import Verif.Http.Inv
import Mathlib.Tactic.NormNum

/-!
# C94: posting lines over HTTP
-/

namespace ReactorC.Http

/-! ## Answers -/

/-- **C94** However the bytes of an answer come in, and whatever comes behind the headers (the body or a part of it, an error, the end
of the connection), the call returns, and it returns 0 if the status is from 200 to 299, and the status otherwise. -/
theorem C94_status_is_returned (cap : Nat) (hc : cap ≠ 0) (inc : List Event) (a : Answer) (hg : a.Good) (hp : a.text <+: flow inc) :
    Returns cap inc (if 200 ≤ value a.status ∧ value a.status ≤ 299 then 0 else value a.status) := by
  obtain ⟨u, hu⟩ := hp
  obtain ⟨s', _, _, _, h4⟩ := stream_flow a.text (opened cap inc) u hc (by rw [hu]; rfl)
  have h5 := feed_answer hg
  obtain ⟨k, hk⟩ := body_ends (value a.status) a.length a.length s'
  refine ⟨a.text.length + k, ?_⟩
  rw [run_eq, h4 k, List.foldl_append, h5, hk]
  unfold result
  congr 1
  by_cases h : value a.status / 100 = 2
  · rw [if_pos h, if_pos (by omega)]
  · rw [if_neg h, if_neg (by omega)]

/-- **C94** The body is read to its end and no further: the call ends with the last byte of the body, of the length that the headers give. -/
theorem C94_body_is_read (cap : Nat) (hc : cap ≠ 0) (inc : List Event) (a : Answer) (hg : a.Good) (body more : Text) (hb : body.length = a.length) (hn : nul ∉ body)
    (hp : flow inc = a.text ++ body ++ more) :
    (∀ n r, n < a.text.length + body.length → (run n start (opened cap inc)).1.ctl ≠ .done r) ∧
    (∃ r, (run (a.text.length + body.length) start (opened cap inc)).1.ctl = .done r) := by
  have key : ∀ (t : Text) (m : Nat), nul ∉ t → t.length ≤ m → t.foldl step (inBody ⟨.cr, value a.status, a.length⟩ m) = inBody ⟨.cr, value a.status, a.length⟩ (m - t.length) := by
    intro t
    induction t with
    | nil => intro m _ _; rfl
    | cons c t ih =>
      intro m hn hm
      rw [List.length_cons] at hm
      have hc : c ≠ nul := fun h => hn (by rw [h]; simp)
      have hs : step (inBody ⟨.cr, value a.status, a.length⟩ m) c = inBody ⟨.cr, value a.status, a.length⟩ (m - 1) := by
        cases m with
        | zero => omega
        | succ k => simp [inBody, step, hc]
      rw [List.foldl_cons, hs, ih (m - 1) (fun h => hn (List.mem_cons_of_mem _ h)) (by omega), List.length_cons, show m - 1 - t.length = m - (t.length + 1) by omega]
  obtain ⟨s', h1, _, _, _⟩ := stream_flow (a.text ++ body) (opened cap inc) more hc (by unfold rest opened; rw [hp]; simp)
  have h5 := feed_answer hg
  have hend : (run (a.text.length + body.length) start (opened cap inc)).1.ctl = .done (result (value a.status)) := by
    rw [run_eq, ← List.length_append, h1, List.foldl_append, h5, key body a.length hn (by omega), hb, Nat.sub_self]; rfl
  refine ⟨fun n r hlt hx => ?_, _, hend⟩
  rw [run_eq] at hx
  obtain ⟨u, hu⟩ := stream_prefix n (a.text.length + body.length - n) (opened cap inc)
  rw [show n + (a.text.length + body.length - n) = (a.text ++ body).length by rw [List.length_append]; omega, h1] at hu
  have hlen := stream_length n (opened cap inc)
  generalize stream n (opened cap inc) = v at *
  obtain ⟨d, u', rfl⟩ : ∃ d u', u = u' ++ [d] := by
    rcases List.eq_nil_or_concat u with rfl | ⟨u', d, rfl⟩
    · exfalso
      have := congrArg List.length hu
      rw [List.append_nil, List.length_append] at this; omega
    · exact ⟨d, u', by simp⟩
  -- all but the last byte have been read, at most
  have h6 : (v ++ u').foldl step start = v.foldl step start := by rw [List.foldl_append, step_done hx]
  rcases List.eq_nil_or_concat body with rfl | ⟨b', e, rfl⟩
  · rw [List.append_nil] at hu
    have ht : a.text = (v ++ u') ++ [d] := by rw [← hu]; simp
    have hne : ((v ++ u').foldl step start).ctl = .cr := feed_last hg ht
    rw [h6, hx] at hne; cases hne
  · rw [List.concat_eq_append] at *
    rw [← List.append_assoc, ← List.append_assoc] at hu
    have h8 := (List.append_inj' hu rfl).1
    rw [List.length_append, List.length_singleton] at hb
    have h9 : (a.text ++ b').foldl step start = inBody ⟨.cr, value a.status, a.length⟩ 1 := by
      rw [List.foldl_append, h5, key b' a.length (fun h => hn (List.mem_append_left _ h)) (by omega), show a.length - b'.length = 1 by omega]
    rw [← h8, h6] at h9
    rw [h9] at hx
    cases hx

/-- **C94** A call returns at most one number. -/
theorem C94_one_result (cap : Nat) (inc : List Event) (r r' : Int) (h : Returns cap inc r) (h' : Returns cap inc r') : r = r' := by
  obtain ⟨n, hn⟩ := h
  obtain ⟨m, hm⟩ := h'
  rw [run_eq] at hn hm
  have key : ∀ i j : Nat, i ≤ j → ∀ x, ((stream i (opened cap inc)).foldl step start).ctl = .done x → ((stream j (opened cap inc)).foldl step start).ctl = .done x := by
    intro i j hij x hx
    obtain ⟨u, hu⟩ := stream_prefix i (j - i) (opened cap inc)
    rw [show i + (j - i) = j by omega] at hu
    rw [← hu, List.foldl_append, step_done hx]; exact hx
  rcases Nat.le_total n m with h | h
  · have := key n m h r hn; rw [hm] at this; cases this; rfl
  · have := key m n h r' hm; rw [hn] at this; cases this; rfl

/-- **C94** (limit) If the server closes the connection before an empty line has come in, the call never returns: the first byte of the
buffer is read again and again. -/
theorem C94_closed_connections_not_noticed (cap : Nat) (hc : cap ≠ 0) (inc : List Event) (hi : ∀ e ∈ inc, e ≠ .fail) (hn : nul ∉ flow inc)
    (hb : ¬ blank <:+: flow inc ++ ['\n']) (r : Int) : ¬ Returns cap inc r := by
  have hcalm : ∀ es : List Event, (∀ e ∈ es, e ≠ .fail) → Calm es := by
    intro es
    induction es with
    | nil => intro _; trivial
    | cons e es ih =>
      intro h
      cases e with
      | fail => exact absurd rfl (h _ (by simp))
      | data c t => exact ih (fun x hx => h x (List.mem_cons_of_mem _ hx))
  rintro ⟨n, h⟩
  rw [run_eq] at h
  obtain ⟨b, hbS, hs⟩ := stream_calm (flow inc) (opened cap inc) ('P' :: flow inc) hc (hcalm inc hi) rfl (by simp [opened]) (fun c hx => List.mem_cons_of_mem _ hx)
  have hbn : b ≠ nul := by
    rcases List.mem_cons.1 hbS with rfl | h
    · decide
    · rintro rfl; exact hn h
  obtain ⟨u, hu⟩ := stream_prefix n (flow inc).length (opened cap inc)
  rw [Nat.add_comm, hs n] at hu
  have hin := inside_start (flow inc ++ List.replicate n b) (by
    intro c hx
    rcases List.mem_append.1 hx with h | h
    · rintro rfl; exact hn h
    · rw [(List.mem_replicate.1 h).2]; exact hbn) (blank_replicate hb b n)
  rw [← hu, List.foldl_append, step_done h] at hin
  unfold Inside at hin
  rw [h] at hin
  exact hin

/-- **C94** If receiving fails before an empty line has come in, the call returns -8 or -10, unless a number did not fit into an `int`. -/
theorem C94_errors_are_noticed (cap : Nat) (hc : cap ≠ 0) (es more : List Event) (hi : ∀ e ∈ es, e ≠ .fail) (hn : nul ∉ flow (es ++ .fail :: more))
    (hb : ¬ blank <:+: flow (es ++ .fail :: more)) :
    Returns cap (es ++ .fail :: more) (-8) ∨ Returns cap (es ++ .fail :: more) (-10) ∨
      ∃ n, (run n start (opened cap (es ++ .fail :: more))).1.ctl = .undef := by
  have hcalm : ∀ es : List Event, (∀ e ∈ es, e ≠ .fail) → Calm es := by
    intro es
    induction es with
    | nil => intro _; trivial
    | cons e es ih =>
      intro h
      cases e with
      | fail => exact absurd rfl (h _ (by simp))
      | data c t => exact ih (fun x hx => h x (List.mem_cons_of_mem _ hx))
  generalize hinc : es ++ .fail :: more = inc at *
  have hs := stream_fail (flow inc) (opened cap inc) hc rfl ⟨es, more, hinc.symm, hcalm es hi⟩
  have hin := inside_start (flow inc) (by rintro c hx rfl; exact hn hx) hb
  have key : (run ((flow inc).length + 1) start (opened cap inc)).1 = step ((flow inc).foldl step start) nul := by
    rw [run_eq, hs, List.foldl_append]; rfl
  generalize (flow inc).foldl step start = p at *
  obtain ⟨ctl, a, b⟩ := p
  cases ctl with
  | version => exact Or.inl ⟨_, by rw [key]; rfl⟩
  | code => exact Or.inl ⟨_, by rw [key]; rfl⟩
  | seek => exact Or.inl ⟨_, by rw [key]; rfl⟩
  | first => exact Or.inr (Or.inl ⟨_, by rw [key]; rfl⟩)
  | cr => exact Or.inr (Or.inl ⟨_, by rw [key]; rfl⟩)
  | undef => exact Or.inr (Or.inr ⟨_, by rw [key]; rfl⟩)
  | body n => exact hin.elim
  | done r => exact hin.elim
  | field w =>
    cases w with
    | nil => exact Or.inl ⟨_, by rw [key]; rfl⟩
    | cons x xs =>
      have hx : nul ≠ x := fun he => (show nul ∉ x :: xs from hin) (by rw [← he]; simp)
      refine Or.inr (Or.inl ⟨(flow inc).length + 1, ?_⟩)
      rw [key]; simp only [step]; rw [if_neg hx]; rfl

/-- **C94** (limit) An answer without a status, or with the status 0, is taken for success. -/
theorem C94_no_status_not_noticed (cap : Nat) (hc : cap ≠ 0) (inc : List Event) (a : Answer) (hg : a.Good) (h0 : value a.status = 0)
    (hp : a.text <+: flow inc) : Returns cap inc 0 := by
  have := C94_status_is_returned cap hc inc a hg hp
  rw [h0] at this
  exact this

/-- **C94** (limit) Lines that end with a line feed only are not understood: without a carriage return the call does not return unless
receiving fails. -/
theorem C94_line_feeds_not_understood (cap : Nat) (hc : cap ≠ 0) (inc : List Event) (hi : ∀ e ∈ inc, e ≠ .fail) (hn : nul ∉ flow inc) (hr : '\r' ∉ flow inc)
    (r : Int) : ¬ Returns cap inc r := by
  refine C94_closed_connections_not_noticed cap hc inc hi hn ?_ r
  intro hb
  have : '\r' ∈ flow inc ++ ['\n'] := hb.subset (by decide)
  rcases List.mem_append.1 this with h | h
  · exact hr h
  · revert h; decide

/-! ## Non-vacuity -/

def created : Answer := ⟨"HTTP/1.1".toList, "204".toList, " No Content".toList, ["Content-Type: text/plain".toList, "Content-Length: 12".toList, "C".toList]⟩

theorem created_good : created.Good := by
  refine ⟨by decide, by decide, by decide, by decide, ?_, by decide, by decide, by decide⟩
  intro c h
  have : created.reason.head? = some ' ' := by decide
  rw [this] at h; cases h; rfl

/-- In three pieces, and the connection breaks in the body. -/
def pieces : List Event := [.data 'H' "TTP/1.1 2".toList, .data '0' "4 No Content\r\nContent-Type: text/plain\r\nConte".toList,
  .data 'n' "t-Length: 12\r\nC\r\n\r\nab".toList, .fail]

example : created.Good ∧ created.text <+: flow pieces ∧ (run 200 start (opened 0x800 pieces)).1.ctl = .done 0 := by
  refine ⟨created_good, by decide +kernel, by decide +kernel⟩

/-- With a body of twelve bytes and another answer behind it. -/
example : created.length = 12 ∧ nul ∉ "twelve bytes".toList ∧ "twelve bytes".toList.length = 12 ∧
    flow [.data 'H' "TTP/1.1 204 No Content\r\nContent-Type: text/plain\r\nContent-Length: 12\r\nC\r\n\r\ntwelve bytesHTTP/1.1 500".toList] =
      created.text ++ "twelve bytes".toList ++ "HTTP/1.1 500".toList := by decide +kernel

example : announces "Content-Length: 12".toList ∧ announced "Content-Length: 12".toList = 12 := by decide

/-- A server that closes the connection within the first line. -/
example : (∀ e ∈ [Event.data 'H' "TTP/1.1 204".toList], e ≠ .fail) ∧ nul ∉ flow [.data 'H' "TTP/1.1 204".toList] ∧
    ¬ blank <:+: flow [.data 'H' "TTP/1.1 204".toList] ++ ['\n'] := by
  refine ⟨by decide, by decide, by decide +kernel⟩

/-- An error within the name of a header. -/
example : (run 100 start (opened 0x800 [.data 'H' "TTP/1.1 204 No Content\r\nConte".toList, .fail])).1.ctl = .done (-10) := by decide +kernel

/-- An answer without a status. -/
example : (⟨"HTTP/1.1".toList, [], " 404 Not Found".toList, []⟩ : Answer).Good ∧
    (run 100 start (opened 0x800 [.data 'H' "TTP/1.1  404 Not Found\r\n\r\n".toList])).1.ctl = .done 0 := by
  refine ⟨⟨by decide, by decide, by decide, by decide, ?_, by decide, by decide, by decide⟩, by decide +kernel⟩
  intro c h
  have : (" 404 Not Found".toList).head? = some ' ' := by decide
  rw [this] at h; cases h; rfl

/-! ## Requests -/

theorem lit_append (s : String) (t : Text) : lit s (s.toList ++ t) = some t := by
  unfold lit
  rw [if_pos (List.prefix_append _ _), List.drop_left]

theorem upTo_append {c : Char} {t : Text} (h : c ∉ t) (r : Text) : upTo c (t ++ c :: r) = (t, c :: r) := by
  unfold upTo
  have h1 : ∀ x ∈ t, decide (x ≠ c) = true := fun x hx => by
    rw [decide_eq_true_eq]; rintro rfl; exact h hx
  rw [List.takeWhile_append_of_pos h1, List.dropWhile_append_of_pos h1]
  simp

theorem value_digits (n : Nat) : value (Nat.toDigits 10 n) = n := by
  have h := Nat.ofDigitChars_ten_toDigits (n := n)
  unfold Nat.ofDigitChars at h
  unfold value
  rw [show (fun n (c : Char) => 10 * n + (c.toNat - 48)) = (fun sofar (c : Char) => 10 * sofar + (c.toNat - '0'.toNat)) from rfl]
  exact h

theorem digits_no_cr (n : Nat) : '\r' ∉ Nat.toDigits 10 n := by
  intro h
  have := Nat.isDigit_of_mem_toDigits (by decide) (by decide) h
  revert this; decide

/-- **C94** A request whose headers have less than 2048 bytes is read by the server as what it was made from: the database, the user, the
password, the host and the token, and the line as the body. -/
theorem C94_requests_are_read_partial (c : Client) (line : Text) (heap : Nat → Char) (h1 : '&' ∉ c.db) (h2 : '&' ∉ c.usr.getD []) (h3 : ' ' ∉ c.pwd.getD [])
    (h4 : '\r' ∉ c.host) (h5 : '\r' ∉ c.token.getD []) (hl : (header c line.length).length < 2048) :
    ((sent c line heap).bind readRequest) = some ⟨c.db, c.usr.getD [], c.pwd.getD [], c.host, c.token.getD [], line⟩ := by
  have hs : sent c line heap = some (header c line.length ++ line) := by
    unfold sent; dsimp only; rw [if_pos hl]
  rw [hs, Option.bind_some]
  generalize hd : Nat.toDigits 10 line.length = ds
  have e : header c line.length ++ line = "POST /write?db=".toList ++ (c.db ++ '&' :: ("u=".toList ++ (c.usr.getD [] ++ '&' :: ("p=".toList ++ (c.pwd.getD [] ++ ' ' ::
      ("HTTP/1.1\r\nHost: ".toList ++ (c.host ++ '\r' :: ("\nAccept: application/json\r\nContent-type: text/plain\r\nAuthorization: Token ".toList ++ (c.token.getD [] ++ '\r' ::
      ("\nContent-Length: ".toList ++ (ds ++ '\r' :: ("\n\r\n".toList ++ line)))))))))))) := by
    unfold header; rw [hd]; simp [List.append_assoc]
  rw [e]
  unfold readRequest
  rw [lit_append]
  simp only [Option.bind_eq_bind, Option.bind_some]
  rw [upTo_append h1]; dsimp only
  rw [show ∀ t : Text, '&' :: ("u=".toList ++ t) = "&u=".toList ++ t from fun _ => rfl, lit_append]
  simp only [Option.bind_some]
  rw [upTo_append h2]; dsimp only
  rw [show ∀ t : Text, '&' :: ("p=".toList ++ t) = "&p=".toList ++ t from fun _ => rfl, lit_append]
  simp only [Option.bind_some]
  rw [upTo_append h3]; dsimp only
  rw [show ∀ t : Text, ' ' :: ("HTTP/1.1\r\nHost: ".toList ++ t) = " HTTP/1.1\r\nHost: ".toList ++ t from fun _ => rfl, lit_append]
  simp only [Option.bind_some]
  rw [upTo_append h4]; dsimp only
  rw [show ∀ t : Text, '\r' :: ("\nAccept: application/json\r\nContent-type: text/plain\r\nAuthorization: Token ".toList ++ t) =
    "\r\nAccept: application/json\r\nContent-type: text/plain\r\nAuthorization: Token ".toList ++ t from fun _ => rfl, lit_append]
  simp only [Option.bind_some]
  rw [upTo_append h5]; dsimp only
  rw [show ∀ t : Text, '\r' :: ("\nContent-Length: ".toList ++ t) = "\r\nContent-Length: ".toList ++ t from fun _ => rfl, lit_append]
  simp only [Option.bind_some]
  rw [upTo_append (by rw [← hd]; exact digits_no_cr _)]; dsimp only
  rw [show ∀ t : Text, '\r' :: ("\n\r\n".toList ++ t) = "\r\n\r\n".toList ++ t from fun _ => rfl, lit_append]
  simp only [Option.bind_some]
  rw [if_pos (by rw [← hd, value_digits])]

/-- **C94** (limit) A request whose headers have 2048 bytes or more is not sent as it is: up to 4096 bytes, the last of them are a zero
and whatever the memory held, so that the server gets bytes that were never meant to be sent; if they are more, memory behind the buffer
is read. -/
theorem C94_long_requests_not_sent (c : Client) (line : Text) (heap : Nat → Char) (hl : 2048 ≤ (header c line.length).length) :
    ((header c line.length).length ≤ 4096 → ∃ t, sent c line heap = some t ∧ t.length = (header c line.length).length + line.length ∧ t[2047]? = some nul ∧
      ∀ i, i < (header c line.length).length - 2048 → t[2048 + i]? = some (heap i)) ∧
    (4096 < (header c line.length).length → sent c line heap = none) := by
  unfold sent; dsimp only
  generalize header c line.length = h at *
  rw [if_neg (by omega)]
  constructor
  · intro hu
    rw [if_pos (by omega)]
    have ht : (h.take 0x7ff).length = 2047 := by rw [List.length_take]; omega
    refine ⟨_, rfl, ?_, ?_, ?_⟩
    · simp only [List.length_append, List.length_cons, List.length_map, List.length_range, ht]; omega
    · rw [List.append_assoc, List.getElem?_append_right (by rw [ht])]; rw [ht]; rfl
    · intro i hi
      rw [List.append_assoc, List.getElem?_append_right (by rw [ht]; omega), ht, show 2048 + i - 2047 = i + 1 by omega, List.cons_append, List.getElem?_cons_succ,
        List.getElem?_append_left (by rw [List.length_map, List.length_range]; omega), List.getElem?_map, List.getElem?_range (by omega)]
      rfl
  · intro hu
    rw [if_neg (by omega)]

set_option maxRecDepth 8000 in
/-- **C94** (limit) Names are not encoded: what is sent for one user of one database may be what is sent for another user of another
database, or have more headers. -/
theorem C94_names_not_encoded (line : Text) (heap : Nat → Char) :
    (∃ c c' : Client, c.db ≠ c'.db ∧ c.usr ≠ c'.usr ∧ sent c line heap = sent c' line heap) ∧
    (∃ c c' : Client, c.host ≠ c'.host ∧ c.token ≠ c'.token ∧ sent c line heap = sent c' line heap) := by
  refine ⟨⟨⟨[], "a&u=b".toList, some "c".toList, none, none⟩, ⟨[], "a".toList, some "b&u=c".toList, none, none⟩, by decide, by decide, ?_⟩, ?_⟩
  · have : header ⟨[], "a&u=b".toList, some "c".toList, none, none⟩ line.length = header ⟨[], "a".toList, some "b&u=c".toList, none, none⟩ line.length := rfl
    unfold sent; rw [this]
  · refine ⟨⟨"h".toList, [], none, none, some "x\r\nContent-Length: 0\r\n\r\nHost: h\r\nAccept: application/json\r\nContent-type: text/plain\r\nAuthorization: Token y".toList⟩,
      ⟨"h\r\nAccept: application/json\r\nContent-type: text/plain\r\nAuthorization: Token x\r\nContent-Length: 0\r\n\r\nHost: h".toList, [], none, none, some "y".toList⟩, by decide, by decide, ?_⟩
    have : header ⟨"h".toList, [], none, none, some "x\r\nContent-Length: 0\r\n\r\nHost: h\r\nAccept: application/json\r\nContent-type: text/plain\r\nAuthorization: Token y".toList⟩ line.length =
      header ⟨"h\r\nAccept: application/json\r\nContent-type: text/plain\r\nAuthorization: Token x\r\nContent-Length: 0\r\n\r\nHost: h".toList, [], none, none, some "y".toList⟩ line.length := rfl
    unfold sent; rw [this]

def exampleClient : Client := ⟨"localhost".toList, "traces".toList, some "me".toList, none, some "t0ken".toList⟩

example : '&' ∉ exampleClient.db ∧ '&' ∉ exampleClient.usr.getD [] ∧ ' ' ∉ exampleClient.pwd.getD [] ∧ '\r' ∉ exampleClient.host ∧
    '\r' ∉ exampleClient.token.getD [] ∧ (header exampleClient 5).length < 2048 := by decide +kernel

example : ((sent exampleClient "a b=1".toList (fun _ => 'x')).bind readRequest).map (·.body) = some "a b=1".toList := by decide +kernel

/-- Clients with long tokens. -/
example : 2048 ≤ (header { exampleClient with token := some (List.replicate 2000 'x') } 5).length ∧
    (header { exampleClient with token := some (List.replicate 2000 'x') } 5).length ≤ 4096 ∧
    4096 < (header { exampleClient with token := some (List.replicate 4000 'x') } 5).length := by decide +kernel

/-! ## Stages -/

/-- **C94** Each stage that fails has a number of its own, and if none fails the result is that of the answer.  On every way the line is
freed once and the socket is closed if it was opened. -/
theorem C94_stages (e : Env) (answer : Int) :
    (e.malloc = false → (post e answer).1 = -2) ∧
    (e.malloc = true → e.enlarge = true → e.realloc = false → (post e answer).1 = -3) ∧
    (e.malloc = true → (e.enlarge = true → e.realloc = true) →
      (e.resolves = false → (post e answer).1 = -4) ∧
      (e.resolves = true → e.socket = false → (post e answer).1 = -5) ∧
      (e.resolves = true → e.socket = true → e.connects = false → (post e answer).1 = -6) ∧
      (e.resolves = true → e.socket = true → e.connects = true → e.written = false → (post e answer).1 = -7) ∧
      (e.resolves = true → e.socket = true → e.connects = true → e.written = true → (post e answer).1 = answer)) ∧
    (post e answer).2.count .freeLine = 1 ∧ (post e answer).2.count .openSocket = (post e answer).2.count .closeSocket := by
  obtain ⟨a, b, c, d, s, f, g⟩ := e
  cases a <;> cases b <;> cases c <;> cases d <;> cases s <;> cases f <;> cases g <;> simp +decide [post]

/-- **C94** The memory for the headers is freed, unless it had to be enlarged and could not be (limit). -/
theorem C94_memory_is_freed_partial (e : Env) (answer : Int) :
    (post e answer).2.count .takeHeader = (post e answer).2.count .freeHeader ↔ ¬ (e.malloc = true ∧ e.enlarge = true ∧ e.realloc = false) := by
  obtain ⟨a, b, c, d, s, f, g⟩ := e
  cases a <;> cases b <;> cases c <;> cases d <;> cases s <;> cases f <;> cases g <;> simp +decide [post]

end ReactorC.Http
