import Verif.Net.Socket
import Verif.Net.WireProps

/-! # C32: socket reads and writes are all-or-nothing; C33: forwarding preserves messages -/

namespace ReactorC.Net

/-! ## Reading -/

theorem readLoop_spec (n : Nat) : ∀ (script : List Sys) (k : Nat) (b s : List Byte) (r : ReadResult),
    n ≤ b.length → k ≤ n → readLoop n script k b s = some r →
    ∃ m, k + m ≤ n ∧ m ≤ s.length ∧ r.stream = s.drop m ∧ r.buffer = put b k (s.take m) ∧ (r.ret = 0 → k + m = n) ∧
      (r.ret = 0 ∨ r.ret = 1 ∨ r.ret = -1) ∧ (k + m = n → r.ret = 0) := by
  intro script
  induction script with
  | nil =>
    intro k b s r hb hk h
    rw [readLoop.eq_def] at h
    split at h
    · simp at h
    · simp at h; subst h
      exact ⟨0, by omega, by omega, by simp, by simp [put], fun _ => by omega, Or.inl rfl, fun _ => rfl⟩
  | cons c script ih =>
    intro k b s r hb hk h
    rw [readLoop.eq_def] at h
    split at h
    · rename_i hlt
      cases c with
      | again => exact ih k b s r hb hk h
      | error =>
        simp at h; subst h
        exact ⟨0, by omega, by omega, by simp, by simp [put], by simp, by simp, fun _ => by omega⟩
      | eof =>
        simp at h; subst h
        exact ⟨0, by omega, by omega, by simp, by simp [put], by simp, by simp, fun _ => by omega⟩
      | some j =>
        simp only at h
        obtain ⟨more, hmore⟩ : ∃ more, more = min (min j (n - k)) s.length := ⟨_, rfl⟩
        rw [← hmore] at h
        split at h
        · simp at h; subst h
          exact ⟨0, by omega, by omega, by simp, by simp [put], by simp, by simp, fun _ => by omega⟩
        · rename_i hne
          have hml : more ≤ s.length := by omega
          have hlen : (s.take more).length = more := by simp [hml]
          have hbl : (put b k (s.take more)).length = b.length := put_length _ _ _ (by rw [hlen]; omega)
          obtain ⟨m, h1, h2, h3, h4, h5, h6, h7⟩ := ih (k + more) _ _ r (by rw [hbl]; omega) (by omega) h
          have h2' : m ≤ s.length - more := by simpa using h2
          refine ⟨more + m, by omega, by omega, ?_, ?_, fun hr => by have := h5 hr; omega, h6, fun hr => h7 (by omega)⟩
          · rw [h3, List.drop_drop]
          · rw [h4]
            have := put_put b k (s.take more) ((s.drop more).take m) (by rw [hlen]; omega)
            rw [hlen] at this
            rw [this, List.take_add]
    · simp at h; subst h
      exact ⟨0, by omega, by omega, by simp, by simp [put], fun _ => by omega, Or.inl rfl, fun _ => rfl⟩

/-- **C32** Whatever partial transfers, transient errors and failures occur: if `read_from_socket` returns 0, then
exactly the requested number of bytes was taken from the stream, and the buffer holds them in order and is
otherwise unchanged. -/
theorem C32_read_success {socket : Int} {n : Nat} {script : List Sys} {buffer stream : List Byte} {r : ReadResult}
    (hb : n ≤ buffer.length) (h : read_from_socket socket n script buffer stream = some r) (h0 : r.ret = 0) :
    n ≤ stream.length ∧ r.buffer = stream.take n ++ buffer.drop n ∧ r.stream = stream.drop n := by
  unfold read_from_socket at h
  split at h
  · simp at h; subst h; simp at h0
  · obtain ⟨m, h1, h2, h3, h4, h5, _⟩ := readLoop_spec n script 0 buffer stream r hb (by omega) h
    have hm : m = n := by have := h5 h0; omega
    subst hm
    refine ⟨h2, ?_, h3⟩
    rw [h4]; simp [put, Nat.min_eq_left h2]

/-- **C32** Otherwise failure is reported: if fewer bytes were taken, the result is 1 (end of the stream) or -1.
The bytes that were taken are a prefix of the stream, and nothing is stored beyond the number requested. -/
theorem C32_read_failure {socket : Int} {n : Nat} {script : List Sys} {buffer stream : List Byte} {r : ReadResult}
    (hb : n ≤ buffer.length) (h : read_from_socket socket n script buffer stream = some r) :
    ∃ m, m ≤ n ∧ m ≤ stream.length ∧ r.stream = stream.drop m ∧ r.buffer = stream.take m ++ buffer.drop m ∧
      (m < n → r.ret = 1 ∨ r.ret = -1) := by
  unfold read_from_socket at h
  split at h
  · simp at h; subst h
    exact ⟨0, by omega, by omega, by simp, by simp, fun _ => Or.inr rfl⟩
  · obtain ⟨m, h1, h2, h3, h4, h5, h6, _⟩ := readLoop_spec n script 0 buffer stream r hb (by omega) h
    refine ⟨m, by omega, h2, h3, by rw [h4]; simp [put, Nat.min_eq_left h2], fun hlt => ?_⟩
    rcases h6 with h6 | h6
    · have := h5 h6; omega
    · exact h6

/-- **C32** The read is not given up early: as long as the calls transfer data or fail only transiently and the stream
has enough bytes, `read_from_socket` returns 0 once enough calls have transferred data. -/
theorem C32_read_completes (n : Nat) : ∀ (script : List Sys) (k : Nat) (buffer stream : List Byte), k ≤ n →
    (∀ c ∈ script, c = .again ∨ ∃ j, c = .some (j + 1)) → n - k ≤ stream.length →
    n - k ≤ (script.filter (· ≠ .again)).length → ∃ r, readLoop n script k buffer stream = some r ∧ r.ret = 0 := by
  intro script
  induction script with
  | nil =>
    intro k b s hk _ hs hn
    rw [readLoop.eq_def, if_neg (by simp at hn; omega)]
    exact ⟨_, rfl, rfl⟩
  | cons c script ih =>
    intro k b s hk hc hs hn
    rw [readLoop.eq_def]
    split
    · rcases hc c (by simp) with rfl | ⟨j, rfl⟩
      · exact ih k b s hk (fun c' h => hc c' (by simp [h])) hs (by simpa using hn)
      · simp only
        have hne : min (min (j + 1) (n - k)) s.length ≠ 0 := by omega
        rw [if_neg hne]
        refine ih _ _ _ (by omega) (fun c' h => hc c' (by simp [h])) (by simp; omega) ?_
        simp at hn
        simp; omega
    · exact ⟨_, rfl, rfl⟩

/-! ## Writing -/

theorem writeLoop_spec (buffer : List Byte) (n : Nat) (hb : n ≤ buffer.length) :
    ∀ (script : List Sys) (k : Nat) (sent : List Byte) (r : WriteResult), k ≤ n →
    writeLoop buffer n script k sent = some r →
    ∃ m, k ≤ m ∧ m ≤ n ∧ r.sent = sent ++ (buffer.drop k).take (m - k) ∧ (r.ret = 0 ∧ m = n ∨ r.ret = -1) := by
  intro script
  induction script with
  | nil =>
    intro k sent r hk h
    rw [writeLoop.eq_def] at h
    split at h
    · simp at h
    · simp at h; subst h
      exact ⟨k, by omega, hk, by simp, Or.inl ⟨rfl, by omega⟩⟩
  | cons c script ih =>
    intro k sent r hk h
    rw [writeLoop.eq_def] at h
    split at h
    · cases c with
      | again => exact ih k sent r hk h
      | eof => exact ih k sent r hk h
      | error =>
        simp at h; subst h
        exact ⟨k, by omega, hk, by simp, Or.inr rfl⟩
      | some j =>
        simp only at h
        obtain ⟨m, h1, h2, h3, h4⟩ := ih _ _ r (by omega) h
        refine ⟨m, by omega, h2, ?_, h4⟩
        rw [h3, List.append_assoc]
        congr 1
        have e : m - k = min j (n - k) + (m - (k + min j (n - k))) := by omega
        rw [e, List.take_add, List.drop_drop]
    · simp at h; subst h
      exact ⟨k, by omega, hk, by simp, Or.inl ⟨rfl, by omega⟩⟩

/-- **C32** If `write_to_socket` returns 0, exactly the given bytes were sent, in order; otherwise it returns -1, and
what was sent is a prefix of them. -/
theorem C32_write {socket : Int} {n : Nat} {script : List Sys} {buffer sent : List Byte} {r : WriteResult}
    (hb : n ≤ buffer.length) (h : write_to_socket socket n script buffer sent = some r) :
    (r.ret = 0 ∧ r.sent = sent ++ buffer.take n) ∨ (r.ret = -1 ∧ ∃ m ≤ n, r.sent = sent ++ buffer.take m) := by
  unfold write_to_socket at h
  split at h
  · simp at h; subst h; exact Or.inr ⟨rfl, 0, by omega, by simp⟩
  · obtain ⟨m, _, h2, h3, h4⟩ := writeLoop_spec buffer n hb script 0 sent r (by omega) h
    simp at h3
    rcases h4 with ⟨h4, rfl⟩ | h4
    · exact Or.inl ⟨h4, h3⟩
    · exact Or.inr ⟨h4, m, h2, h3⟩

/-- **C32** What one side writes with success the other side reads: five bytes in three pieces, with a transient error,
are read in other pieces. -/
example : ∃ w r, write_to_socket 3 5 [.some 2, .again, .some 1, .some 9] [1#8, 2#8, 3#8, 4#8, 5#8] [] = some w ∧ w.ret = 0 ∧
    read_from_socket 4 5 [.again, .some 1, .some 3, .again, .some 4] (List.replicate 8 0#8) w.sent = some r ∧ r.ret = 0 ∧
    r.buffer = [1#8, 2#8, 3#8, 4#8, 5#8, 0#8, 0#8, 0#8] := by
  refine ⟨_, _, rfl, ?_, rfl, ?_, ?_⟩ <;> decide

/-! ## Forwarding -/

theorem forwardRest_spec (size : Nat) (hs : 0 < size) (total : Nat) : ∀ (d k : Nat) (s : Fwd), total - k = d → k ≤ total →
    s.buffer.length = size → total - k ≤ s.input.length → s.fault = false →
    (forwardRest size total k s).output = s.output ++ s.input.take (total - k) ∧
    (forwardRest size total k s).input = s.input.drop (total - k) ∧ (forwardRest size total k s).fault = false := by
  intro d
  induction d using Nat.strongRecOn with
  | ind d ih =>
    intro k s hd hk hb hi hf
    rw [forwardRest]
    by_cases hlt : k < total
    · rw [dif_pos ⟨hs, hlt⟩]
      simp only
      obtain ⟨n, hn⟩ : ∃ n, n = if total - k > size then size else total - k := ⟨_, rfl⟩
      rw [← hn]
      have hn1 : 0 < n ∧ n ≤ size ∧ n ≤ total - k := by rw [hn]; split <;> omega
      have hlen : (s.input.take n).length = n := by simp; omega
      have hbuf : ((s.read 0 n).write n).buffer.length = size := by
        show (put s.buffer 0 (s.input.take n)).length = size
        rw [put_length _ _ _ (by rw [hlen]; omega)]; exact hb
      have hin : ((s.read 0 n).write n).input = s.input.drop n := rfl
      have hout : ((s.read 0 n).write n).output = s.output ++ s.input.take n := by
        show s.output ++ (put s.buffer 0 (s.input.take n)).take n = _
        congr 1
        simp only [put, List.take_zero, List.nil_append]
        rw [List.take_left' hlen]
      have hfa : ((s.read 0 n).write n).fault = false := by
        show (s.fault || decide (s.buffer.length < 0 + n) || decide (s.input.length < n)) = false
        simp [hf]; omega
      obtain ⟨h1, h2, h3⟩ := ih (total - (k + n)) (by omega) (k + n) _ rfl (by omega) hbuf (by rw [hin]; simp; omega) hfa
      have e : total - k = n + (total - (k + n)) := by omega
      refine ⟨?_, ?_, h3⟩
      · rw [h1, hout, hin, e, List.take_add, List.append_assoc]
      · rw [h2, hin, e, List.drop_drop]
    · rw [dif_neg (by omega)]
      have : total - k = 0 := by omega
      simp [this, hf]

theorem discardRest_spec (size : Nat) (hs : 0 < size) (total : Nat) : ∀ (d k : Nat) (s : Fwd), total - k = d → k ≤ total →
    s.buffer.length = size → total - k ≤ s.input.length → s.fault = false →
    (discardRest size total k s).output = s.output ∧
    (discardRest size total k s).input = s.input.drop (total - k) ∧ (discardRest size total k s).fault = false := by
  intro d
  induction d using Nat.strongRecOn with
  | ind d ih =>
    intro k s hd hk hb hi hf
    rw [discardRest]
    by_cases hlt : k < total
    · rw [dif_pos ⟨hs, hlt⟩]
      simp only
      obtain ⟨n, hn⟩ : ∃ n, n = if total - k > size then size else total - k := ⟨_, rfl⟩
      rw [← hn]
      have hn1 : 0 < n ∧ n ≤ size ∧ n ≤ total - k := by rw [hn]; split <;> omega
      have hlen : (s.input.take n).length = n := by simp; omega
      have hbuf : (s.read 0 n).buffer.length = size := by
        show (put s.buffer 0 (s.input.take n)).length = size
        rw [put_length _ _ _ (by rw [hlen]; omega)]; exact hb
      have hin : (s.read 0 n).input = s.input.drop n := rfl
      have hfa : (s.read 0 n).fault = false := by
        show (s.fault || decide (s.buffer.length < 0 + n) || decide (s.input.length < n)) = false
        simp [hf]; omega
      obtain ⟨h1, h2, h3⟩ := ih (total - (k + n)) (by omega) (k + n) _ rfl (by omega) hbuf (by rw [hin]; simp; omega) hfa
      have e : total - k = n + (total - (k + n)) := by omega
      refine ⟨h1, ?_, h3⟩
      rw [h2, hin, e, List.drop_drop]
    · rw [dif_neg (by omega)]
      have : total - k = 0 := by omega
      simp [this, hf]

theorem handle_timed_spec (size : Nat) (hsize : 22 ≤ size) (big connected : Bool) (ty : Byte) (buf header payload rest out : List Byte)
    (hbuf : buf.length + 1 = size) (hh : header.length = 20)
    (hl : (extract_timed_header big (header ++ buf.drop 20)).length.toNat = payload.length) :
    ∃ s', handle_timed_message size big connected
        { buffer := ty :: buf, input := header ++ payload ++ rest, output := out, fault := false } = some s' ∧
      s'.fault = false ∧ s'.input = rest ∧
      s'.output = (if connected then out ++ ty :: header ++ payload else out) := by
  obtain ⟨s0, hs0⟩ : ∃ s0 : Fwd, s0 = { buffer := ty :: buf, input := header ++ payload ++ rest, output := out, fault := false } :=
    ⟨_, rfl⟩
  rw [← hs0]
  -- after the header
  have e1 : s0.read 1 20 = { buffer := ty :: (header ++ buf.drop 20), input := payload ++ rest, output := out, fault := false } := by
    rw [hs0]
    unfold Fwd.read
    have ht : (header ++ payload ++ rest).take 20 = header := by
      rw [List.append_assoc]; exact List.take_left' hh
    have hd : (header ++ payload ++ rest).drop 20 = payload ++ rest := by
      rw [List.append_assoc]; exact List.drop_left' hh
    simp only [ht, hd]
    simp [put, hh]
    omega
  obtain ⟨n, hn⟩ : ∃ n, n = if payload.length > size - 21 then size - 21 else payload.length := ⟨_, rfl⟩
  have hn1 : n ≤ payload.length ∧ n ≤ size - 21 ∧ (n < payload.length → n = size - 21) := by
    rw [hn]; split <;> omega
  obtain ⟨s2, hs2⟩ : ∃ s2, s2 = (s0.read 1 20).read 21 n := ⟨_, rfl⟩
  have hlen : ((payload ++ rest).take n).length = n := by simp; omega
  have hb1 : (ty :: (header ++ buf.drop 20)).length = size := by simp [hh]; omega
  have e2b : s2.buffer.take (n + 21) = ty :: header ++ payload.take n := by
    rw [hs2, e1]
    show (put (ty :: (header ++ buf.drop 20)) 21 ((payload ++ rest).take n)).take (n + 21) = _
    have h21 : (ty :: (header ++ buf.drop 20)).take 21 = ty :: header := by
      simp only [List.take_succ_cons]
      rw [List.take_left' hh]
    unfold put
    rw [h21]
    have hl2 : (ty :: header ++ (payload ++ rest).take n).length = n + 21 := by
      rw [List.length_append, hlen]; simp [hh]; omega
    rw [List.take_left' hl2, List.take_append_of_le_length hn1.1]
  have e2l : s2.buffer.length = size := by
    rw [hs2, e1]
    show (put (ty :: (header ++ buf.drop 20)) 21 ((payload ++ rest).take n)).length = _
    rw [put_length _ _ _ (by rw [hlen, hb1]; omega)]; exact hb1
  have e2i : s2.input = payload.drop n ++ rest := by
    rw [hs2, e1]
    show (payload ++ rest).drop n = _
    rw [List.drop_append_of_le_length hn1.1]
  have e2o : s2.output = out := by rw [hs2, e1]; rfl
  have e2f : s2.fault = false := by
    rw [hs2, e1]
    show (false || decide ((ty :: (header ++ buf.drop 20)).length < 21 + n) || decide ((payload ++ rest).length < n)) = false
    rw [hb1]; simp; omega
  have hdef : handle_timed_message size big connected s0 =
      if connected then some (forwardRest size (payload.length + 21) (n + 21) (s2.write (n + 21)))
      else some (discardRest size (payload.length + 21) (n + 21) s2) := by
    unfold handle_timed_message
    simp only [show 21 - 1 = 20 by rfl]
    have hx : (extract_timed_header big ((s0.read 1 20).buffer.drop 1)).length.toNat = payload.length := by
      rw [e1]; exact hl
    rw [hx, if_neg (by omega), ← hn, ← hs2]
  have hk : payload.length + 21 - (n + 21) = payload.length - n := by omega
  rw [hdef]
  cases connected with
  | true =>
    obtain ⟨h1, h2, h3⟩ := forwardRest_spec size (by omega) (payload.length + 21) _ (n + 21) (s2.write (n + 21)) rfl (by omega)
      e2l (by show _ ≤ s2.input.length; rw [e2i, List.length_append, List.length_drop]; omega) e2f
    refine ⟨_, rfl, h3, ?_, ?_⟩
    · rw [h2]
      show s2.input.drop _ = rest
      rw [e2i, hk]; exact List.drop_left' (by simp)
    · rw [h1]
      show s2.output ++ s2.buffer.take (n + 21) ++ s2.input.take _ = _
      rw [e2o, e2b, e2i, hk, List.take_left' (by simp)]
      simp
  | false =>
    obtain ⟨h1, h2, h3⟩ := discardRest_spec size (by omega) (payload.length + 21) _ (n + 21) s2 rfl (by omega)
      e2l (by rw [e2i, List.length_append, List.length_drop]; omega) e2f
    refine ⟨_, rfl, h3, ?_, ?_⟩
    · rw [h2, e2i, hk]; exact List.drop_left' (by simp)
    · rw [h1, e2o]; rfl

/-- The length field of a header does not depend on what follows the header. -/
theorem length_field (big : Bool) (header l : List Byte) (h : header.length = 20) :
    (extract_timed_header big (header ++ l)).length = (extract_timed_header big header).length := by
  show extract_uint32 big ((header ++ l).drop 4) = extract_uint32 big (header.drop 4)
  rw [List.drop_append_of_le_length (by omega)]
  rw [extract_uint32_eq _ _ (by simp; omega), extract_uint32_eq _ _ (by simp; omega), List.take_append_of_le_length (by simp; omega)]

/-- **C33** For every buffer size that has room for the header and one byte, every 20 header bytes and every payload
of the length the header announces (shorter, equal or longer than the buffer): what the RTI sends to the destination
is the type, the header and the payload, byte for byte; what follows on the connection is left there; the buffer is
never overrun. -/
theorem C33_forwarding (size : Nat) (hsize : 22 ≤ size) (big : Bool) (ty : Byte) (buf header payload rest out : List Byte)
    (hbuf : buf.length + 1 = size) (hh : header.length = 20)
    (hl : (extract_timed_header big header).length.toNat = payload.length) :
    ∃ s', handle_timed_message size big true
        { buffer := ty :: buf, input := header ++ payload ++ rest, output := out, fault := false } = some s' ∧
      s'.fault = false ∧ s'.output = out ++ ty :: header ++ payload ∧ s'.input = rest := by
  obtain ⟨s', h1, h2, h3, h4⟩ := handle_timed_spec size hsize big true ty buf header payload rest out hbuf hh
    (by rw [length_field big header _ hh]; exact hl)
  exact ⟨s', h1, h2, by simpa using h4, h3⟩

/-- **C33** If the destination has gone, the whole message is taken from the connection and nothing is sent, so that
the next message is read from its beginning. -/
theorem C33_dropped_message_is_skipped (size : Nat) (hsize : 22 ≤ size) (big : Bool) (ty : Byte)
    (buf header payload rest out : List Byte) (hbuf : buf.length + 1 = size) (hh : header.length = 20)
    (hl : (extract_timed_header big header).length.toNat = payload.length) :
    ∃ s', handle_timed_message size big false
        { buffer := ty :: buf, input := header ++ payload ++ rest, output := out, fault := false } = some s' ∧
      s'.fault = false ∧ s'.output = out ∧ s'.input = rest := by
  obtain ⟨s', h1, h2, h3, h4⟩ := handle_timed_spec size hsize big false ty buf header payload rest out hbuf hh
    (by rw [length_field big header _ hh]; exact hl)
  exact ⟨s', h1, h2, by simpa using h4, h3⟩

/-- **C33** End to end: a federate's tagged message, as `lf_send_tagged_message` writes it, arrives at the
destination with its header fields and payload, through hosts of any byte order. -/
theorem C33_end_to_end (size : Nat) (hsize : 22 ≤ size) (bigRti bigDst : Bool) (hdr buf payload rest : List Byte) (ty : Byte)
    (p f : BitVec 16) (t : WTag) (hh : hdr.length = 21) (hbuf : buf.length + 1 = size) (hlen : payload.length < 2 ^ 32) :
    ∃ s', handle_timed_message size bigRti true
        { buffer := ty :: buf
          input := (tagged_header hdr ty p f (BitVec.ofNat 64 payload.length) t).drop 1 ++ payload ++ rest
          output := [], fault := false } = some s' ∧
      s'.input = rest ∧ s'.output.head? = some ty ∧ s'.output.drop 21 = payload ∧
      (extract_timed_header bigDst (s'.output.drop 1)).port = p ∧
      (extract_timed_header bigDst (s'.output.drop 1)).federate = f ∧
      (extract_timed_header bigDst (s'.output.drop 1)).length.toNat = payload.length ∧
      (extract_timed_header bigDst (s'.output.drop 1)).tag = t := by
  have hl64 : (BitVec.ofNat 64 payload.length).toNat = payload.length := ofNat_toNat_mod _ _ (by omega)
  have hr := fun big rest' => C31_header_roundtrip big hdr hh ty p f (BitVec.ofNat 64 payload.length) (by omega) t rest'
  have h21 := (hr false []).1
  have h20 : ((tagged_header hdr ty p f (BitVec.ofNat 64 payload.length) t).drop 1).length = 20 := by simp [h21]
  have hty : tagged_header hdr ty p f (BitVec.ofNat 64 payload.length) t =
      ty :: (tagged_header hdr ty p f (BitVec.ofNat 64 payload.length) t).drop 1 := by
    have := (hr false []).2.1
    cases hq : tagged_header hdr ty p f (BitVec.ofNat 64 payload.length) t with
    | nil => rw [hq] at this; simp at this
    | cons a l => rw [hq] at this; simp at this; simp [this]
  obtain ⟨s', h1, h2, h3, h4⟩ := C33_forwarding size hsize bigRti ty buf _ payload rest [] hbuf h20 (by
    have := (hr bigRti []).2.2.2.2.1
    rw [List.append_nil, hl64] at this
    exact this)
  refine ⟨s', h1, h4, ?_⟩
  have hout : s'.output = tagged_header hdr ty p f (BitVec.ofNat 64 payload.length) t ++ payload := by
    rw [h3, List.nil_append, ← hty]
  obtain ⟨_, _, r1, r2, r3, r4⟩ := hr bigDst payload
  rw [hout]
  refine ⟨by rw [hty]; rfl, List.drop_left' h21, r1, r2, by rw [r3, hl64], r4⟩

/-- A payload of five bytes through a buffer that holds two of them at a time. -/
example : (handle_timed_message 23 false true
    { buffer := 0x05#8 :: List.replicate 22 0#8
      input := (tagged_header (List.replicate 21 0xaa#8) 0x05#8 1#16 2#16 5#64 ⟨7#64, 1#32⟩).drop 1 ++ [1#8, 2#8, 3#8, 4#8, 5#8] ++ [9#8]
      output := [], fault := false }).map (fun s => (s.output.drop 21, s.input, s.fault)) =
    some ([1#8, 2#8, 3#8, 4#8, 5#8], [9#8], false) := by decide +kernel

end ReactorC.Net
