import Verif.Join.Model
import Verif.Net.WireProps
import Mathlib.Data.List.Perm.Subperm

/-!
# C30: only federates of this federation with valid, unused identifiers join
-/

namespace ReactorC.Join
open ReactorC.Net

/-! ## Specification -/

/-- The part of a byte string before the first null character. -/
def text (l : List Byte) : List Byte := l.takeWhile (fun b => b ≠ 0)

/-- What the RTI takes for its own federation ID `mine` (which contains no null character): any prefix of it, or exactly
itself if a null character follows. -/
def Acceptable (mine received : List Byte) : Prop := if 0 ∈ received then text received = mine else received <+: mine

/-- The first message of a peer, as documented at net_common.h:293-308: the type, the federate ID, the length of the
federation ID, the federation ID. -/
def firstMessage (fed_id : BitVec 16) (federation_id : List Byte) : List Byte :=
  MSG_TYPE_FED_IDS :: encode_uint16 fed_id ++ [BitVec.ofNat 8 federation_id.length] ++ federation_id

/-! ## Lemmas -/

theorem text_cons_ne {b : Byte} (h : b ≠ 0) (l : List Byte) : text (b :: l) = b :: text l := by
  unfold text; rw [List.takeWhile_cons, if_pos (decide_eq_true h)]

theorem text_cons_zero (l : List Byte) : text (0 :: l) = [] := by
  unfold text; rw [List.takeWhile_cons]; simp

theorem strncmp_spec (mine received : List Byte) (hm : 0 ∉ mine) :
    strncmpDiffers (mine ++ [0]) (received ++ [0]) received.length = false ↔ Acceptable mine received := by
  induction received generalizing mine with
  | nil => simp [strncmpDiffers, Acceptable]
  | cons b r ih =>
    unfold Acceptable
    cases mine with
    | nil =>
      simp only [List.nil_append, List.cons_append, List.length_cons, strncmpDiffers]
      by_cases hb : b = 0
      · subst hb
        have := text_cons_zero r
        simp [this]
        exact this
      · have h0 : (0 : Byte) ≠ b := fun h => hb h.symm
        simp only [h0, ne_eq, not_false_eq_true, if_true, Bool.true_eq_false, false_iff]
        split
        · rw [text_cons_ne hb]; simp
        · simp
    | cons a m =>
      have ha : a ≠ 0 := fun h => hm (by rw [h]; exact List.mem_cons_self)
      have hm' : 0 ∉ m := fun h => hm (List.mem_cons_of_mem _ h)
      simp only [List.cons_append, List.length_cons, strncmpDiffers]
      by_cases hab : a = b
      · subst hab
        simp only [ne_eq, not_true_eq_false, if_false, ha]
        rw [ih m hm']
        unfold Acceptable
        have : (0 ∈ a :: r) ↔ 0 ∈ r := by
          rw [List.mem_cons]; constructor
          · rintro (h | h)
            · exact absurd h.symm ha
            · exact h
          · exact Or.inr
        by_cases h0 : (0 : Byte) ∈ r
        · rw [if_pos h0, if_pos (this.2 h0), text_cons_ne ha]; simp
        · rw [if_neg h0, if_neg (fun h => h0 (this.1 h)), List.cons_prefix_cons]; simp
      · simp only [ne_eq, hab, not_false_eq_true, if_true, Bool.true_eq_false, false_iff]
        split
        · by_cases hb : b = 0
          · subst hb; rw [text_cons_zero]; simp
          · rw [text_cons_ne hb]; simp only [List.cons.injEq, not_and]; intro h; exact absurd h.symm hab
        · rw [List.cons_prefix_cons]; rintro ⟨h, _⟩; exact hab h.symm

theorem readN_append (a b : List Byte) : readN a.length (a ++ b) = some (a, b) := by
  unfold readN; simp

theorem receive_first (big : Bool) (n : Nat) (mine : List Byte) (connected : Nat → Bool) (fed_id : BitVec 16)
    (federation_id rest : List Byte) (hl : federation_id.length < 256) :
    receiveAndCheck big n mine connected (firstMessage fed_id federation_id ++ rest) =
      match verdict n mine connected fed_id.toNat federation_id with
      | .ack => ⟨[.ack], some fed_id.toNat, rest⟩
      | r => ⟨[r], none, rest⟩ := by
  obtain ⟨b0, b1, hb⟩ : ∃ b0 b1, encode_uint16 fed_id = [b0, b1] := ⟨_, _, rfl⟩
  have hx : extract_uint16 big [b0, b1, BitVec.ofNat 8 federation_id.length] = fed_id := by
    have := C31_uint16_roundtrip big fed_id [BitVec.ofNat 8 federation_id.length]
    rw [hb] at this; exact this
  have hn : (BitVec.ofNat 8 federation_id.length).toNat = federation_id.length := by
    rw [BitVec.toNat_ofNat]; exact Nat.mod_eq_of_lt hl
  have hr : readN 4 (firstMessage fed_id federation_id ++ rest) =
      some ([MSG_TYPE_FED_IDS, b0, b1, BitVec.ofNat 8 federation_id.length], federation_id ++ rest) := by
    unfold firstMessage; rw [hb]; unfold readN; simp
  unfold receiveAndCheck
  rw [hr]
  simp only [List.getD_cons_zero, ne_eq, not_true_eq_false, if_false, List.drop_succ_cons, List.drop_zero, hx,
    List.getD_cons_succ, hn, readN_append]
  cases verdict n mine connected fed_id.toNat federation_id <;> rfl

/-! ## The theorems

For any number `n` of federates, any federation ID `mine` of the RTI, any federates that have joined, any federate ID (of 16
bits) and any federation ID (of at most 255 bytes) received, and any bytes that follow; the RTI runs on a host of either byte
order. -/

/-- **C30** Decision table: the RTI acknowledges exactly those peers whose federation ID is acceptable, whose federate ID is
in range, and whose federate ID is not in use; otherwise it rejects the peer, with the cause that applies first. -/
theorem C30_reply_to_first_message (big : Bool) (n : Nat) (mine : List Byte) (connected : Nat → Bool) (fed_id : BitVec 16)
    (federation_id rest : List Byte) (hl : federation_id.length < 256) (hm : 0 ∉ mine) :
    let r := receiveAndCheck big n mine connected (firstMessage fed_id federation_id ++ rest)
    (Acceptable mine federation_id ∧ fed_id.toNat < n ∧ connected fed_id.toNat = false →
      r.replies = [.ack] ∧ r.fed = some fed_id.toNat) ∧
    (Acceptable mine federation_id ∧ fed_id.toNat < n ∧ connected fed_id.toNat = true →
      r.replies = [.reject .federateIdInUse] ∧ r.fed = none) ∧
    (Acceptable mine federation_id ∧ n ≤ fed_id.toNat → r.replies = [.reject .federateIdOutOfRange] ∧ r.fed = none) ∧
    (¬ Acceptable mine federation_id → r.replies = [.reject .federationIdDoesNotMatch] ∧ r.fed = none) := by
  intro r
  have hr : r = _ := receive_first big n mine connected fed_id federation_id rest hl
  have hs := strncmp_spec mine federation_id hm
  refine ⟨?_, ?_, ?_, ?_⟩
  · rintro ⟨h1, h2, h3⟩
    have : verdict n mine connected fed_id.toNat federation_id = .ack := by
      unfold verdict
      rw [hs.2 h1, if_neg (by simp), if_neg (by omega), if_neg (by rw [h3]; simp)]
    rw [hr, this]; exact ⟨rfl, rfl⟩
  · rintro ⟨h1, h2, h3⟩
    have : verdict n mine connected fed_id.toNat federation_id = .reject .federateIdInUse := by
      unfold verdict
      rw [hs.2 h1, if_neg (by simp), if_neg (by omega), if_pos h3]
    rw [hr, this]; exact ⟨rfl, rfl⟩
  · rintro ⟨h1, h2⟩
    have : verdict n mine connected fed_id.toNat federation_id = .reject .federateIdOutOfRange := by
      unfold verdict
      rw [hs.2 h1, if_neg (by simp), if_pos (by omega)]
    rw [hr, this]; exact ⟨rfl, rfl⟩
  · intro h1
    have h2 : strncmpDiffers (mine ++ [0]) (federation_id ++ [0]) federation_id.length = true := by
      cases h : strncmpDiffers (mine ++ [0]) (federation_id ++ [0]) federation_id.length with
      | true => rfl
      | false => exact absurd (hs.1 h) h1
    have : verdict n mine connected fed_id.toNat federation_id = .reject .federationIdDoesNotMatch := by
      unfold verdict
      rw [if_pos h2]
    rw [hr, this]; exact ⟨rfl, rfl⟩

/-- **C30** Whatever bytes a peer sends, the RTI replies at most once before the rest of the handshake; it acknowledges
exactly the peers it accepts, and those have a federate ID in range that was not in use. -/
theorem C30_any_input (big : Bool) (n : Nat) (mine : List Byte) (connected : Nat → Bool) (input : List Byte) :
    let r := receiveAndCheck big n mine connected input
    r.replies.length ≤ 1 ∧ (.ack ∈ r.replies ↔ ∃ id, r.fed = some id) ∧
    ∀ id, r.fed = some id → id < n ∧ connected id = false := by
  intro r
  have hv : ∀ id fid, verdict n mine connected id fid = .ack → id < n ∧ connected id = false := by
    intro id fid h
    unfold verdict at h
    split at h
    · cases h
    · split at h
      · cases h
      · split at h
        · cases h
        · rename_i h1 h2; exact ⟨by omega, by simpa using h2⟩
  have hr : r = receiveAndCheck big n mine connected input := rfl
  unfold receiveAndCheck at hr
  cases h4 : readN 4 input with
  | none => rw [h4] at hr; rw [hr]; simp
  | some x =>
    obtain ⟨buffer, rest⟩ := x
    rw [h4] at hr
    simp only [] at hr
    by_cases ht : buffer.getD 0 0 ≠ MSG_TYPE_FED_IDS
    · rw [if_pos ht] at hr; rw [hr]; simp
    · rw [if_neg ht] at hr
      cases h5 : readN (buffer.getD 3 0).toNat rest with
      | none => rw [h5] at hr; rw [hr]; simp
      | some y =>
        obtain ⟨fid, rest'⟩ := y
        rw [h5] at hr
        simp only [] at hr
        cases hx : verdict n mine connected (extract_uint16 big (List.drop 1 buffer)).toNat fid with
        | ack =>
          rw [hx] at hr
          rw [hr]
          refine ⟨by simp, by simp, ?_⟩
          intro id h
          simp only [Option.some.injEq] at h
          subst h
          exact hv _ _ hx
        | reject c =>
          rw [hx] at hr
          rw [hr]
          simp

/-- **C30** A peer whose first message is of another type is told so, with the cause, and does not join: `wrongServer` if it
takes the RTI for a federate, `rtiNotExecutedWithAuth` if it expects authentication. -/
theorem C30_other_messages_are_rejected (big : Bool) (n : Nat) (mine : List Byte) (connected : Nat → Bool)
    (type b1 b2 b3 : Byte) (rest : List Byte) (h : type ≠ 1) :
    (receiveAndCheck big n mine connected (type :: b1 :: b2 :: b3 :: rest)).fed = none ∧
    (receiveAndCheck big n mine connected (type :: b1 :: b2 :: b3 :: rest)).replies =
      [.reject (if type = 16 ∨ type = 18 then .wrongServer else if type = 100 then .rtiNotExecutedWithAuth
        else .unexpectedMessage)] := by
  have e : readN 4 (type :: b1 :: b2 :: b3 :: rest) = some ([type, b1, b2, b3], rest) := by
    unfold readN; simp
  have h' : ([type, b1, b2, b3] : List Byte).getD 0 0 ≠ MSG_TYPE_FED_IDS := h
  unfold receiveAndCheck
  rw [e]
  simp only [if_pos h', true_and]
  rfl

example : (receiveAndCheck false 2 [65] (fun _ => false) [18, 0, 0, 0]).replies = [.reject .wrongServer] := by decide

/-- **C30** A federate of the federation (the same federation ID, of any length) with an ID in range that is not in use is
accepted. -/
theorem C30_members_are_accepted (big : Bool) (n : Nat) (mine : List Byte) (connected : Nat → Bool) (fed_id : BitVec 16)
    (rest : List Byte) (hm : 0 ∉ mine) (hi : fed_id.toNat < n) (hc : connected fed_id.toNat = false) :
    (receiveAndCheck big n mine connected (idMessage fed_id mine ++ rest)).fed = some fed_id.toNat := by
  have hpre : mine.take (min mine.length 255) <+: mine := List.take_prefix _ _
  have h0 : (0 : Byte) ∉ mine.take (min mine.length 255) := fun h => hm (List.mem_of_mem_take h)
  have hlen : (mine.take (min mine.length 255)).length = min mine.length 255 := by simp
  have he : idMessage fed_id mine = firstMessage fed_id (mine.take (min mine.length 255)) := by
    unfold idMessage firstMessage; rw [hlen]
  rw [he]
  refine ((C30_reply_to_first_message big n mine connected fed_id _ rest (by rw [hlen]; omega) hm).1 ⟨?_, hi, hc⟩).2
  unfold Acceptable
  rw [if_neg h0]
  exact hpre

/-- **C30** A federate of another federation is turned away, unless its federation ID is a prefix of that of the RTI (see
`C30_prefix_is_accepted`). -/
theorem C30_strangers_are_rejected_partial (big : Bool) (n : Nat) (mine theirs : List Byte) (connected : Nat → Bool)
    (fed_id : BitVec 16) (rest : List Byte) (hm : 0 ∉ mine) (ht : 0 ∉ theirs) (hl : theirs.length < 256)
    (h : ¬ theirs <+: mine) :
    (receiveAndCheck big n mine connected (idMessage fed_id theirs ++ rest)).replies = [.reject .federationIdDoesNotMatch] := by
  have he : idMessage fed_id theirs = firstMessage fed_id theirs := by
    unfold idMessage firstMessage
    simp only []
    rw [Nat.min_eq_left (by omega), List.take_length]
  rw [he]
  refine ((C30_reply_to_first_message big n mine connected fed_id _ rest hl hm).2.2.2 ?_).1
  unfold Acceptable
  rw [if_neg ht]
  exact h

/-- **C30** (limit) A federate of another federation whose federation ID is a prefix of that of the RTI joins; the empty ID
always is. -/
theorem C30_prefix_is_accepted (big : Bool) (n : Nat) (mine theirs : List Byte) (connected : Nat → Bool) (fed_id : BitVec 16)
    (rest : List Byte) (hm : 0 ∉ mine) (hl : theirs.length < 256) (h : theirs <+: mine) (hi : fed_id.toNat < n)
    (hc : connected fed_id.toNat = false) :
    (receiveAndCheck big n mine connected (idMessage fed_id theirs ++ rest)).fed = some fed_id.toNat := by
  have h0 : (0 : Byte) ∉ theirs := fun hx => hm (h.subset hx)
  have he : idMessage fed_id theirs = firstMessage fed_id theirs := by
    unfold idMessage firstMessage
    simp only []
    rw [Nat.min_eq_left (by omega), List.take_length]
  rw [he]
  refine ((C30_reply_to_first_message big n mine connected fed_id _ rest hl hm).1 ⟨?_, hi, hc⟩).2
  unfold Acceptable
  rw [if_neg h0]
  exact h

/-- "fed" joins a federation "fed1". -/
example : (receiveAndCheck false 1 [102, 101, 100, 49] (fun _ => false) (idMessage 0 [102, 101, 100])).fed = some 0 := by
  decide

example : (receiveAndCheck true 2 [102, 101, 100, 49] (fun i => i == 0) (idMessage 1 [102, 101, 100, 49])).replies = [.ack] := by
  decide

example : (receiveAndCheck true 2 [102, 101, 100, 49] (fun i => i == 0) (idMessage 0 [102, 101, 100, 49])).replies =
    [.reject .federateIdInUse] := by decide

example : (receiveAndCheck true 2 [102, 101, 100, 49] (fun i => i == 0) (idMessage 2 [102, 101, 100, 49])).replies =
    [.reject .federateIdOutOfRange] := by decide

example : (receiveAndCheck true 2 [102, 101, 100, 49] (fun i => i == 0) (idMessage 2 [102, 101, 100, 50])).replies =
    [.reject .federationIdDoesNotMatch] := by decide

/-! ## All federates -/

/-- The federates that have joined are different, in range and not `NOT_CONNECTED`. -/
structure Joined (n : Nat) (s : Rti) : Prop where
  nodup : s.threads.Nodup
  range : ∀ i ∈ s.threads, i < n
  conn : ∀ i ∈ s.threads, s.connected i = true
  few : s.threads.length ≤ n

theorem nodup_length {l : List Nat} {n : Nat} (hn : l.Nodup) (hr : ∀ i ∈ l, i < n) : l.length ≤ n := by
  have : l.Subperm (List.range n) := List.subperm_of_subset hn (fun i hi => List.mem_range.2 (hr i hi))
  have := this.length_le
  rwa [List.length_range] at this

theorem serve_joined (big : Bool) {n : Nat} (mine : List Byte) {s : Rti} (j : Joined n s) (input : List Byte) (f : Bool) :
    Joined n (serve big n mine s input f) := by
  unfold serve
  simp only []
  have h := (C30_any_input big n mine s.connected input).2.2
  generalize receiveAndCheck big n mine s.connected input = r at h ⊢
  cases hr : r.fed with
  | none => exact j
  | some id =>
    obtain ⟨h1, h2⟩ := h id hr
    have hconn : ∀ i ∈ s.threads, (if i = id then true else s.connected i) = true := by
      intro i hi; split
      · rfl
      · exact j.conn i hi
    simp only []
    split
    · exact ⟨j.nodup, j.range, hconn, j.few⟩
    · cases receiveRest big r.rest with
      | joined =>
        have hnew : id ∉ s.threads := fun hi => by rw [j.conn id hi] at h2; cases h2
        have hnd : (id :: s.threads).Nodup := List.nodup_cons.2 ⟨hnew, j.nodup⟩
        have hrg : ∀ i ∈ id :: s.threads, i < n := by
          intro i hi
          rw [List.mem_cons] at hi
          rcases hi with rfl | hi
          · exact h1
          · exact j.range i hi
        refine ⟨hnd, hrg, ?_, nodup_length hnd hrg⟩
        intro i hi
        simp only [List.mem_cons] at hi
        rcases hi with rfl | hi
        · simp
        · exact hconn i hi
      | rejected => exact ⟨j.nodup, j.range, hconn, j.few⟩
      | exit => exact ⟨j.nodup, j.range, hconn, j.few⟩

theorem connectAll_joined (big : Bool) {n : Nat} (mine : List Byte) (conns : List (List Byte × Bool)) {s : Rti}
    (j : Joined n s) : Joined n (connectAll big n mine conns s) := by
  unfold connectAll
  induction conns generalizing s with
  | nil => exact j
  | cons c more ih =>
    obtain ⟨input, f⟩ := c
    unfold acceptLoop
    split
    · exact j
    · exact ih (serve_joined big mine j input f)

/-- **C30** Whatever peers connect and whatever they send: when the RTI goes on because `n` federates have joined, each of
the federates 0, …, n - 1 has joined exactly once. -/
theorem C30_each_federate_joins_once (big : Bool) (n : Nat) (mine : List Byte) (conns : List (List Byte × Bool))
    (h : (connectAll big n mine conns .init).threads.length = n) :
    (connectAll big n mine conns .init).threads.Perm (List.range n) := by
  have j : Joined n Rti.init := ⟨List.nodup_nil, fun _ h => (by cases h), fun _ h => (by cases h), Nat.zero_le _⟩
  have j' := connectAll_joined big mine conns j
  have hs := List.subperm_of_subset j'.nodup (fun i hi => List.mem_range.2 (j'.range i hi))
  exact hs.perm_of_length_le (by rw [List.length_range, h])

/-- **C30** Once every federate has joined, the RTI serves no further connection: whoever connects after that is left to the thread that
responds to strangers, and what the RTI has recorded does not depend on them. -/
theorem C30_no_connection_is_served_after_the_last_federate (big : Bool) (n : Nat) (mine : List Byte) (conns more : List (List Byte × Bool))
    (h : (acceptLoop big n mine conns .init).1.threads.length = n) :
    acceptLoop big n mine (conns ++ more) .init =
      ((acceptLoop big n mine conns .init).1, (acceptLoop big n mine conns .init).2 ++ more) := by
  revert h
  generalize Rti.init = s
  induction conns generalizing s with
  | nil =>
    intro h
    have h' : s.threads.length = n := h
    cases more with
    | nil => rfl
    | cons c more =>
      obtain ⟨input, f⟩ := c
      rw [List.nil_append]
      unfold acceptLoop
      rw [if_pos (Or.inl (Nat.le_of_eq h'.symm))]
      rfl
  | cons c conns ih =>
    obtain ⟨input, f⟩ := c
    intro h
    rw [List.cons_append]
    unfold acceptLoop at h ⊢
    by_cases hc : s.threads.length ≥ n ∨ s.exited = true
    · rw [if_pos hc] at h ⊢
      rw [if_pos hc]
      rfl
    · rw [if_neg hc] at h ⊢
      rw [if_neg hc]
      exact ih _ h

/-- What a federate sends to join: its ID, no connections through the RTI, and a UDP port. -/
def joinBytes (fed_id : BitVec 16) (federation_id : List Byte) : List Byte :=
  idMessage fed_id federation_id ++ [MSG_TYPE_NEIGHBOR_STRUCTURE, 0, 0, 0, 0, 0, 0, 0, 0] ++ [MSG_TYPE_UDP_PORT, 255, 255]

/-- Two federates, a stranger, a broken connection, and a second federate 0. -/
example : (connectAll false 2 [102] [(joinBytes 1 [102], false), (joinBytes 0 [103], false), ([1, 2], false),
    (joinBytes 1 [102], false), (joinBytes 0 [102], false)] .init).threads = [0, 1] := by decide

/-- A connection after the last federate is not served. -/
example : (acceptLoop false 1 [102] [([1, 2], false), (joinBytes 0 [102], false)] .init).1.threads.length = 1 ∧
    (acceptLoop false 1 [102] ([([1, 2], false), (joinBytes 0 [102], false)] ++ [(joinBytes 0 [102], false)]) .init).2.length = 1 := by
  decide

/-- **C30** (limit) A federate that is acknowledged and then rejected, because it sends something else than the RTI expects,
or to which the acknowledgement cannot be written, is remembered as connected: whoever presents its ID afterwards is rejected
because the ID is in use, so the federation never starts. -/
theorem C30_failed_join_locks_the_id (big : Bool) (n : Nat) (mine : List Byte) (s : Rti) (input : List Byte) (f : Bool)
    (fed_id : BitVec 16) (hm : 0 ∉ mine)
    (h : (receiveAndCheck big n mine s.connected input).fed = some fed_id.toNat)
    (hf : f = true ∨ receiveRest big (receiveAndCheck big n mine s.connected input).rest ≠ .joined) :
    (serve big n mine s input f).threads = s.threads ∧
    ∀ rest, (receiveAndCheck big n mine (serve big n mine s input f).connected (idMessage fed_id mine ++ rest)).replies =
      [.reject .federateIdInUse] := by
  have hid := ((C30_any_input big n mine s.connected input).2.2 _ h).1
  have key : (serve big n mine s input f).threads = s.threads ∧
      (serve big n mine s input f).connected fed_id.toNat = true := by
    unfold serve
    simp only []
    rw [h]
    simp only []
    rcases hf with rfl | hf
    · rw [if_pos rfl]; exact ⟨rfl, by simp⟩
    · split
      · exact ⟨rfl, by simp⟩
      · cases hr : receiveRest big (receiveAndCheck big n mine s.connected input).rest with
        | joined => exact absurd hr hf
        | rejected => exact ⟨rfl, by simp⟩
        | exit => exact ⟨rfl, by simp⟩
  refine ⟨key.1, fun rest => ?_⟩
  have h0 : (0 : Byte) ∉ mine.take (min mine.length 255) := fun h => hm (List.mem_of_mem_take h)
  have hlen : (mine.take (min mine.length 255)).length = min mine.length 255 := by simp
  have he : idMessage fed_id mine = firstMessage fed_id (mine.take (min mine.length 255)) := by
    unfold idMessage firstMessage; rw [hlen]
  rw [he]
  refine ((C30_reply_to_first_message big n mine _ fed_id _ rest (by rw [hlen]; omega) hm).2.1 ⟨?_, hid, key.2⟩).1
  unfold Acceptable
  rw [if_neg h0]
  exact List.take_prefix _ _

/-- Federate 0 first sends a wrong second message, then tries again: it does not join. -/
example : (connectAll false 1 [102] [(idMessage 0 [102] ++ [7, 0, 0, 0, 0, 0, 0, 0, 0], false), (joinBytes 0 [102], false)]
    .init).threads = [] := by decide

/-! ## The structure of the federation -/

/-- The body of the message in which a federate describes its connections, net_common.h:640-664. -/
def neighborBody (up : List (BitVec 16 × BitVec 64)) (down : List (BitVec 16)) : List Byte :=
  (up.flatMap fun u => encode_uint16 u.1 ++ encode_int64 u.2) ++ down.flatMap encode_uint16

theorem encode_length64 (x : BitVec 64) : (encode_int64 x).length = 8 := by simp [encode_int64]

theorem parseUp_spec (big : Bool) (up : List (BitVec 16 × BitVec 64)) (rest : List Byte) :
    parseUp big up.length ((up.flatMap fun u => encode_uint16 u.1 ++ encode_int64 u.2) ++ rest) = up := by
  induction up with
  | nil => rfl
  | cons u up ih =>
    simp only [List.length_cons, parseUp, List.flatMap_cons, List.append_assoc]
    have h2 : (encode_uint16 u.1).length = 2 := encode_length16 _
    have h8 : (encode_int64 u.2).length = 8 := encode_length64 _
    rw [C31_uint16_roundtrip, ← h2, List.drop_left, C31_int64_roundtrip]
    have hd : ∀ x : List Byte, (encode_uint16 u.1 ++ (encode_int64 u.2 ++ x)).drop 10 = x := by
      intro x
      rw [← List.append_assoc]
      exact List.drop_left' (by rw [List.length_append, h2, h8])
    rw [hd, ih]

theorem parseDown_spec (big : Bool) (down : List (BitVec 16)) (rest : List Byte) :
    parseDown big down.length (down.flatMap encode_uint16 ++ rest) = down := by
  induction down with
  | nil => rfl
  | cons d down ih =>
    simp only [List.length_cons, parseDown, List.flatMap_cons, List.append_assoc]
    have h2 : (encode_uint16 d).length = 2 := encode_length16 _
    rw [C31_uint16_roundtrip, ← h2, List.drop_left, ih]

/-- **C30** The RTI learns the connections of a federate as the federate describes them. -/
theorem C30_connections_arrive (big : Bool) (up : List (BitVec 16 × BitVec 64)) (down : List (BitVec 16)) :
    parseUp big up.length (neighborBody up down) = up ∧
    parseDown big down.length ((neighborBody up down).drop (10 * up.length)) = down ∧
    (neighborBody up down).length = bodySize up.length down.length := by
  have hup : ∀ l : List (BitVec 16 × BitVec 64), (l.flatMap fun u => encode_uint16 u.1 ++ encode_int64 u.2).length = 10 * l.length := by
    intro l
    induction l with
    | nil => rfl
    | cons u l ih =>
      have h2 : (encode_uint16 u.1).length = 2 := encode_length16 _
      have h8 : (encode_int64 u.2).length = 8 := encode_length64 _
      simp only [List.flatMap_cons, List.length_append, List.length_cons, ih, h2, h8]; omega
  have hdown : ∀ l : List (BitVec 16), (l.flatMap encode_uint16).length = 2 * l.length := by
    intro l
    induction l with
    | nil => rfl
    | cons u l ih =>
      have h2 : (encode_uint16 u).length = 2 := encode_length16 _
      simp only [List.flatMap_cons, List.length_append, List.length_cons, ih, h2]; omega
  refine ⟨parseUp_spec big up _, ?_, ?_⟩
  · unfold neighborBody
    rw [← hup up, List.drop_left]
    have := parseDown_spec big down []
    rwa [List.append_nil] at this
  · unfold neighborBody bodySize
    rw [List.length_append, hup, hdown]

/-! ## The federate -/

/-- **C30** A federate goes on after `lf_connect_to_rti` if an RTI has acknowledged it. -/
theorem C30_acknowledged_federate_goes_on (before after : List Attempt) :
    connectToRti (before ++ .reply .ack :: after) = true := by
  unfold connectToRti
  generalize (-1 : Int) = r
  induction before generalizing r with
  | nil => rfl
  | cons a before ih =>
    cases a with
    | reply m => cases m with
      | ack => rfl
      | reject c => exact ih _
    | _ => exact ih _

/-- **C30** A federate that never reaches any RTI exits with an error. -/
theorem C30_unreachable_rti_is_an_error (attempts : List Attempt) (h : ∀ a ∈ attempts, a = .refused) :
    connectToRti attempts = false := by
  unfold connectToRti
  induction attempts with
  | nil => rfl
  | cons a rest ih =>
    rw [h a List.mem_cons_self]
    exact ih (fun b hb => h b (List.mem_cons_of_mem _ hb))

/-- **C30** (limit) A federate that every RTI has rejected also goes on as if it had joined, when the time for connecting is
up. -/
theorem C30_rejected_federate_goes_on (attempts : List Attempt) (c : Cause) :
    connectToRti (attempts ++ [.reply (.reject c)]) = true := by
  unfold connectToRti
  generalize (-1 : Int) = r
  induction attempts generalizing r with
  | nil => rfl
  | cons a before ih =>
    cases a with
    | reply m => cases m with
      | ack => rfl
      | reject c => exact ih _
    | _ => exact ih _

end ReactorC.Join
