import Verif.Leave.Props

/-!
# C82: federates understand everything that the RTI sends
-/

namespace ReactorC.Leave
open ReactorC.Net

/-- Specification: a type, a time and a microstep, as the RTI writes them in grants and stop messages: `encode_int64` and
`encode_int32` after the type, rti_remote.c:194-196, 227-229, and the macros `ENCODE_STOP_REQUEST` and `ENCODE_STOP_GRANTED`, net_common.h. -/
def withTag (ty : Byte) (time : BitVec 64) (microstep : BitVec 32) : List Byte := ty :: (encode_int64 time ++ encode_int32 microstep)

/-- Specification: what the RTI writes to a federate that has started, core/federated/RTI/rti_remote.c: grants (194-204), provisional grants
(227-237), requests to stop (678), the stop tag (558), and the tagged messages (432, 452) and notices of absent ports (336) of other federates, which
it passes on as they are. -/
inductive RtiSends (big : Bool) : List Byte → Prop
  | grant (time microstep) : RtiSends big (withTag 7 time microstep)
  | provisional (time microstep) : RtiSends big (withTag 8 time microstep)
  | stopRequest (time microstep) : RtiSends big (withTag 10 time microstep)
  | stopGranted (time microstep) : RtiSends big (withTag 12 time microstep)
  | forwarded {m : List Byte} : IsMessage rtiReads big m → m.head? = some 5 → RtiSends big m
  | absent {m : List Byte} : IsMessage rtiReads big m → m.head? = some 23 → RtiSends big m

theorem withTag_length (ty : Byte) (time microstep) : (encode_int64 time ++ encode_int32 microstep).length = 12 := by
  simp [encode_int64, encode_int32]

theorem RtiSends.known {big : Bool} {m : List Byte} (h : RtiSends big m) : IsMessage fedReads big m ∧ Accepted m := by
  have tag (ty : Byte) (time microstep) (h1 : ty ≠ MSG_TYPE_TAGGED_MESSAGE) (h2 : fedReads ty = 12) (h3 : ty ≠ MSG_TYPE_FAILED)
      (h4 : fedKnows ty = true) : IsMessage fedReads big (withTag ty time microstep) ∧ Accepted (withTag ty time microstep) :=
    ⟨.inr ⟨ty, _, h1, by rw [h2]; exact (withTag_length ty time microstep), rfl⟩, ⟨ty, rfl, h3, h4⟩⟩
  cases h with
  | grant t u => exact tag _ t u (by decide) (by decide) (by decide) (by decide)
  | provisional t u => exact tag _ t u (by decide) (by decide) (by decide) (by decide)
  | stopRequest t u => exact tag _ t u (by decide) (by decide) (by decide) (by decide)
  | stopGranted t u => exact tag _ t u (by decide) (by decide) (by decide) (by decide)
  | forwarded hm ht =>
    refine ⟨?_, ⟨_, ht, by decide, by decide⟩⟩
    rcases hm with hm | ⟨ty, s, h1, h2, rfl⟩
    · exact .inl hm
    · cases ht; exact absurd rfl h1
  | absent hm ht =>
    refine ⟨?_, ⟨_, ht, by decide, by decide⟩⟩
    rcases hm with hm | ⟨ty, s, h1, h2, rfl⟩
    · exact .inl hm
    · cases ht; exact .inr ⟨23, s, by decide, h2, rfl⟩

/-- **C82** (and C29) Federates understand everything that the RTI sends: whatever the sequence of grants, stop messages and messages of other
federates, the thread that listens splits the stream of bytes into these messages and handles them in this order, and nothing
of it ends the federate. -/
theorem C82_messages_of_the_rti_are_understood (big : Bool) {ms : List (List Byte)} (h : ∀ m ∈ ms, RtiSends big m) :
    listen_to_rti_TCP big ms.flatten = (ms, .returns) := by
  have := fedListen_messages (fun m hm => (h m hm).known) (s := []) (e := .returns) rfl (ms.flatten.length + 1) (by simp)
  simpa [listen_to_rti_TCP] using this

/-- Of a sequence of messages that is cut anywhere, exactly the messages that arrived completely are handled. -/
theorem C82_what_arrives_completely_is_handled (big : Bool) {ms : List (List Byte)} (h : ∀ m ∈ ms, RtiSends big m) (k : Nat)
    (hk : k ≤ ms.flatten.length) : ∃ before after, ms = before ++ after ∧ (listen_to_rti_TCP big (ms.flatten.take k)).1 = before ∧
      before.flatten.length ≤ k ∧ ∀ m after', after = m :: after' → k < before.flatten.length + m.length := by
  obtain ⟨before, part, h1, h2⟩ := cut ms k hk
  have hl : before.flatten.length + part.length = k := by
    have := congrArg List.length h1
    rw [List.length_take, List.length_append] at this; omega
  rcases h2 with ⟨rfl, after, rfl⟩ | ⟨h2, m, after, x, rfl, h3, h4⟩
  · refine ⟨before, after, rfl, ?_, by omega, ?_⟩
    · rw [h1, List.append_nil, C82_messages_of_the_rti_are_understood big fun m hm => h m (List.mem_append_left _ hm)]
    · rintro m after' rfl
      have := List.length_pos_iff.2 (h m (by simp)).known.1.ne_nil
      rw [List.length_nil] at hl; omega
  · have hb : ∀ m' ∈ before, RtiSends big m' := fun m' hm => h m' (List.mem_append_left _ hm)
    refine ⟨before, m :: after, rfl, ?_, by omega, ?_⟩
    · have := fedListen_messages (fun m hm => (hb m hm).known) (fedNext_part (h m (by simp)).known.1 h4 h2 h3)
        ((before.flatten ++ part).length + 1) (by simp)
      rw [h1, listen_to_rti_TCP, this]
    · rintro m' after' e
      cases e
      have := List.length_pos_iff.2 h3
      rw [h4, List.length_append]; omega

/-- A grant, a message with one byte of payload, and the stop tag. -/
example : ∀ m ∈ [withTag 7 5 0, 5 :: ([0, 0, 0, 0, 1, 0, 0, 0] ++ List.replicate 12 0 ++ [42]), withTag 12 9 1], RtiSends false m := by
  intro m h
  simp only [List.mem_cons, List.not_mem_nil, or_false] at h
  rcases h with rfl | rfl | rfl
  · exact .grant _ _
  · exact .forwarded (.inl ⟨[0, 0, 0, 0, 1, 0, 0, 0] ++ List.replicate 12 0, [42], by decide, by decide, rfl⟩) rfl
  · exact .stopGranted _ _

/-- Specification: the types of messages that a federate may get from the RTI: tagged messages, grants and provisional grants, stop requests and stop tags, absent
ports, the end of the RTI, and two of clock synchronization, include/core/federated/network/net_common.h. -/
def fromRti : List Byte := [5, 7, 8, 10, 12, 23, 25, 19, 21]

/-- **C82** A message of any other type ends the federate, whatever follows it, and so does the message that the RTI failed; messages before it are handled. -/
theorem C82_unknown_messages_end_the_federate (big : Bool) {ms : List (List Byte)} (h : ∀ m ∈ ms, RtiSends big m) {ty : Byte} (ht : ty ∉ fromRti ∨ ty = 25)
    (rest : List Byte) : listen_to_rti_TCP big (ms.flatten ++ ty :: rest) = (ms, .exits) := by
  refine fedListen_messages (fun m hm => (h m hm).known) ?_ _ (by simp)
  rcases ht with ht | rfl
  · have hk : ∀ t : Byte, t ∉ fromRti → fedKnows t = false ∧ fedReads t = 0 ∧ t ≠ MSG_TYPE_TAGGED_MESSAGE := by decide +kernel
    obtain ⟨h1, h2, h3⟩ := hk ty ht
    unfold fedNext next
    simp [h1, h2, h3]
  · exact fedNext_failed big rest

example : (listen_to_rti_TCP false (withTag 7 0 0 ++ [0, 1, 2])).2 = .exits := by decide +kernel

end ReactorC.Leave
