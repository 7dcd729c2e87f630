import Verif.Leave.Model
import Verif.Net.SocketProps

/-!
# Messages in what is read from a connection: lemmas
-/

set_option linter.unusedSimpArgs false
set_option linter.unusedVariables false

namespace ReactorC.Leave
open ReactorC.Net

/-- Specification: the bytes of one complete message, as the reader understands them: a type and the bytes that belong to this
type; a tagged message has a header of 20 bytes and a payload as long as the header says. -/
def IsMessage (reads : Byte → Nat) (big : Bool) (m : List Byte) : Prop :=
  (∃ header payload, header.length = 20 ∧ (extract_timed_header big header).length.toNat = payload.length ∧
    m = MSG_TYPE_TAGGED_MESSAGE :: (header ++ payload)) ∨
  ∃ ty body, ty ≠ MSG_TYPE_TAGGED_MESSAGE ∧ body.length = reads ty ∧ m = ty :: body

/-- Specification: a message by which a federate leaves. -/
def Leaves (m : List Byte) : Prop := m.head? = some MSG_TYPE_RESIGN ∨ m.head? = some MSG_TYPE_FAILED

theorem next_message {reads : Byte → Nat} {big : Bool} {m : List Byte} (h : IsMessage reads big m) (s : List Byte) :
    next reads big (m ++ s) = .message m s := by
  rcases h with ⟨header, payload, h1, h2, rfl⟩ | ⟨ty, body, h1, h2, rfl⟩
  · show next reads big (MSG_TYPE_TAGGED_MESSAGE :: (header ++ payload ++ s)) = _
    unfold next
    dsimp only
    rw [if_pos rfl]
    have hl : (extract_timed_header big (header ++ payload ++ s)).length.toNat = payload.length := by
      rw [List.append_assoc, length_field big header _ h1, h2]
    rw [hl, if_neg (by simp; omega), if_neg (by simp; omega)]
    have hlen : (header ++ payload).length = 20 + payload.length := by simp [h1]
    rw [List.take_left' hlen, List.drop_left' hlen]
  · show next reads big (ty :: (body ++ s)) = _
    unfold next
    dsimp only
    rw [if_neg h1, if_neg (by simp; omega), List.take_left' h2, List.drop_left' h2]

theorem next_part {reads : Byte → Nat} {big : Bool} {m part x : List Byte} (h : IsMessage reads big m) (e : m = part ++ x)
    (hp : part ≠ []) (hx : x ≠ []) : next reads big part = .broken := by
  have hxl : 0 < x.length := List.length_pos_iff.2 hx
  cases part with
  | nil => exact absurd rfl hp
  | cons ty s =>
    rcases h with ⟨header, payload, h1, h2, rfl⟩ | ⟨ty', body, h1, h2, rfl⟩
    · have e1 : MSG_TYPE_TAGGED_MESSAGE = ty := by simpa using congrArg List.head? e
      have e2 : header ++ payload = s ++ x := by simpa using (List.cons.inj e).2
      subst e1
      unfold next
      dsimp only
      rw [if_pos rfl]
      by_cases hs : s.length < 20
      · rw [if_pos hs]
      rw [if_neg hs]
      have hl := congrArg List.length e2
      simp only [List.length_append] at hl
      have hpre : s = header ++ s.drop 20 := by
        have h3 : s.take 20 = header := by
          have := congrArg (List.take 20) e2
          rw [List.take_left' h1, List.take_append_of_le_length (by omega)] at this
          exact this.symm
        rw [← h3]; exact (List.take_append_drop 20 s).symm
      have hlen : (extract_timed_header big s).length.toNat = payload.length := by
        rw [hpre, length_field big header _ h1, h2]
      rw [hlen, if_pos (by omega)]
    · have e1 : ty' = ty := by simpa using congrArg List.head? e
      have e2 : body = s ++ x := by simpa using (List.cons.inj e).2
      subst e1
      unfold next
      dsimp only
      have hl := congrArg List.length e2
      simp only [List.length_append] at hl
      rw [if_neg h1, if_pos (by omega)]

/-- What is read is a message and the rest, and every byte is one of both. -/
theorem next_inv {reads : Byte → Nat} {big : Bool} {s m rest : List Byte} (h : next reads big s = .message m rest) :
    IsMessage reads big m ∧ s = m ++ rest := by
  cases s with
  | nil => cases h
  | cons ty s =>
    unfold next at h
    dsimp only at h
    split at h
    · rename_i hty
      split at h
      · cases h
      split at h
      · cases h
      cases h
      rename_i h1 h2
      refine ⟨.inl ⟨s.take 20, (s.drop 20).take (extract_timed_header big s).length.toNat, by simp; omega, ?_, ?_⟩, by simp⟩
      · have : extract_timed_header big s = extract_timed_header big (s.take 20 ++ s.drop 20) := by rw [List.take_append_drop]
        have hl : (extract_timed_header big s).length = (extract_timed_header big (s.take 20)).length := by
          rw [this, length_field big _ _ (by simp; omega)]
        rw [← hl]; simp; omega
      · rw [hty, List.take_add]
    · split at h
      · cases h
      cases h
      rename_i h1 h2
      exact ⟨.inr ⟨ty, _, h1, by simp; omega, rfl⟩, by simp⟩

theorem next_atEnd {reads : Byte → Nat} {big : Bool} {s : List Byte} (h : next reads big s = .atEnd) : s = [] := by
  cases s with
  | nil => rfl
  | cons ty s =>
    unfold next at h
    dsimp only at h
    repeat' split at h
    all_goals cases h

theorem IsMessage.ne_nil {reads : Byte → Nat} {big : Bool} {m : List Byte} (h : IsMessage reads big m) : m ≠ [] := by
  rcases h with ⟨_, _, _, _, rfl⟩ | ⟨_, _, _, _, rfl⟩ <;> simp

/-! ## The thread of the RTI -/

theorem rtiNext_message {big : Bool} {m : List Byte} (h : IsMessage rtiReads big m) (hl : ¬ Leaves m) (s : List Byte) :
    rtiNext big (m ++ s) = .inl (m, s) := by
  unfold rtiNext
  rw [next_message h]
  dsimp only
  rw [if_neg fun k => hl (.inl k), if_neg fun k => hl (.inr k)]

theorem rtiNext_inl {big : Bool} {s m rest : List Byte} (h : rtiNext big s = .inl (m, rest)) :
    IsMessage rtiReads big m ∧ ¬ Leaves m ∧ s = m ++ rest := by
  unfold rtiNext at h
  split at h
  · cases h
  · cases h
  · rename_i m' rest' hn
    obtain ⟨h1, h2⟩ := next_inv hn
    split at h
    · cases h
    split at h
    · cases h
    rename_i k1 k2
    cases h
    exact ⟨h1, fun k => k.elim k1 k2, h2⟩

theorem rtiNext_inr {big : Bool} {s : List Byte} {e : End} (h : rtiNext big s = .inr e) :
    (e = .closed ∧ s = []) ∨ e = .fatal ∨ (e = .resigned ∧ s.head? = some MSG_TYPE_RESIGN) ∨
    (e = .failed ∧ s.head? = some MSG_TYPE_FAILED) := by
  unfold rtiNext at h
  split at h
  · rename_i hn
    cases h
    exact .inl ⟨rfl, next_atEnd hn⟩
  · cases h; exact .inr (.inl rfl)
  · rename_i m rest hn
    obtain ⟨h1, h2⟩ := next_inv hn
    have hh : s.head? = m.head? := by
      rw [h2]
      cases m with
      | nil => exact absurd rfl h1.ne_nil
      | cons a l => rfl
    split at h
    · rename_i k; cases h; exact .inr (.inr (.inl ⟨rfl, hh.trans k⟩))
    split at h
    · rename_i k; cases h; exact .inr (.inr (.inr ⟨rfl, hh.trans k⟩))
    cases h

theorem rtiNext_resign (big : Bool) (s : List Byte) : rtiNext big (MSG_TYPE_RESIGN :: s) = .inr .resigned := by
  have : IsMessage rtiReads big [MSG_TYPE_RESIGN] := .inr ⟨_, [], by decide, by decide, rfl⟩
  have h := next_message this s
  unfold rtiNext
  rw [show MSG_TYPE_RESIGN :: s = [MSG_TYPE_RESIGN] ++ s from rfl, h]
  rfl

theorem rtiNext_failed (big : Bool) (s : List Byte) : rtiNext big (MSG_TYPE_FAILED :: s) = .inr .failed := by
  have : IsMessage rtiReads big [MSG_TYPE_FAILED] := .inr ⟨_, [], by decide, by decide, rfl⟩
  have h := next_message this s
  unfold rtiNext
  rw [show MSG_TYPE_FAILED :: s = [MSG_TYPE_FAILED] ++ s from rfl, h]
  rfl

theorem rtiNext_part {big : Bool} {m part x : List Byte} (h : IsMessage rtiReads big m) (e : m = part ++ x)
    (hp : part ≠ []) (hx : x ≠ []) : rtiNext big part = .inr .fatal := by
  unfold rtiNext
  rw [next_part h e hp hx]

/-- The loop handles complete messages one after the other. -/
theorem rtiListen_messages {big : Bool} {ms : List (List Byte)} (hm : ∀ m ∈ ms, IsMessage rtiReads big m ∧ ¬ Leaves m)
    {s : List Byte} {e : End} (he : rtiNext big s = .inr e) : ∀ fuel, ms.flatten.length + s.length < fuel →
    rtiListen big fuel (ms.flatten ++ s) = (ms, e) := by
  induction ms with
  | nil =>
    intro fuel hf
    cases fuel with
    | zero => omega
    | succ f => unfold rtiListen; simp [he]
  | cons m ms ih =>
    intro fuel hf
    cases fuel with
    | zero => omega
    | succ f =>
      obtain ⟨h1, h2⟩ := hm m List.mem_cons_self
      have hne := List.length_pos_iff.2 h1.ne_nil
      simp only [List.flatten_cons, List.length_append] at hf
      have := ih (fun x hx => hm x (List.mem_cons_of_mem _ hx)) f (by omega)
      unfold rtiListen
      rw [List.flatten_cons, List.append_assoc, rtiNext_message h1 h2]
      dsimp only
      rw [this]

/-! ## The thread of a federate -/

/-- Specification: a message from the RTI that does not end the federate. -/
def Accepted (m : List Byte) : Prop := ∃ ty, m.head? = some ty ∧ ty ≠ MSG_TYPE_FAILED ∧ fedKnows ty = true

theorem fedNext_message {big : Bool} {m : List Byte} (h : IsMessage fedReads big m) (hl : Accepted m) (s : List Byte) :
    fedNext big (m ++ s) = .inl (m, s) := by
  obtain ⟨ty, h1, h2, h3⟩ := hl
  unfold fedNext
  rw [next_message h]
  dsimp only
  rw [if_neg (by rw [h1]; simpa using h2), if_pos (by rw [h1]; simp [h3])]

theorem fedNext_part {big : Bool} {m part x : List Byte} (h : IsMessage fedReads big m) (e : m = part ++ x)
    (hp : part ≠ []) (hx : x ≠ []) : fedNext big part = .inr .exits := by
  unfold fedNext
  rw [next_part h e hp hx]

theorem fedNext_failed (big : Bool) (s : List Byte) : fedNext big (MSG_TYPE_FAILED :: s) = .inr .exits := by
  have : IsMessage fedReads big [MSG_TYPE_FAILED] := .inr ⟨_, [], by decide, by decide, rfl⟩
  have h := next_message this s
  unfold fedNext
  rw [show MSG_TYPE_FAILED :: s = [MSG_TYPE_FAILED] ++ s from rfl, h]
  rfl

theorem fedListen_messages {big : Bool} {ms : List (List Byte)} (hm : ∀ m ∈ ms, IsMessage fedReads big m ∧ Accepted m)
    {s : List Byte} {e : FedEnd} (he : fedNext big s = .inr e) : ∀ fuel, ms.flatten.length + s.length < fuel →
    fedListen big fuel (ms.flatten ++ s) = (ms, e) := by
  induction ms with
  | nil =>
    intro fuel hf
    cases fuel with
    | zero => omega
    | succ f => unfold fedListen; simp [he]
  | cons m ms ih =>
    intro fuel hf
    cases fuel with
    | zero => omega
    | succ f =>
      obtain ⟨h1, h2⟩ := hm m List.mem_cons_self
      have hne := List.length_pos_iff.2 h1.ne_nil
      simp only [List.flatten_cons, List.length_append] at hf
      have := ih (fun x hx => hm x (List.mem_cons_of_mem _ hx)) f (by omega)
      unfold fedListen
      rw [List.flatten_cons, List.append_assoc, fedNext_message h1 h2]
      dsimp only
      rw [this]

/-- Every point at which a sequence of messages can be cut is between two of them or within one. -/
theorem cut (ms : List (List Byte)) : ∀ k, k ≤ ms.flatten.length → ∃ before part, ms.flatten.take k = before.flatten ++ part ∧
    ((part = [] ∧ ∃ after, ms = before ++ after) ∨
     (part ≠ [] ∧ ∃ m after x, ms = before ++ m :: after ∧ x ≠ [] ∧ m = part ++ x)) := by
  induction ms with
  | nil => intro k _; exact ⟨[], [], by simp, .inl ⟨rfl, [], rfl⟩⟩
  | cons m ms ih =>
    intro k hk
    by_cases h : k < m.length
    · by_cases h0 : k = 0
      · subst h0; exact ⟨[], [], by simp, .inl ⟨rfl, _, rfl⟩⟩
      refine ⟨[], m.take k, by simp [List.take_append_of_le_length (Nat.le_of_lt h)], .inr ⟨?_, m, ms, m.drop k, rfl, ?_, ?_⟩⟩
      · intro e
        have := congrArg List.length e
        rw [List.length_take, List.length_nil] at this; omega
      · intro e
        have := congrArg List.length e
        rw [List.length_drop, List.length_nil] at this; omega
      · exact (List.take_append_drop k m).symm
    · obtain ⟨before, part, h1, h2⟩ := ih (k - m.length) (by simp at hk ⊢; omega)
      refine ⟨m :: before, part, ?_, ?_⟩
      · rw [List.flatten_cons, List.flatten_cons, List.take_append, h1, List.take_of_length_le (by omega), List.append_assoc]
      · rcases h2 with ⟨k1, after, rfl⟩ | ⟨k1, m', after, x, rfl, k2, k3⟩
        · exact .inl ⟨k1, after, rfl⟩
        · exact .inr ⟨k1, m', after, x, rfl, k2, k3⟩

end ReactorC.Leave
