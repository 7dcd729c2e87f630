import Verif.Auth.Inv
import Verif.Join.Props

/-!
# C74: who is accepted by an RTI with authentication

`Reach C s`: the network is controlled by somebody who knows what is not `C.secret` and learns what is sent.  The log of a state has
the latest event first; `[a, b] <+ s.log` says that `a` happened after `b`.
-/

set_option linter.unusedVariables false

namespace ReactorC.Auth
open ReactorC.Net ReactorC.Join

variable {C : Config}

/-- The only way to log an accepted connection. -/
theorem accepted_step {s : State} {a : Act} {b n : Bytes} (hp : Pre C s a) (h : Event.accepted b n ∈ (post C s a).log) :
    Event.accepted b n ∈ s.log ∨ (s.rti = .challenged b n ∧ (post C s a).log = .accepted b n :: s.log ∧
      Makes C s (.hmac (key C.rti) (fedBuf n))) := by
  cases a with
  | start i m =>
    rcases List.mem_cons.1 h with h | h
    · cases h
    · exact .inl h
  | response i t n' mac =>
    obtain ⟨⟨m, hm⟩, _⟩ := hp
    replace h : Event.accepted b n ∈ (match s.fed i with | .sent m => response C s i m t n' mac | _ => s).log := h
    rw [hm] at h
    replace h : Event.accepted b n ∈ (response C s i m t n' mac).log := h
    unfold response at h
    split at h
    · exact .inl h
    split at h
    · exact .inl h
    rcases List.mem_cons.1 h with h | h
    · cases h
    · exact .inl h
  | join i v => exact .inl h
  | hello c n' =>
    replace h : Event.accepted b n ∈ (hello C s c n').log := h
    unfold hello at h
    split at h
    · exact .inl h
    rcases List.mem_cons.1 h with h | h
    · cases h
    · exact .inl h
  | reply t mac =>
    obtain ⟨⟨c, n', hr⟩, hk⟩ := hp
    have e : (post C s (.reply t mac)) = reply C s c n' t mac := by
      show (match s.rti with | .challenged b n => reply C s b n t mac | _ => s) = _
      rw [hr]
    rw [e] at h ⊢
    unfold reply at h ⊢
    by_cases h1 : t ≠ MSG_TYPE_FED_RESPONSE
    · rw [if_pos h1] at h; exact .inl h
    rw [if_neg h1] at h ⊢
    by_cases h2 : mac ≠ .hmac (key C.rti) (fedBuf n')
    · rw [if_pos h2] at h; exact .inl h
    rw [if_neg h2] at h ⊢
    rcases List.mem_cons.1 h with h | h
    · cases h
      rw [not_not.1 h2] at hk
      exact .inr ⟨hr, rfl, hk⟩
    · exact .inl h
  | ids id f =>
    replace h : Event.accepted b n ∈ (ids C s id f).log := h
    unfold ids at h
    split at h
    · exact .inl h
    rcases List.mem_cons.1 h with h | h
    · cases h
    · exact .inl h
  | close =>
    replace h : Event.accepted b n ∈
      (match s.rti with | .authenticated _ _ => { s with rti := .accepting } | _ => { s with rti := .exited }).log := h
    split at h <;> exact .inl h

/-- The only way to log a verified RTI. -/
theorem verified_step {s : State} {a : Act} {i : Nat} {m n : Bytes} (hp : Pre C s a) (h : Event.verified i m n ∈ (post C s a).log) :
    Event.verified i m n ∈ s.log ∨ (s.fed i = .sent m ∧ (post C s a).log = .verified i m n :: s.log ∧
      Makes C s (.hmac (key (C.federation i)) (checkBuf (C.id i) m))) := by
  cases a with
  | start j m' =>
    rcases List.mem_cons.1 h with h | h
    · cases h
    · exact .inl h
  | response j t n' mac =>
    obtain ⟨⟨m', hm⟩, _, hk⟩ := hp
    have e : (post C s (.response j t n' mac)) = response C s j m' t n' mac := by
      show (match s.fed j with | .sent m => response C s j m t n' mac | _ => s) = _
      rw [hm]
    rw [e] at h ⊢
    unfold response at h ⊢
    by_cases h1 : t ≠ MSG_TYPE_RTI_RESPONSE
    · rw [if_pos h1] at h; exact .inl h
    rw [if_neg h1] at h ⊢
    by_cases h2 : mac ≠ .hmac (key (C.federation j)) (checkBuf (C.id j) m')
    · rw [if_pos h2] at h; exact .inl h
    rw [if_neg h2] at h ⊢
    rcases List.mem_cons.1 h with h | h
    · cases h
      rw [not_not.1 h2] at hk
      exact .inr ⟨hm, rfl, hk⟩
    · exact .inl h
  | join i v => exact .inl h
  | hello c n' =>
    replace h : Event.verified i m n ∈ (hello C s c n').log := h
    unfold hello at h
    split at h
    · exact .inl h
    rcases List.mem_cons.1 h with h | h
    · cases h
    · exact .inl h
  | reply t mac =>
    obtain ⟨⟨c, n', hr⟩, hk⟩ := hp
    replace h : Event.verified i m n ∈ (match s.rti with | .challenged b n => reply C s b n t mac | _ => s).log := h
    rw [hr] at h
    replace h : Event.verified i m n ∈ (reply C s c n' t mac).log := h
    unfold reply at h
    split at h
    · exact .inl h
    split at h
    · exact .inl h
    rcases List.mem_cons.1 h with h | h
    · cases h
    · exact .inl h
  | ids id f =>
    replace h : Event.verified i m n ∈ (ids C s id f).log := h
    unfold ids at h
    split at h
    · exact .inl h
    rcases List.mem_cons.1 h with h | h
    · cases h
    · exact .inl h
  | close =>
    replace h : Event.verified i m n ∈
      (match s.rti with | .authenticated _ _ => { s with rti := .accepting } | _ => { s with rti := .exited }).log := h
    split at h <;> exact .inl h

/-- The log grows. -/
theorem log_post {s : State} (a : Act) : s.log <:+ (post C s a).log := by
  cases a with
  | start i m => exact List.suffix_cons _ _
  | response i t n mac =>
    show _ <:+ (match s.fed i with | .sent m => response C s i m t n mac | _ => s).log
    split
    · unfold response
      split
      · exact List.suffix_refl _
      split
      · exact List.suffix_refl _
      · exact List.suffix_cons _ _
    · exact List.suffix_refl _
  | join i v => exact List.suffix_refl _
  | hello b n =>
    show _ <:+ (hello C s b n).log
    unfold hello
    split
    · exact List.suffix_refl _
    · exact List.suffix_cons _ _
  | reply t mac =>
    show _ <:+ (match s.rti with | .challenged b n => reply C s b n t mac | _ => s).log
    split
    · unfold reply
      split
      · exact List.suffix_refl _
      split
      · exact List.suffix_refl _
      · exact List.suffix_cons _ _
    · exact List.suffix_refl _
  | ids id f =>
    show _ <:+ (ids C s id f).log
    unfold ids
    split
    · exact List.suffix_refl _
    · exact List.suffix_cons _ _
  | close =>
    show _ <:+ (match s.rti with | .authenticated _ _ => { s with rti := .accepting } | _ => { s with rti := .exited }).log
    split <;> exact List.suffix_refl _

/-- **C74** As long as the federation ID has not been sent where it can be read, a connection is accepted only if a federate of the
federation has answered the random number of the RTI, after this was made. `_partial`: the ID under which it is accepted need not be
that of this federate (`C74_accepted_under_another_id`), and the federate at the other end need not be it
(`C74_stranger_joins_with_empty_federation_id`); and the federation ID is sent in the clear by every federate that joins
(`C74_eavesdropper_is_accepted`). -/
theorem C74_accepted_if_answered_by_a_member_partial {s : State} (h : Reach C s) (hk : ¬ Known C s (key C.rti)) {b n : Bytes}
    (ha : Event.accepted b n ∈ s.log) :
    ∃ i m, key (C.federation i) = key C.rti ∧
      List.Sublist [Event.accepted b n, Event.verified i m n, Event.challenge b n] s.log := by
  induction h with
  | init => cases ha
  | @step s a hs hp ih =>
    have hk' : ¬ Known C s (key C.rti) := fun x => hk (known_post a x)
    rcases accepted_step hp ha with h1 | ⟨h1, h2, h3⟩
    · obtain ⟨i, m, e, h⟩ := ih hk' h1
      exact ⟨i, m, e, h.trans (log_post a).sublist⟩
    · have hI := hs.inv
      rcases h3 with h3 | h3
      · rcases hI.seen _ _ h3 with ⟨_, c, n', _, e⟩ | ⟨i, m, n', hv, e1, e2⟩
        · exact absurd (List.cons.inj e).1 (by decide)
        · have : n' = n := (List.cons.inj e2).2.symm
          subst this
          refine ⟨i, m, e1.symm, ?_⟩
          rw [h2]
          exact (hI.late b i m n' (hI.challenged b n' h1).1 hv).cons₂ _
      · exact absurd h3 hk'

/-- **C74** One answer is good for one connection. -/
theorem C74_each_answer_is_accepted_once {s : State} (h : Reach C s) :
    (s.log.filterMap fun | .accepted _ n => some n | _ => none).Nodup := by
  have e : (fun | .accepted _ n => some n | _ => none : Event → Option Bytes) = Event.accepts := by
    funext x; cases x <;> rfl
  rw [e]; exact h.inv.accs

/-- **C74** No federate ID is used twice, and only IDs of the federation are used, whatever is sent to the RTI. -/
theorem C74_each_id_joins_once {s : State} (h : Reach C s) :
    (s.log.filterMap fun | .joined j => some j | _ => none).Nodup ∧ ∀ j, Event.joined j ∈ s.log → j < C.number := by
  have key : (s.log.filterMap fun | .joined j => some j | _ => none).Nodup ∧ ∀ j, Event.joined j ∈ s.log → j < C.number ∧ s.connected j = true := by
    induction h with
    | init => exact ⟨by simp [init], by simp [init]⟩
    | @step s a hr hp ih =>
      obtain ⟨i1, i2⟩ := ih
      have same : ∀ t : State, (t.log = s.log ∨ ∃ e, t.log = e :: s.log ∧ ∀ j, e ≠ .joined j) → t.connected = s.connected →
          (t.log.filterMap fun | .joined j => some j | _ => none).Nodup ∧ ∀ j, Event.joined j ∈ t.log → j < C.number ∧ t.connected j = true := by
        rintro t (ht | ⟨e, ht, he⟩) hc
        · rw [ht, hc]; exact ⟨i1, i2⟩
        · rw [ht, hc]
          refine ⟨?_, fun j hj => ?_⟩
          · cases e with
            | joined j => exact absurd rfl (he j)
            | _ => exact i1
          · rcases List.mem_cons.1 hj with hj | hj
            · exact absurd hj.symm (he j)
            · exact i2 j hj
      cases a with
      | start i m => exact same _ (.inr ⟨_, rfl, by simp⟩) rfl
      | response i t n mac =>
        show (List.filterMap _ (match s.fed i with | .sent m => response C s i m t n mac | _ => s).log).Nodup ∧
          ∀ j, Event.joined j ∈ (match s.fed i with | .sent m => response C s i m t n mac | _ => s).log → j < C.number ∧
            (match s.fed i with | .sent m => response C s i m t n mac | _ => s).connected j = true
        split
        · unfold response
          split
          · exact same _ (.inl rfl) rfl
          split
          · exact same _ (.inl rfl) rfl
          · exact same _ (.inr ⟨_, rfl, by simp⟩) rfl
        · exact ⟨i1, i2⟩
      | join i v => exact same _ (.inl rfl) rfl
      | hello b n =>
        show (List.filterMap _ (hello C s b n).log).Nodup ∧ ∀ j, Event.joined j ∈ (hello C s b n).log → j < C.number ∧ (hello C s b n).connected j = true
        unfold hello
        split
        · exact same _ (.inl rfl) rfl
        · exact same _ (.inr ⟨_, rfl, by simp⟩) rfl
      | reply t mac =>
        show (List.filterMap _ (match s.rti with | .challenged b n => reply C s b n t mac | _ => s).log).Nodup ∧
          ∀ j, Event.joined j ∈ (match s.rti with | .challenged b n => reply C s b n t mac | _ => s).log → j < C.number ∧
            (match s.rti with | .challenged b n => reply C s b n t mac | _ => s).connected j = true
        split
        · unfold reply
          split
          · exact same _ (.inl rfl) rfl
          split
          · exact same _ (.inl rfl) rfl
          · exact same _ (.inr ⟨_, rfl, by simp⟩) rfl
        · exact ⟨i1, i2⟩
      | ids id f =>
        show (List.filterMap _ (ids C s id f).log).Nodup ∧ ∀ j, Event.joined j ∈ (ids C s id f).log → j < C.number ∧ (ids C s id f).connected j = true
        unfold ids
        have hj := (Join.C30_any_input C.big C.number C.rti s.connected (idMessage id f)).2.2
        cases hf : (receiveAndCheck C.big C.number C.rti s.connected (idMessage id f)).fed with
        | none => exact same _ (.inl rfl) rfl
        | some k =>
          obtain ⟨h1, h2⟩ := hj k hf
          refine ⟨?_, fun j hjl => ?_⟩
          · show (k :: s.log.filterMap _).Nodup
            rw [List.nodup_cons]
            refine ⟨fun hm => ?_, i1⟩
            obtain ⟨e, he, hek⟩ := List.mem_filterMap.1 hm
            cases e with
            | joined j =>
              simp only [Option.some.injEq] at hek
              subst hek
              rw [(i2 _ he).2] at h2; cases h2
            | _ => cases hek
          · rcases List.mem_cons.1 hjl with hjl | hjl
            · cases hjl; exact ⟨h1, by simp⟩
            · refine ⟨(i2 j hjl).1, ?_⟩
              show (if j = k then true else s.connected j) = true
              split
              · rfl
              · exact (i2 j hjl).2
      | close =>
        show (List.filterMap _ (match s.rti with | .authenticated _ _ => { s with rti := .accepting } | _ => { s with rti := .exited }).log).Nodup ∧
          ∀ j, Event.joined j ∈ (match s.rti with | .authenticated _ _ => { s with rti := .accepting } | _ => { s with rti := .exited }).log → j < C.number ∧
            (match s.rti with | .authenticated _ _ => { s with rti := .accepting } | _ => { s with rti := .exited }).connected j = true
        split <;> exact same _ (.inl rfl) rfl
  exact ⟨key.1, fun j hj => (key.2 j hj).1⟩

/-- **C74** As long as its federation ID has not been sent where it can be read, a federate goes on only if the RTI of its federation
has answered its random number with its ID, after this was made. -/
theorem C74_federate_goes_on_if_answered_by_the_rti {s : State} (h : Reach C s) {i : Nat} (hk : ¬ Known C s (key (C.federation i)))
    {m n : Bytes} (ha : Event.verified i m n ∈ s.log) :
    key (C.federation i) = key C.rti ∧
      ∃ n', List.Sublist [Event.verified i m n, Event.challenge (helloBuf (C.id i) m) n', Event.hello i m] s.log := by
  induction h with
  | init => cases ha
  | @step s a hs hp ih =>
    have hk' : ¬ Known C s (key (C.federation i)) := fun x => hk (known_post a x)
    rcases verified_step hp ha with h1 | ⟨h1, h2, h3⟩
    · obtain ⟨e, n', h⟩ := ih hk' h1
      exact ⟨e, n', h.trans (log_post a).sublist⟩
    · have hI := hs.inv
      rcases h3 with h3 | h3
      · rcases hI.seen _ _ h3 with ⟨e1, c, n', hc, e⟩ | ⟨j, m', n', hv, e1, e2⟩
        · obtain ⟨hlen, hhead⟩ := hI.form c n' hc
          have hcb : c = helloBuf (C.id i) m := by
            match c, hlen, hhead with
            | x :: c, hlen, hhead =>
              have e3 : c = encode_uint16 (C.id i) ++ m := (List.cons.inj e).2.symm
              have e4 : x = MSG_TYPE_FED_NONCE := by simpa using hhead
              rw [e3, e4]; rfl
          subst hcb
          refine ⟨e1, n', ?_⟩
          rw [h2]
          exact (hI.late' _ i m n' (hI.sent i m h1).1 hc (checkBuf_drop _ _)).cons₂ _
        · exact absurd (List.cons.inj e2).1 (by decide)
      · exact absurd h3 hk'

/-- **C74** A federate goes on at most once with one random number. -/
theorem C74_each_random_number_is_answered_once {s : State} (h : Reach C s) :
    (s.log.filterMap fun | .verified _ m _ => some m | _ => none).Nodup := by
  have e : (fun | .verified _ m _ => some m | _ => none : Event → Option Bytes) = Event.own := by
    funext x; cases x <;> rfl
  rw [e]; exact h.inv.owns

/-- **C74** A federate of the federation is accepted when its messages and those of the RTI are passed on. -/
theorem C74_members_are_accepted {s : State} (h : Reach C s) {i : Nat} {m n : Bytes} (hr : s.rti = .accepting)
    (hi : s.fed i = .idle ∨ s.fed i = .failed) (hk : key (C.federation i) = key C.rti) (hm : Fresh s m) (hn : Fresh s n) (hmn : m ≠ n) :
    ∃ s', Reach C s' ∧ s'.rti = .authenticated (helloBuf (C.id i) m) n ∧ s'.fed i = .verified ∧
      s'.log = .accepted (helloBuf (C.id i) m) n :: .verified i m n :: .challenge (helloBuf (C.id i) m) n :: .hello i m :: s.log := by
  have h1 := h.step (.start i m) ⟨hi, hm⟩
  have e2 : hello C (post C s (.start i m)) (helloBuf (C.id i) m) n =
      { post C s (.start i m) with
        rti := .challenged (helloBuf (C.id i) m) n
        seen := .hmac (key C.rti) (checkBuf (C.id i) m) :: s.seen
        log := .challenge (helloBuf (C.id i) m) n :: .hello i m :: s.log } := by
    unfold hello; rw [if_neg (by simp [helloBuf])]; rfl
  have h2 := h1.step (.hello (helloBuf (C.id i) m) n) ⟨hr, by
      unfold helloBuf; rw [List.length_cons, List.length_append, encode_uint16_length, hm.1], hn.1, fun e he => by
      rcases List.mem_cons.1 he with he | he
      · subst he; intro hx; exact hmn (List.mem_singleton.1 hx).symm
      · exact hn.2 e he⟩
  replace h2 : Reach C (hello C (post C s (.start i m)) (helloBuf (C.id i) m) n) := h2
  rw [e2] at h2
  have hs : ((post C s (.start i m)).fed i) = .sent m := if_pos rfl
  have h3 := h2.step (.response i MSG_TYPE_RTI_RESPONSE n (.hmac (key C.rti) (checkBuf (C.id i) m)))
    ⟨⟨m, hs⟩, hn.1, .inl List.mem_cons_self⟩
  rw [show post C _ (.response i MSG_TYPE_RTI_RESPONSE n (.hmac (key C.rti) (checkBuf (C.id i) m))) = response C _ i m _ _ _ by
    show (match (post C s (.start i m)).fed i with | .sent m => _ | _ => _) = _
    rw [hs]] at h3
  unfold response at h3
  rw [if_neg (by simp), if_neg (by rw [hk]; simp)] at h3
  have h4 := h3.step (.reply MSG_TYPE_FED_RESPONSE (.hmac (key C.rti) (fedBuf n))) ⟨⟨_, _, rfl⟩, .inl (by rw [hk]; exact List.mem_cons_self)⟩
  rw [show post C _ (.reply MSG_TYPE_FED_RESPONSE (.hmac (key C.rti) (fedBuf n))) = reply C _ (helloBuf (C.id i) m) n _ _ from rfl] at h4
  unfold reply at h4
  rw [if_neg (by simp), if_neg (by simp)] at h4
  exact ⟨_, h4, rfl, if_pos rfl, rfl⟩

/-- **C74** fails: whoever connects to the RTI ends it by sending another first byte, or by closing the connection. -/
theorem C74_anybody_can_end_the_rti {s : State} (h : Reach C s) (hr : s.rti = .accepting) :
    (∃ s', Reach C s' ∧ s'.rti = .exited ∧ s'.log = s.log) ∧
    ∀ b n, b.length = 11 → b.head? ≠ some MSG_TYPE_FED_NONCE → Fresh s n → Pre C s (.hello b n) ∧ (post C s (.hello b n)).rti = .exited := by
  refine ⟨⟨_, h.step .close (by show s.rti ≠ .exited; rw [hr]; simp), ?_, ?_⟩, fun b n hb hh hf => ⟨⟨hr, hb, hf⟩, ?_⟩⟩
  · show (match s.rti with | .authenticated _ _ => { s with rti := .accepting } | _ => { s with rti := .exited }).rti = _
    rw [hr]
  · show (match s.rti with | .authenticated _ _ => { s with rti := .accepting } | _ => { s with rti := .exited }).log = _
    rw [hr]
  · show (hello C s b n).rti = _
    unfold hello; rw [if_pos hh]

/-! ## Runs -/

/-- Executable tests for `Pre`. -/
def fresh (s : State) (n : Bytes) : Bool := decide (n.length = 8) && s.log.all fun e => decide (n ∉ e.nonces)

/-- A federation "ab" with the federates 3 and 5, in which "ab" is secret. -/
def demo : Config :=
  { id := fun i => if i = 0 then 3 else 5
    federation := fun _ => [97, 98]
    rti := [97, 98]
    number := 8
    big := false
    secret := fun b => b = [97, 98] }

def known (s : State) (b : Bytes) : Bool := decide (b ≠ [97, 98]) || decide (b ∈ s.leaked)

def makes (s : State) (m : Mac) : Bool :=
  decide (m ∈ s.seen) || match m with
    | .hmac k _ => known s k
    | .other _ => true

def pre (s : State) : Act → Bool
  | .start i m => (decide (s.fed i = .idle) || decide (s.fed i = .failed)) && fresh s m
  | .response i _ n mac => (match s.fed i with | .sent _ => true | _ => false) && decide (n.length = 8) && makes s mac
  | .join i _ => decide (s.fed i = .verified)
  | .hello b n => decide (s.rti = .accepting) && decide (b.length = 11) && fresh s n
  | .reply _ mac => (match s.rti with | .challenged _ _ => true | _ => false) && makes s mac
  | .ids id f => (match s.rti with | .authenticated _ _ => true | _ => false) &&
      (known s f || (decide (s.fed 0 = .joining) && decide (id = 3) && decide (f = [97, 98])))
  | .close => decide (s.rti ≠ .exited)

theorem known_iff {s : State} {b : Bytes} (h : known s b = true) : Known demo s b := by
  unfold known at h
  rcases Bool.or_eq_true_iff.1 h with h | h
  · exact .inl (show b ≠ [97, 98] from of_decide_eq_true h)
  · exact .inr (of_decide_eq_true h)

theorem makes_iff {s : State} {m : Mac} (h : makes s m = true) : Makes demo s m := by
  unfold makes at h
  rcases Bool.or_eq_true_iff.1 h with h | h
  · exact .inl (of_decide_eq_true h)
  · cases m with
    | hmac k b => exact .inr (known_iff h)
    | other n => exact .inr trivial

theorem fresh_iff {s : State} {n : Bytes} (h : fresh s n = true) : Fresh s n := by
  unfold fresh at h
  obtain ⟨h1, h2⟩ := Bool.and_eq_true_iff.1 h
  exact ⟨of_decide_eq_true h1, fun e he => of_decide_eq_true (List.all_eq_true.1 h2 e he)⟩

theorem pre_iff {s : State} {a : Act} (h : pre s a = true) : Pre demo s a := by
  cases a with
  | start i m =>
    obtain ⟨h1, h2⟩ := Bool.and_eq_true_iff.1 h
    refine ⟨?_, fresh_iff h2⟩
    rcases Bool.or_eq_true_iff.1 h1 with h | h
    · exact .inl (of_decide_eq_true h)
    · exact .inr (of_decide_eq_true h)
  | response i t n mac =>
    obtain ⟨h1, h2⟩ := Bool.and_eq_true_iff.1 h
    obtain ⟨h1, h3⟩ := Bool.and_eq_true_iff.1 h1
    refine ⟨?_, of_decide_eq_true h3, makes_iff h2⟩
    revert h1
    cases s.fed i with
    | sent m => exact fun _ => ⟨m, rfl⟩
    | _ => intro x; cases x
  | join i v => exact (show s.fed i = .verified from of_decide_eq_true h)
  | hello b n =>
    obtain ⟨h1, h2⟩ := Bool.and_eq_true_iff.1 h
    obtain ⟨h1, h3⟩ := Bool.and_eq_true_iff.1 h1
    exact ⟨of_decide_eq_true h1, of_decide_eq_true h3, fresh_iff h2⟩
  | reply t mac =>
    obtain ⟨h1, h2⟩ := Bool.and_eq_true_iff.1 h
    refine ⟨?_, makes_iff h2⟩
    revert h1
    cases s.rti with
    | challenged b n => exact fun _ => ⟨b, n, rfl⟩
    | _ => intro x; cases x
  | ids id f =>
    obtain ⟨h1, h2⟩ := Bool.and_eq_true_iff.1 h
    refine ⟨?_, ?_⟩
    · revert h1
      cases s.rti with
      | authenticated b n => exact fun _ => ⟨b, n, rfl⟩
      | _ => intro x; cases x
    · rcases Bool.or_eq_true_iff.1 h2 with h | h
      · exact .inl (known_iff h)
      · obtain ⟨h3, h4⟩ := Bool.and_eq_true_iff.1 h
        obtain ⟨h3, h5⟩ := Bool.and_eq_true_iff.1 h3
        exact .inr ⟨0, of_decide_eq_true h3, (of_decide_eq_true h5).symm, (of_decide_eq_true h4).symm⟩
  | close => exact (show s.rti ≠ .exited from of_decide_eq_true h)

def run : State → List Act → Option State
  | s, [] => some s
  | s, a :: l => if pre s a then run (post demo s a) l else none

theorem run_reach {l : List Act} : ∀ {s s' : State}, Reach demo s → run s l = some s' → Reach demo s' := by
  induction l with
  | nil => intro s s' h e; cases e; exact h
  | cons a l ih =>
    intro s s' h e
    unfold run at e
    split at e
    · exact ih (h.step a (pre_iff (by assumption))) e
    · cases e

/-- What holds at the end of a run is reachable. -/
theorem run_any {l : List Act} {p : State → Bool} (h : (run init l).any p = true) : ∃ s, Reach demo s ∧ p s = true := by
  cases e : run init l with
  | none => rw [e] at h; cases h
  | some s => rw [e] at h; exact ⟨s, run_reach .init e, h⟩

/-- Random numbers. -/
def num (k : Byte) : Bytes := [k, 0, 0, 0, 0, 0, 0, 0]

/-- Federate 3 is accepted and joins, where its federation ID can be read or not. -/
def good (visible : Bool) : List Act :=
  [.start 0 (num 1), .hello (helloBuf 3 (num 1)) (num 2),
   .response 0 MSG_TYPE_RTI_RESPONSE (num 2) (.hmac [97, 98] (checkBuf 3 (num 1))),
   .reply MSG_TYPE_FED_RESPONSE (.hmac [97, 98] (fedBuf (num 2))), .join 0 visible, .ids 3 [97, 98]]

/-- The premises of the theorems hold when federate 3 has joined. -/
example : ∃ s, Reach demo s ∧ ¬ Known demo s (key demo.rti) ∧ Event.accepted (helloBuf 3 (num 1)) (num 2) ∈ s.log ∧
    Event.verified 0 (num 1) (num 2) ∈ s.log ∧ Event.joined 3 ∈ s.log := by
  obtain ⟨s, h, e⟩ := run_any (l := good false) (p := fun s => decide (s.leaked = [] ∧
    Event.accepted (helloBuf 3 (num 1)) (num 2) ∈ s.log ∧ Event.verified 0 (num 1) (num 2) ∈ s.log ∧ Event.joined 3 ∈ s.log)) (by decide +kernel)
  obtain ⟨h1, h2⟩ := of_decide_eq_true e
  refine ⟨s, h, ?_, h2⟩
  rintro (hx | hx)
  · exact hx rfl
  · rw [h1] at hx; cases hx

/-- **C74** fails: whoever has read the messages of a federate that joins knows the federation ID, which is sent in the clear after the
authentication, and is accepted and joins under another ID without any federate. -/
theorem C74_eavesdropper_is_accepted : ∃ s, Reach demo s ∧ Event.accepted (helloBuf 5 (num 3)) (num 4) ∈ s.log ∧ Event.joined 5 ∈ s.log ∧
    ∀ i m, Event.verified i m (num 4) ∉ s.log := by
  obtain ⟨s, h, e⟩ := run_any (l := good true ++ [.hello (helloBuf 5 (num 3)) (num 4),
      .reply MSG_TYPE_FED_RESPONSE (.hmac [97, 98] (fedBuf (num 4))), .ids 5 [97, 98]])
    (p := fun s => decide (Event.accepted (helloBuf 5 (num 3)) (num 4) ∈ s.log ∧ Event.joined 5 ∈ s.log) &&
      s.log.all fun e => match e with | .verified _ _ n => decide (n ≠ num 4) | _ => true) (by decide +kernel)
  obtain ⟨h1, h2⟩ := Bool.and_eq_true_iff.1 e
  obtain ⟨h1, h3⟩ := of_decide_eq_true h1
  exact ⟨s, h, h1, h3, fun i m hm => of_decide_eq_true (List.all_eq_true.1 h2 _ hm) rfl⟩

/-- **C74** fails: the federate that answers is not the one whose ID was sent to the RTI on this connection, although the federation ID is
not known.  The code of the RTI does not cover its random number, and that of the federate does not cover its ID. -/
theorem C74_accepted_under_another_id : ∃ s, Reach demo s ∧ ¬ Known demo s (key demo.rti) ∧
    Event.accepted (helloBuf 5 (num 3)) (num 4) ∈ s.log ∧ ∀ i m, Event.verified i m (num 4) ∈ s.log → i = 0 ∧ demo.id i = 3 := by
  obtain ⟨s, h, e⟩ := run_any (l := [.start 0 (num 1), .hello (helloBuf 3 (num 1)) (num 2), .reply MSG_TYPE_FED_RESPONSE (.other 0),
      .hello (helloBuf 5 (num 3)) (num 4), .response 0 MSG_TYPE_RTI_RESPONSE (num 4) (.hmac [97, 98] (checkBuf 3 (num 1))),
      .reply MSG_TYPE_FED_RESPONSE (.hmac [97, 98] (fedBuf (num 4)))])
    (p := fun s => decide (s.leaked = [] ∧ Event.accepted (helloBuf 5 (num 3)) (num 4) ∈ s.log) &&
      s.log.all fun e => match e with | .verified i _ _ => decide (i = 0) | _ => true) (by decide +kernel)
  obtain ⟨h1, h2⟩ := Bool.and_eq_true_iff.1 e
  obtain ⟨h1, h3⟩ := of_decide_eq_true h1
  refine ⟨s, h, ?_, h3, fun i m hm => ?_⟩
  · rintro (hx | hx)
    · exact hx rfl
    · rw [h1] at hx; cases hx
  · have : i = 0 := of_decide_eq_true (List.all_eq_true.1 h2 _ hm)
    subst this
    exact ⟨rfl, rfl⟩

/-- **C74** fails: who does not know the federation ID relays the authentication of federate 3 and then joins as any federate, with the
empty federation ID, which the RTI takes for a prefix of its own (C30). -/
theorem C74_stranger_joins_with_empty_federation_id : ∃ s, Reach demo s ∧ ¬ Known demo s (key demo.rti) ∧ Event.joined 5 ∈ s.log ∧
    s.fed 1 = .idle := by
  obtain ⟨s, h, e⟩ := run_any (l := (good false).take 4 ++ [.ids 5 []])
    (p := fun s => decide (s.leaked = [] ∧ Event.joined 5 ∈ s.log ∧ s.fed 1 = .idle)) (by decide +kernel)
  obtain ⟨h1, h2⟩ := of_decide_eq_true e
  refine ⟨s, h, ?_, h2⟩
  rintro (hx | hx)
  · exact hx rfl
  · rw [h1] at hx; cases hx

end ReactorC.Auth
