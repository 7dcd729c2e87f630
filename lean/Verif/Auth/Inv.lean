import Verif.Auth.Model

/-!
# What is invariant in the authentication
-/

set_option linter.unusedVariables false
set_option linter.unusedSectionVars false

namespace ReactorC.Auth
open ReactorC.Net ReactorC.Join

/-- The number of a federate that found the code right, and the number of an accepted connection. -/
def Event.own : Event → Option Bytes
  | .verified _ m _ => some m
  | _ => none

def Event.accepts : Event → Option Bytes
  | .accepted _ n => some n
  | _ => none

variable {C : Config}

theorem encode_uint16_length (x : BitVec 16) : (encode_uint16 x).length = 2 := rfl

theorem checkBuf_drop (x : BitVec 16) (m : Bytes) : (helloBuf x m).drop 3 = m := by
  unfold helloBuf
  show (encode_uint16 x ++ m).drop 2 = m
  rw [List.drop_append_of_le_length (Nat.le_refl 2)]
  rw [List.drop_of_length_le (Nat.le_refl 2)]
  rfl

/-- The invariant of the log and of what is known. -/
structure Inv (C : Config) (s : State) : Prop where
  /-- codes come from the RTI and from federates -/
  seen : ∀ k buf, Mac.hmac k buf ∈ s.seen →
    (k = key C.rti ∧ ∃ b n, Event.challenge b n ∈ s.log ∧ buf = rtiBuf b) ∨
    ∃ i m n, Event.verified i m n ∈ s.log ∧ k = key (C.federation i) ∧ buf = fedBuf n
  challenged : ∀ b n, s.rti = .challenged b n → Event.challenge b n ∈ s.log ∧ n ∉ s.log.filterMap Event.accepts
  sent : ∀ i m, s.fed i = .sent m → Event.hello i m ∈ s.log ∧ m ∉ s.log.filterMap Event.own
  form : ∀ b n, Event.challenge b n ∈ s.log → b.length = 11 ∧ b.head? = some MSG_TYPE_FED_NONCE
  /-- who answers a random number does so after it was made -/
  late : ∀ b i m n, Event.challenge b n ∈ s.log → Event.verified i m n ∈ s.log →
    List.Sublist [Event.verified i m n, Event.challenge b n] s.log
  late' : ∀ b i m n, Event.hello i m ∈ s.log → Event.challenge b n ∈ s.log → b.drop 3 = m →
    List.Sublist [Event.challenge b n, Event.hello i m] s.log
  /-- numbers that are used belong to somebody -/
  own : ∀ m ∈ s.log.filterMap Event.own, ∃ i, Event.hello i m ∈ s.log
  acc : ∀ n ∈ s.log.filterMap Event.accepts, ∃ b, Event.challenge b n ∈ s.log
  single : ∀ i j m, Event.hello i m ∈ s.log → Event.hello j m ∈ s.log → i = j
  owns : (s.log.filterMap Event.own).Nodup
  accs : (s.log.filterMap Event.accepts).Nodup

theorem Inv.init : Inv C init := by
  constructor <;> simp [Auth.init]

/-- What is known stays known. -/
theorem known_post {s : State} {b : Bytes} (a : Act) (h : Known C s b) : Known C (post C s a) b := by
  rcases h with h | h
  · exact .inl h
  · right
    cases a with
    | start i m => exact h
    | response i t n mac =>
      show b ∈ (match s.fed i with | .sent m => response C s i m t n mac | _ => s).leaked
      split
      · unfold response; split
        · exact h
        · split <;> exact h
      · exact h
    | join i v =>
      show b ∈ (if v then _ else _)
      split
      · exact List.mem_cons_of_mem _ h
      · exact h
    | hello c n =>
      show b ∈ (hello C s c n).leaked
      unfold hello; split <;> exact h
    | reply t mac =>
      show b ∈ (match s.rti with | .challenged b n => reply C s b n t mac | _ => s).leaked
      split
      · unfold reply; split
        · exact h
        · split <;> exact h
      · exact h
    | ids id f =>
      show b ∈ (ids C s id f).leaked
      unfold ids; split <;> exact h
    | close =>
      show b ∈ (match s.rti with | .authenticated _ _ => { s with rti := .accepting } | _ => { s with rti := .exited }).leaked
      split <;> exact h

/-- Nothing is logged. -/
theorem Inv.quiet {s s' : State} (h : Inv C s) (hl : s'.log = s.log) (hs : s'.seen = s.seen)
    (hr : ∀ b n, s'.rti = .challenged b n → s.rti = .challenged b n)
    (hf : ∀ i m, s'.fed i = .sent m → s.fed i = .sent m) : Inv C s' := by
  refine ⟨?_, ?_, ?_, ?_, ?_, ?_, ?_, ?_, ?_, ?_, ?_⟩ <;> try rw [hl]
  · rw [hs]; exact h.seen
  · exact fun b n e => h.challenged b n (hr b n e)
  · exact fun i m e => h.sent i m (hf i m e)
  · exact h.form
  · exact h.late
  · exact h.late'
  · exact h.own
  · exact h.acc
  · exact h.single
  · exact h.owns
  · exact h.accs

theorem fed_if {f : Nat → FedPc} {i j : Nat} {c : FedPc} {m : Bytes} (hc : c ≠ .sent m)
    (e : (if j = i then c else f j) = .sent m) : f j = .sent m := by
  by_cases h : j = i
  · rw [if_pos h] at e; exact absurd e hc
  · rwa [if_neg h] at e

theorem Inv.step {s : State} (h : Inv C s) (a : Act) (hp : Pre C s a) : Inv C (post C s a) := by
  cases a with
  | start i m =>
    obtain ⟨hi, hlen, hfr⟩ := hp
    have hnew : ∀ j, Event.hello j m ∉ s.log := fun j hj => hfr _ hj (by simp [Event.nonces])
    refine ⟨?_, ?_, ?_, ?_, ?_, ?_, ?_, ?_, ?_, ?_, ?_⟩
    · intro k buf hk
      rcases h.seen k buf hk with ⟨h1, b, n, h2, h3⟩ | ⟨j, m', n, h2, h3⟩
      · exact .inl ⟨h1, b, n, List.mem_cons_of_mem _ h2, h3⟩
      · exact .inr ⟨j, m', n, List.mem_cons_of_mem _ h2, h3⟩
    · intro b n e
      exact ⟨List.mem_cons_of_mem _ (h.challenged b n e).1, (h.challenged b n e).2⟩
    · intro j m' e
      replace e : (if j = i then FedPc.sent m else s.fed j) = .sent m' := e
      by_cases hj : j = i
      · rw [if_pos hj] at e; cases e; subst hj
        refine ⟨List.mem_cons_self, fun hm => ?_⟩
        obtain ⟨x, hx⟩ := h.own m hm
        exact hnew _ hx
      · rw [if_neg hj] at e
        exact ⟨List.mem_cons_of_mem _ (h.sent j m' e).1, (h.sent j m' e).2⟩
    · intro b n hb
      rcases List.mem_cons.1 hb with hb | hb
      · cases hb
      · exact h.form b n hb
    · intro b j m' n hb hv
      rcases List.mem_cons.1 hb with hb | hb
      · cases hb
      rcases List.mem_cons.1 hv with hv | hv
      · cases hv
      exact (h.late b j m' n hb hv).cons _
    · intro b j m' n hh hb hd
      rcases List.mem_cons.1 hb with hb | hb
      · cases hb
      rcases List.mem_cons.1 hh with hh | hh
      · cases hh
        exact absurd (by rw [← hd]; simp [Event.nonces]) (hfr _ hb)
      exact (h.late' b j m' n hh hb hd).cons _
    · intro m' hm
      obtain ⟨x, hx⟩ := h.own m' hm
      exact ⟨x, List.mem_cons_of_mem _ hx⟩
    · intro n hn
      obtain ⟨x, hx⟩ := h.acc n hn
      exact ⟨x, List.mem_cons_of_mem _ hx⟩
    · intro j j' m' h1 h2
      rcases List.mem_cons.1 h1 with h1 | h1 <;> rcases List.mem_cons.1 h2 with h2 | h2
      · cases h1; cases h2; rfl
      · cases h1; exact absurd h2 (hnew _)
      · cases h2; exact absurd h1 (hnew _)
      · exact h.single j j' m' h1 h2
    · exact h.owns
    · exact h.accs
  | response i t n mac =>
    obtain ⟨⟨m, hm⟩, hlen, hk⟩ := hp
    show Inv C (match s.fed i with | .sent m => response C s i m t n mac | _ => s)
    rw [hm]
    show Inv C (response C s i m t n mac)
    unfold response
    split
    · exact h.quiet rfl rfl (fun _ _ e => e) fun j m' e => fed_if (by simp) e
    split
    · exact h.quiet rfl rfl (fun _ _ e => e) fun j m' e => fed_if (by simp) e
    obtain ⟨hh, hnv⟩ := h.sent i m hm
    refine ⟨?_, ?_, ?_, ?_, ?_, ?_, ?_, ?_, ?_, ?_, ?_⟩
    · intro k buf hk
      rcases List.mem_cons.1 hk with hk | hk
      · cases hk; exact .inr ⟨i, m, n, List.mem_cons_self, rfl, rfl⟩
      rcases h.seen k buf hk with ⟨h1, b, n, h2, h3⟩ | ⟨j, m', n, h2, h3⟩
      · exact .inl ⟨h1, b, n, List.mem_cons_of_mem _ h2, h3⟩
      · exact .inr ⟨j, m', n, List.mem_cons_of_mem _ h2, h3⟩
    · intro b n' e
      exact ⟨List.mem_cons_of_mem _ (h.challenged b n' e).1, (h.challenged b n' e).2⟩
    · intro j m' e
      have e' := fed_if (by simp) e
      obtain ⟨h1, h2⟩ := h.sent j m' e'
      refine ⟨List.mem_cons_of_mem _ h1, ?_⟩
      show m' ∉ m :: s.log.filterMap Event.own
      rw [List.mem_cons]
      rintro (rfl | hx)
      · have := h.single j i _ h1 hh
        replace e : (if j = i then FedPc.verified else s.fed j) = .sent m' := e
        rw [if_pos this] at e; cases e
      · exact h2 hx
    · intro b n' hb
      rcases List.mem_cons.1 hb with hb | hb
      · cases hb
      · exact h.form b n' hb
    · intro b j m' n' hb hv
      rcases List.mem_cons.1 hb with hb | hb
      · cases hb
      rcases List.mem_cons.1 hv with hv | hv
      · rw [← hv]
        exact List.Sublist.cons₂ _ (List.singleton_sublist.2 hb)
      exact (h.late b j m' n' hb hv).cons _
    · intro b j m' n' hh hb hd
      rcases List.mem_cons.1 hb with hb | hb
      · cases hb
      rcases List.mem_cons.1 hh with hh | hh
      · cases hh
      exact (h.late' b j m' n' hh hb hd).cons _
    · intro m' hm'
      rcases List.mem_cons.1 (show m' ∈ m :: s.log.filterMap Event.own from hm') with rfl | hx
      · exact ⟨i, List.mem_cons_of_mem _ hh⟩
      · obtain ⟨x, hx⟩ := h.own m' hx
        exact ⟨x, List.mem_cons_of_mem _ hx⟩
    · intro n' hn
      obtain ⟨x, hx⟩ := h.acc n' hn
      exact ⟨x, List.mem_cons_of_mem _ hx⟩
    · intro j j' m' h1 h2
      rcases List.mem_cons.1 h1 with h1 | h1
      · cases h1
      rcases List.mem_cons.1 h2 with h2 | h2
      · cases h2
      exact h.single j j' m' h1 h2
    · exact List.nodup_cons.2 ⟨hnv, h.owns⟩
    · exact h.accs
  | join i v => exact h.quiet rfl rfl (fun _ _ e => e) fun j m' e => fed_if (by simp) e
  | hello b n =>
    obtain ⟨hr, hb11, hlen, hfr⟩ := hp
    show Inv C (hello C s b n)
    unfold hello
    split
    · exact h.quiet rfl rfl (fun _ _ e => by cases e) fun _ _ e => e
    rename_i hhead
    have hhead' : b.head? = some MSG_TYPE_FED_NONCE := by simpa using hhead
    have hnew : ∀ c, Event.challenge c n ∉ s.log := fun c hc => hfr _ hc (by simp [Event.nonces])
    refine ⟨?_, ?_, ?_, ?_, ?_, ?_, ?_, ?_, ?_, ?_, ?_⟩
    · intro k buf hk
      rcases List.mem_cons.1 hk with hk | hk
      · cases hk; exact .inl ⟨rfl, b, n, List.mem_cons_self, rfl⟩
      rcases h.seen k buf hk with ⟨h1, b, n, h2, h3⟩ | ⟨j, m', n, h2, h3⟩
      · exact .inl ⟨h1, b, n, List.mem_cons_of_mem _ h2, h3⟩
      · exact .inr ⟨j, m', n, List.mem_cons_of_mem _ h2, h3⟩
    · intro c n' e
      cases e
      refine ⟨List.mem_cons_self, fun hx => ?_⟩
      obtain ⟨x, hx⟩ := h.acc n hx
      exact hnew _ hx
    · intro j m' e
      exact ⟨List.mem_cons_of_mem _ (h.sent j m' e).1, (h.sent j m' e).2⟩
    · intro c n' hc
      rcases List.mem_cons.1 hc with hc | hc
      · cases hc; exact ⟨hb11, hhead'⟩
      · exact h.form c n' hc
    · intro c j m' n' hc hv
      rcases List.mem_cons.1 hv with hv | hv
      · cases hv
      rcases List.mem_cons.1 hc with hc | hc
      · cases hc
        exact absurd (by simp [Event.nonces]) (hfr _ hv)
      exact (h.late c j m' n' hc hv).cons _
    · intro c j m' n' hh hc hd
      rcases List.mem_cons.1 hh with hh | hh
      · cases hh
      rcases List.mem_cons.1 hc with hc | hc
      · rw [← hc]
        exact List.Sublist.cons₂ _ (List.singleton_sublist.2 hh)
      exact (h.late' c j m' n' hh hc hd).cons _
    · intro m' hm
      obtain ⟨x, hx⟩ := h.own m' hm
      exact ⟨x, List.mem_cons_of_mem _ hx⟩
    · intro n' hn
      obtain ⟨x, hx⟩ := h.acc n' hn
      exact ⟨x, List.mem_cons_of_mem _ hx⟩
    · intro j j' m' h1 h2
      rcases List.mem_cons.1 h1 with h1 | h1
      · cases h1
      rcases List.mem_cons.1 h2 with h2 | h2
      · cases h2
      exact h.single j j' m' h1 h2
    · exact h.owns
    · exact h.accs
  | reply t mac =>
    obtain ⟨⟨b, n, hr⟩, hk⟩ := hp
    show Inv C (match s.rti with | .challenged b n => reply C s b n t mac | _ => s)
    rw [hr]
    show Inv C (reply C s b n t mac)
    unfold reply
    split
    · exact h.quiet rfl rfl (fun _ _ e => by cases e) fun _ _ e => e
    split
    · exact h.quiet rfl rfl (fun _ _ e => by cases e) fun _ _ e => e
    obtain ⟨hc, hna⟩ := h.challenged b n hr
    refine ⟨?_, ?_, ?_, ?_, ?_, ?_, ?_, ?_, ?_, ?_, ?_⟩
    · intro k buf hk
      rcases h.seen k buf hk with ⟨h1, b, n, h2, h3⟩ | ⟨j, m', n, h2, h3⟩
      · exact .inl ⟨h1, b, n, List.mem_cons_of_mem _ h2, h3⟩
      · exact .inr ⟨j, m', n, List.mem_cons_of_mem _ h2, h3⟩
    · intro c n' e; cases e
    · intro j m' e
      exact ⟨List.mem_cons_of_mem _ (h.sent j m' e).1, (h.sent j m' e).2⟩
    · intro c n' hc
      rcases List.mem_cons.1 hc with hc | hc
      · cases hc
      · exact h.form c n' hc
    · intro c j m' n' hc hv
      rcases List.mem_cons.1 hv with hv | hv
      · cases hv
      rcases List.mem_cons.1 hc with hc | hc
      · cases hc
      exact (h.late c j m' n' hc hv).cons _
    · intro c j m' n' hh hc hd
      rcases List.mem_cons.1 hh with hh | hh
      · cases hh
      rcases List.mem_cons.1 hc with hc | hc
      · cases hc
      exact (h.late' c j m' n' hh hc hd).cons _
    · intro m' hm
      obtain ⟨x, hx⟩ := h.own m' hm
      exact ⟨x, List.mem_cons_of_mem _ hx⟩
    · intro n' hn
      rcases List.mem_cons.1 (show n' ∈ n :: s.log.filterMap Event.accepts from hn) with rfl | hn
      · exact ⟨b, List.mem_cons_of_mem _ hc⟩
      · obtain ⟨x, hx⟩ := h.acc n' hn
        exact ⟨x, List.mem_cons_of_mem _ hx⟩
    · intro j j' m' h1 h2
      rcases List.mem_cons.1 h1 with h1 | h1
      · cases h1
      rcases List.mem_cons.1 h2 with h2 | h2
      · cases h2
      exact h.single j j' m' h1 h2
    · exact h.owns
    · exact List.nodup_cons.2 ⟨hna, h.accs⟩
  | ids id f =>
    show Inv C (ids C s id f)
    unfold ids
    split
    · exact h.quiet rfl rfl (fun _ _ e => by cases e) fun _ _ e => e
    rename_i j hj
    refine ⟨?_, ?_, ?_, ?_, ?_, ?_, ?_, ?_, ?_, ?_, ?_⟩
    · intro k buf hk
      rcases h.seen k buf hk with ⟨h1, b, n, h2, h3⟩ | ⟨j, m', n, h2, h3⟩
      · exact .inl ⟨h1, b, n, List.mem_cons_of_mem _ h2, h3⟩
      · exact .inr ⟨j, m', n, List.mem_cons_of_mem _ h2, h3⟩
    · intro c n' e; cases e
    · intro j m' e
      exact ⟨List.mem_cons_of_mem _ (h.sent j m' e).1, (h.sent j m' e).2⟩
    · intro c n' hc
      rcases List.mem_cons.1 hc with hc | hc
      · cases hc
      · exact h.form c n' hc
    · intro c j m' n' hc hv
      rcases List.mem_cons.1 hv with hv | hv
      · cases hv
      rcases List.mem_cons.1 hc with hc | hc
      · cases hc
      exact (h.late c j m' n' hc hv).cons _
    · intro c j m' n' hh hc hd
      rcases List.mem_cons.1 hh with hh | hh
      · cases hh
      rcases List.mem_cons.1 hc with hc | hc
      · cases hc
      exact (h.late' c j m' n' hh hc hd).cons _
    · intro m' hm
      obtain ⟨x, hx⟩ := h.own m' hm
      exact ⟨x, List.mem_cons_of_mem _ hx⟩
    · intro n' hn
      obtain ⟨x, hx⟩ := h.acc n' hn
      exact ⟨x, List.mem_cons_of_mem _ hx⟩
    · intro j j' m' h1 h2
      rcases List.mem_cons.1 h1 with h1 | h1
      · cases h1
      rcases List.mem_cons.1 h2 with h2 | h2
      · cases h2
      exact h.single j j' m' h1 h2
    · exact h.owns
    · exact h.accs
  | close =>
    show Inv C (match s.rti with | .authenticated _ _ => { s with rti := .accepting } | _ => { s with rti := .exited })
    split
    · exact h.quiet rfl rfl (fun _ _ e => by cases e) fun _ _ e => e
    · exact h.quiet rfl rfl (fun _ _ e => by cases e) fun _ _ e => e

theorem Reach.inv {s : State} (h : Reach C s) : Inv C s := by
  induction h with
  | init => exact Inv.init
  | step a _ hp ih => exact ih.step a hp

end ReactorC.Auth
