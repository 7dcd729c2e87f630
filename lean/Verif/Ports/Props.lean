import Verif.Ports.Inv
import Mathlib.Data.Nat.Find

/-!
# C97: the RTI and its federates find each other

Vocabulary of the statements: `createRtiServer`, `startRtiServer` and `connect` of the model; `IsDefault`, `RtiAt` and
`Within` of the specification. `free k p` tells whether the `k`th call of `bind` succeeds with port `p`, so that ports may be
taken and released at any time.
-/

namespace ReactorC.Ports
open ReactorC.Join Spec

/-! ## The RTI -/

/-- **C97** An RTI that has been given no port listens on one of the default ports. -/
theorem C97_rti_listens_on_default_port (freeTcp freeUdp : Nat → Nat → Bool) (sync : Bool) (r : Nat) (u : Option Nat)
    (h : startRtiServer freeTcp freeUdp sync 0 = .listening r u) : IsDefault r := by
  have hp : (createRtiServer freeTcp 0).port = some r := by
    unfold startRtiServer at h
    cases hc : (createRtiServer freeTcp 0).port with
    | none => rw [hc] at h; simp at h
    | some q =>
      rw [hc] at h
      dsimp only at h
      split at h
      · split at h
        · simp at h
        · simp at h; rw [h.1]
      · simp at h; rw [h.1]
  have hp' : (bindLoop freeTcp 0 59 0 (cyclePort 0)).port = some r := hp
  rcases bindLoop_search freeTcp 59 0 with ⟨i, _, _, _, _, e⟩ | ⟨_, e⟩
  · rw [e] at hp'
    have : cyclePort i = r := by simpa using hp'
    unfold cyclePort at this
    unfold IsDefault
    omega
  · rw [e] at hp'; simp at hp'

/-- **C97** If the same ports are free all the time, an RTI that has been given no port takes the least free default port. -/
theorem C97_rti_takes_least_free_port (free : Nat → Bool) (p : Nat) (hp : IsDefault p) (hf : free p = true)
    (hl : ∀ q, IsDefault q → q < p → free q = false) :
    createRtiServer (fun _ q => free q) 0 = ⟨some p, List.range' 15045 (p - 15044), 0⟩ := by
  unfold IsDefault at hp
  show bindLoop (fun _ q => free q) 0 59 0 (cyclePort 0) = _
  rcases bindLoop_search (fun _ q => free q) 59 0 with ⟨i, _, hi, h1, h2, e⟩ | ⟨h1, _⟩
  · have key : i = p - 15045 := by
      by_contra hne
      by_cases hlt : p - 15045 < i
      · have := h2 (p - 15045) (Nat.zero_le _) hlt
        have e2 : cyclePort (p - 15045) = p := by unfold cyclePort; omega
        rw [e2, hf] at this
        simp at this
      · have e2 : cyclePort i = 15045 + i := by unfold cyclePort; omega
        have := hl (cyclePort i) (by unfold IsDefault; omega) (by omega)
        rw [this] at h1
        simp at h1
    have e2 : cyclePort i = p := by unfold cyclePort; omega
    rw [e, e2]
    have e3 : (List.range' 0 (i + 1 - 0)).map cyclePort = List.range' 15045 (p - 15044) := by
      apply List.ext_getElem
      · simp; omega
      · intro n a b
        simp only [List.length_map, List.length_range'] at a
        simp only [List.getElem_map, List.getElem_range']
        unfold cyclePort
        omega
    rw [e3]
  · have := h1 (p - 15045) (by omega) (by omega)
    have e2 : cyclePort (p - 15045) = p := by unfold cyclePort; omega
    rw [e2, hf] at this
    simp at this

/-- **C97** An RTI that has been given no port gives up only if it was refused every default port at least three times; it
tries 60 times and never waits. -/
theorem C97_rti_gives_up_after_all_ports (free : Nat → Nat → Bool) (h : (createRtiServer free 0).port = none) :
    (createRtiServer free 0).tried.length = 60 ∧ (createRtiServer free 0).slept = 0 ∧
    ∀ p, IsDefault p → ∃ i j k, i < j ∧ j < k ∧ k < 60 ∧
      ∀ n, n = i ∨ n = j ∨ n = k → (createRtiServer free 0).tried[n]? = some p ∧ free n p = false := by
  have e0 : createRtiServer free 0 = bindLoop free 0 59 0 (cyclePort 0) := rfl
  rw [e0] at h ⊢
  rcases bindLoop_search free 59 0 with ⟨i, _, _, _, _, e⟩ | ⟨h1, e⟩
  · rw [e] at h; simp at h
  · rw [e]
    refine ⟨by simp, rfl, fun p hp => ?_⟩
    unfold IsDefault at hp
    refine ⟨p - 15045, p - 15045 + 16, p - 15045 + 32, by omega, by omega, by omega, fun n hn => ?_⟩
    have hn1 : n < 60 := by omega
    have hn2 : cyclePort n = p := by unfold cyclePort; omega
    refine ⟨?_, ?_⟩
    · rw [List.getElem?_map, List.getElem?_range' (by omega)]
      simp only [Option.map_some, Option.some.injEq]
      rw [show 0 + 1 * n = n by omega, hn2]
    · have := h1 n (Nat.zero_le _) (by omega)
      rwa [hn2] at this

/-- **C97** An RTI that has been given a port takes that port or none: it takes it with the first of 60 calls that succeeds,
and has waited one second for every call that failed. -/
theorem C97_rti_takes_the_given_port (free : Nat → Nat → Bool) (p n : Nat) (hp : p ≠ 0) (hn : n < 60)
    (hf : free n p = true) (hl : ∀ j, j < n → free j p = false) :
    createRtiServer free p = ⟨some p, List.replicate (n + 1) p, n⟩ := by
  have e0 : createRtiServer free p = bindLoop free p 59 0 p := by
    unfold createRtiServer
    rw [if_neg hp]
    rfl
  rw [e0]
  rcases bindLoop_given free p hp 59 0 with ⟨i, h1, h2, h3, e⟩ | ⟨h1, _⟩
  · have : i = n := by
      by_contra hne
      by_cases hlt : i < n
      · have := hl i hlt
        rw [Nat.zero_add] at h2
        rw [this] at h2; simp at h2
      · have := h3 n (by omega)
        rw [Nat.zero_add, hf] at this; simp at this
    rw [e, this]
  · have := h1 n (by omega)
    rw [Nat.zero_add, hf] at this; simp at this

/-- **C97** An RTI that has been given a port that is never free exits after 59 seconds of waiting. -/
theorem C97_rti_exits_without_the_given_port (free : Nat → Nat → Bool) (p : Nat) (hp : p ≠ 0)
    (hl : ∀ j, j < 60 → free j p = false) :
    createRtiServer free p = ⟨none, List.replicate 60 p, 59⟩ := by
  have e0 : createRtiServer free p = bindLoop free p 59 0 p := by
    unfold createRtiServer
    rw [if_neg hp]
    rfl
  rw [e0]
  rcases bindLoop_given free p hp 59 0 with ⟨i, h1, h2, _, _⟩ | ⟨_, e⟩
  · rw [hl (0 + i) (by omega)] at h2; simp at h2
  · exact e

/-- **C97** The port for the synchronization of clocks is the one after the port for everything else, whether that was given
(below 65535) or not. -/
theorem C97_udp_port_is_next (freeTcp freeUdp : Nat → Nat → Bool) (port r u : Nat) (hp : port < 65535)
    (h : startRtiServer freeTcp freeUdp true port = .listening r (some u)) :
    u = r + 1 ∧ (port ≠ 0 → r = port) := by
  have hr : (createRtiServer freeTcp port).port = some r ∧
      (createRtiServer freeUdp ((r + 1) % 65536)).port = some u := by
    unfold startRtiServer at h
    cases hc : (createRtiServer freeTcp port).port with
    | none => rw [hc] at h; simp at h
    | some q =>
      rw [hc] at h
      simp only [if_true] at h
      cases hd : (createRtiServer freeUdp ((q + 1) % 65536)).port with
      | none => rw [hd] at h; simp at h
      | some v =>
        rw [hd] at h
        simp only [Started.listening.injEq, Option.some.injEq] at h
        rw [← h.1, ← h.2]
        exact ⟨rfl, hd⟩
  have hport : port ≠ 0 → r = port := by
    intro h0
    have e := hr.1
    unfold createRtiServer at e
    rw [if_neg h0] at e
    exact bindLoop_port_given _ _ h0 _ _ _ e
  have hrange : r < 65535 := by
    by_cases h0 : port = 0
    · have hd : IsDefault r := C97_rti_listens_on_default_port freeTcp freeUdp true r (some u) (h0 ▸ h)
      unfold IsDefault at hd
      omega
    · have := hport h0; omega
  refine ⟨?_, hport⟩
  have e := hr.2
  have e1 : (r + 1) % 65536 = r + 1 := Nat.mod_eq_of_lt (by omega)
  rw [e1] at e
  unfold createRtiServer at e
  rw [if_neg (by omega : r + 1 ≠ 0)] at e
  exact bindLoop_port_given _ _ (by omega) _ _ _ e

/-- **C97** (limit) No other port for the synchronization of clocks is tried: an RTI exits if the one after its port is taken
by another program, even if all others are free and it was not told to use any particular port. -/
theorem C97_udp_port_not_searched (freeUdp : Nat → Nat → Bool)
    (h : ∀ k, k < 60 → freeUdp k 15046 = false) :
    startRtiServer (fun _ _ => true) freeUdp true 0 = .exited := by
  have e1 : (createRtiServer (fun _ _ => true) 0).port = some 15045 := by decide +kernel
  have e2 := C97_rti_exits_without_the_given_port freeUdp 15046 (by decide) h
  unfold startRtiServer
  rw [e1]
  simp only [if_true]
  rw [e2]

/-! ## The federate -/

/-- **C97** The search of a federate ends after at most 122 attempts: it has been acknowledged, it exits, or the time was up
after a connection. -/
theorem C97_search_ends (w : World) (port : Int) (fuel : Nat) (hf : 123 ≤ fuel) : connect w fuel port ≠ .fuel := by
  unfold connect
  rcases search_end w (adjust port).1 (adjust port).2 fuel 0 (-1) (by omega) (by omega) with ⟨i, _, e, _⟩ | e | ⟨i, _, e⟩
  · have e' : search w (adjust port).1 fuel 0 0 (adjust port).2 (-1) = _ := e
    rw [e']; simp
  · have e' : search w (adjust port).1 fuel 0 0 (adjust port).2 (-1) = _ := e
    rw [e']; simp
  · have e' : search w (adjust port).1 fuel 0 0 (adjust port).2 (-1) = _ := e
    rw [e']; simp

/-- **C97** A federate that has been given no port finds an RTI on any of the default ports, whatever else listens on the
others, if the RTI answers early enough: 16 attempts before the minute is over. -/
theorem C97_federate_finds_rti (w : World) (r s d : Nat) (hr : IsDefault r) (hat : RtiAt w r s) (hd : Within w d)
    (hs : s + 16 * (500000000 + d) ≤ 60000000000) (fuel : Nat) (hf : 123 ≤ fuel) :
    connect w fuel 0 = .joined r := by
  have hp : adjust 0 = (0, 15045) := by decide
  unfold connect
  rw [hp]
  dsimp only
  have ex : ∃ k, s ≤ att w k := by
    refine ⟨s, Nat.le_trans ?_ (att_ge w s)⟩
    exact Nat.le_mul_of_pos_right _ (by decide)
  have hk1 := Nat.find_spec ex
  have hk2 : att w (Nat.find ex) ≤ s + (500000000 + d) := by
    cases hk : Nat.find ex with
    | zero => exact Nat.zero_le _
    | succ k =>
      have h1 : ¬ s ≤ att w k := Nat.find_min ex (by omega)
      have h2 := att_add_le w d hd k 1
      unfold CONNECT_RETRY_INTERVAL at h2
      omega
  obtain ⟨K, hK⟩ : ∃ K, K = Nat.find ex := ⟨_, rfl⟩
  rw [← hK] at hk1 hk2
  unfold IsDefault at hr
  -- the first attempt at the port of the RTI after it listens
  obtain ⟨m, hm1, hm2, hm3⟩ : ∃ m, K ≤ m ∧ m ≤ K + 15 ∧ cyclePort m = r :=
    ⟨K + ((r - 15045) + 16 - K % 16) % 16, by omega, by omega, by unfold cyclePort; omega⟩
  have hatm : att w m ≤ s + 16 * (500000000 + d) := by
    obtain ⟨n, rfl⟩ : ∃ n, m = K + n := ⟨m - K, by omega⟩
    have h2 := att_add_le w d hd K n
    have h3 : n * (CONNECT_RETRY_INTERVAL + d) ≤ 15 * (CONNECT_RETRY_INTERVAL + d) :=
      Nat.mul_le_mul_right _ (by omega)
    unfold CONNECT_RETRY_INTERVAL at h2 h3
    omega
  have ex2 : ∃ i, w.answer (att w i) (portAt 0 15045 i) = .reply .ack := by
    refine ⟨m, ?_⟩
    rw [portAt_zero, hm3]
    exact hat.there _ (Nat.le_trans hk1 (att_mono w hm1))
  obtain ⟨I, hI⟩ : ∃ I, I = Nat.find ex2 := ⟨_, rfl⟩
  have hI1 := Nat.find_spec ex2
  rw [← hI] at hI1
  have hI2 : ∀ i, i < I → w.answer (att w i) (portAt 0 15045 i) ≠ .reply .ack :=
    fun i hi => Nat.find_min ex2 (by omega)
  have hIm : I ≤ m := by
    by_contra hc
    refine hI2 m (by omega) ?_
    rw [portAt_zero, hm3]
    exact hat.there _ (Nat.le_trans hk1 (att_mono w hm1))
  have hbeg : ∀ i, i ≤ I → beg w i ≤ CONNECT_TIMEOUT := by
    intro i hi
    have h1 := beg_le_att w i
    have h2 := att_mono w (Nat.le_trans hi hIm)
    unfold CONNECT_TIMEOUT
    omega
  have hI4 := beg_few w I (hbeg I (Nat.le_refl _))
  have e := search_joined w 0 15045 I fuel 0 (-1) (by omega) (fun i _ h => hbeg i (by omega))
    (fun i _ h => hI2 i (by omega)) (by rw [Nat.zero_add]; exact hI1)
  have e' : search w 0 fuel 0 0 15045 (-1) = .joined (portAt 0 15045 (0 + I)) := e
  rw [e', Nat.zero_add]
  rw [portAt_zero] at hI1 ⊢
  by_contra hne
  refine hat.alone _ (cyclePort I) ?_ (fun h => hne (by rw [h])) hI1
  unfold IsDefault cyclePort
  omega

/-- **C97** An RTI and a federate that have both been given no port find each other, on whichever port the RTI listens. -/
theorem C97_rti_and_federate_meet (freeTcp freeUdp : Nat → Nat → Bool) (sync : Bool) (w : World) (r s d : Nat)
    (u : Option Nat) (h : startRtiServer freeTcp freeUdp sync 0 = .listening r u) (hat : RtiAt w r s) (hd : Within w d)
    (hs : s + 16 * (500000000 + d) ≤ 60000000000) : connect w 123 0 = .joined r :=
  C97_federate_finds_rti w r s d (C97_rti_listens_on_default_port freeTcp freeUdp sync r u h) hat hd hs 123 (by decide)

/-- **C97** A federate that joins has been acknowledged on the port it says; that is a default port if none was given, and
otherwise the port that was given. -/
theorem C97_joined_port_has_acknowledged (w : World) (port : Int) (fuel q : Nat) (hf : 123 ≤ fuel)
    (h : connect w fuel port = .joined q) :
    (∃ t, w.answer t q = .reply .ack) ∧ (1 ≤ port → port ≤ 32767 → port = q) ∧ (port = 0 → IsDefault q) := by
  unfold connect at h
  have hq : ∃ i, q = portAt (adjust port).1 (adjust port).2 i ∧
      w.answer (att w i) (portAt (adjust port).1 (adjust port).2 i) = .reply .ack := by
    rcases search_end w (adjust port).1 (adjust port).2 fuel 0 (-1) (by omega) (by omega) with
      ⟨i, _, e, ha⟩ | e | ⟨i, _, e⟩
    · have e' : search w (adjust port).1 fuel 0 0 (adjust port).2 (-1) = _ := e
      rw [e'] at h
      exact ⟨i, by simpa using h.symm, ha⟩
    · have e' : search w (adjust port).1 fuel 0 0 (adjust port).2 (-1) = _ := e
      rw [e'] at h; simp at h
    · have e' : search w (adjust port).1 fuel 0 0 (adjust port).2 (-1) = _ := e
      rw [e'] at h; simp at h
  obtain ⟨i, e, ha⟩ := hq
  refine ⟨⟨_, e ▸ ha⟩, fun h1 h2 => ?_, fun h0 => ?_⟩
  · have ea : adjust port = (port, port.toNat) := by
      unfold adjust
      have c1 : ¬ (port < 0 ∨ port > 32767) := by omega
      rw [if_neg c1]
      have c2 : ¬ port.toNat = 0 := by omega
      simp only [c2, if_false]
    rw [ea] at e
    dsimp only at e
    rw [portAt_given (by omega)] at e
    omega
  · subst h0
    have ea : adjust 0 = (0, 15045) := by decide
    rw [ea] at e
    dsimp only at e
    rw [portAt_zero] at e
    rw [e]
    unfold IsDefault cyclePort
    omega

/-- **C97** A federate that has been given a port from 1 to 32767 finds the RTI on that port as soon as it answers: the first
attempt after that succeeds. -/
theorem C97_federate_finds_rti_on_given_port (w : World) (r s d : Nat) (h1 : 1 ≤ r) (h2 : r ≤ 32767)
    (hat : ∀ t, s ≤ t → w.answer t r = .reply .ack) (hd : Within w d)
    (hs : s + (500000000 + d) ≤ 60000000000) (fuel : Nat) (hf : 123 ≤ fuel) :
    connect w fuel r = .joined r := by
  have ea : adjust (r : Int) = ((r : Int), r) := by
    unfold adjust
    have c1 : ¬ ((r : Int) < 0 ∨ (r : Int) > 32767) := by omega
    rw [if_neg c1]
    have c2 : ¬ r = 0 := by omega
    simp only [Int.toNat_natCast, c2, if_false]
  have h0 : (r : Int) ≠ 0 := by omega
  unfold connect
  rw [ea]
  dsimp only
  have ex : ∃ k, s ≤ att w k := by
    refine ⟨s, Nat.le_trans ?_ (att_ge w s)⟩
    exact Nat.le_mul_of_pos_right _ (by decide)
  have ex2 : ∃ i, w.answer (att w i) (portAt r r i) = .reply .ack := by
    refine ⟨Nat.find ex, ?_⟩
    rw [portAt_given h0]
    exact hat _ (Nat.find_spec ex)
  have hI1 := Nat.find_spec ex2
  have hle : Nat.find ex2 ≤ Nat.find ex := by
    apply Nat.find_min'
    rw [portAt_given h0]
    exact hat _ (Nat.find_spec ex)
  have hatk : att w (Nat.find ex) ≤ s + (500000000 + d) := by
    cases hk : Nat.find ex with
    | zero => exact Nat.zero_le _
    | succ k =>
      have h1 : ¬ s ≤ att w k := Nat.find_min ex (by omega)
      have h2 := att_add_le w d hd k 1
      unfold CONNECT_RETRY_INTERVAL at h2
      omega
  have hbeg : ∀ i, i ≤ Nat.find ex2 → beg w i ≤ CONNECT_TIMEOUT := by
    intro i hi
    have h1 := beg_le_att w i
    have h2 := att_mono w (Nat.le_trans hi hle)
    unfold CONNECT_TIMEOUT
    omega
  have hI4 := beg_few w _ (hbeg _ (Nat.le_refl _))
  have e := search_joined w r r (Nat.find ex2) fuel 0 (-1) (by omega) (fun i _ h => hbeg i (by omega))
    (fun i _ h => Nat.find_min ex2 (by omega)) (by rw [Nat.zero_add]; exact hI1)
  have e' : search w r fuel 0 0 r (-1) = .joined (portAt r r (0 + Nat.find ex2)) := e
  rw [e', portAt_given h0]

/-- **C97** (limit) A federate that has been given no port does not find an RTI on a port that is not a default port: if nothing
listens on the default ports it exits, whatever answers on others. -/
theorem C97_rti_elsewhere_not_found (w : World) (h : ∀ t p, IsDefault p → w.answer t p = .refused) (fuel : Nat)
    (hf : 123 ≤ fuel) : connect w fuel 0 = .exits := by
  have hp : adjust 0 = (0, 15045) := by decide
  unfold connect
  rw [hp]
  refine search_refused w 0 15045 (fun t i => ?_) fuel 0 (by omega) (by omega)
  rw [portAt_zero]
  apply h
  unfold IsDefault cyclePort
  omega

/-- **C97** (limit) An RTI can be told to listen on a port from 32768 to 65534, but a federate that is told the same port
searches the default ports instead and does not find it there. -/
theorem C97_high_port_not_found (w : World) (port : Int) (hp : 32767 < port)
    (h : ∀ t p, IsDefault p → w.answer t p = .refused) (fuel : Nat) (hf : 123 ≤ fuel) : connect w fuel port = .exits := by
  have e : adjust port = adjust 0 := by
    unfold adjust
    have c1 : port < 0 ∨ port > 32767 := Or.inr hp
    rw [if_pos c1]
    decide
  have := C97_rti_elsewhere_not_found w h fuel hf
  unfold connect at this ⊢
  rw [e]
  exact this

/-- **C97** (limit) A federate that has been given the first default port does not search: an RTI that had to take another
default port is not found, and the federate exits, although a federate without a port would have found it. -/
theorem C97_given_default_port_not_searched (w : World) (h : ∀ t, w.answer t 15045 = .refused) (fuel : Nat)
    (hf : 123 ≤ fuel) : connect w fuel 15045 = .exits := by
  have hp : adjust 15045 = (15045, 15045) := by decide
  unfold connect
  rw [hp]
  refine search_refused w 15045 15045 (fun t i => ?_) fuel 0 (by omega) (by omega)
  rw [portAt_given (by decide)]
  exact h t

/-! ## Examples -/

/-- Ports 15045 and 15046 are taken, 15047 is released after the first round. -/
def exampleFree (k p : Nat) : Bool := !(p == 15045 || p == 15046 || (p == 15047 && k < 4))

example : createRtiServer exampleFree 0 = ⟨some 15048, [15045, 15046, 15047, 15048], 0⟩ := by decide +kernel
example : createRtiServer exampleFree 15047 = ⟨some 15047, [15047, 15047, 15047, 15047, 15047], 4⟩ := by decide +kernel
example : startRtiServer exampleFree (fun _ _ => true) true 0 = .listening 15048 (some 15049) := by decide +kernel
example : (createRtiServer (fun _ _ => false) 0).port = none := by decide +kernel
example : IsDefault 15048 ∧ ¬ IsDefault 15061 ∧ ¬ IsDefault 15044 := by decide

/-- Another RTI rejects on port 15045, the RTI answers on 15048 after ten seconds; every attempt takes a millisecond. -/
def exampleWorld : World where
  answer t p := if p = 15048 ∧ 10000000000 ≤ t then .reply .ack else if p = 15045 then .reply (.reject .federationIdDoesNotMatch)
    else .refused
  cost _ := 1000000
  over _ := 0

example : RtiAt exampleWorld 15048 10000000000 := by
  constructor
  · intro t ht
    unfold exampleWorld
    exact if_pos ⟨rfl, ht⟩
  · intro t p _ hp
    unfold exampleWorld
    dsimp only
    rw [if_neg (fun h => hp h.1)]
    split <;> simp
example : Within exampleWorld 1000000 := fun _ => Nat.le_refl _
example : 10000000000 + 16 * (500000000 + 1000000) ≤ 60000000000 := by decide
example : connect exampleWorld 123 0 = .joined 15048 := by decide +kernel
example : connect exampleWorld 123 15048 = .joined 15048 := by decide +kernel
example : connect exampleWorld 123 15045 = .goesOn 15045 := by decide +kernel
example : connect exampleWorld 123 15050 = .exits := by decide +kernel
example : ∀ t p, IsDefault p → (⟨fun _ p => if p = 40000 then .reply .ack else .refused, fun _ => 0, fun _ => 0⟩ : World).answer t p
    = .refused := by
  intro t p hp
  unfold IsDefault at hp
  exact if_neg (by omega)

end ReactorC.Ports
