import Verif.Net.Wire
import Mathlib.Tactic.Common
import Mathlib.Tactic.Ring

/-! # C31: the wire encoding round-trips -/

namespace ReactorC.Net

/-! ## Bytes of numbers -/

theorem toLE_length (n x : Nat) : (toLE n x).length = n := by
  induction n generalizing x with
  | zero => rfl
  | succ n ih => simp [toLE, ih]

theorem fromLE_toLE (n x : Nat) (h : x < 256 ^ n) : fromLE (toLE n x) = x := by
  induction n generalizing x with
  | zero => simp at h; subst h; rfl
  | succ n ih =>
    have : x / 256 < 256 ^ n := by rw [Nat.pow_succ, Nat.mul_comm] at h; exact Nat.div_lt_of_lt_mul h
    simp only [toLE, fromLE, ih _ this]
    simp; omega

theorem fromLE_lt (l : List Byte) : fromLE l < 256 ^ l.length := by
  induction l with
  | nil => simp [fromLE]
  | cons b l ih =>
    have := b.isLt
    simp only [fromLE, List.length_cons, Nat.pow_succ]
    omega

theorem toLE_fromLE (l : List Byte) : toLE l.length (fromLE l) = l := by
  induction l with
  | nil => rfl
  | cons b l ih =>
    have hb := b.isLt
    simp only [List.length_cons, toLE, fromLE]
    have h1 : (b.toNat + 256 * fromLE l) / 256 = fromLE l := by omega
    rw [h1, ih]
    congr 1
    apply BitVec.eq_of_toNat_eq
    simp; omega

theorem ofNat_toNat_mod (w x : Nat) (h : x < 2 ^ w) : (BitVec.ofNat w x).toNat = x := by
  simp [Nat.mod_eq_of_lt h]

/-- A byte of a bit vector, by bits. -/
theorem byte_toNat {w : Nat} (d : BitVec w) (b : Byte) (k : Nat) (h : ∀ i, i < 8 → b.getLsbD i = d.getLsbD (8 * k + i)) :
    b = BitVec.ofNat 8 (d.toNat / 256 ^ k) := by
  apply BitVec.eq_of_getLsbD_eq
  intro i hi
  rw [h i hi]
  have h256 : 256 ^ k = 2 ^ (8 * k) := by
    rw [show (256 : Nat) = 2 ^ 8 by rfl, ← Nat.pow_mul]
  have hmod : (d.toNat / 256 ^ k % 2 ^ 8).testBit i = (d.toNat / 256 ^ k).testBit i := by
    rw [Nat.testBit_mod_two_pow]; simp [hi]
  show d.toNat.testBit (8 * k + i) = (BitVec.ofNat 8 (d.toNat / 256 ^ k)).toNat.testBit i
  rw [BitVec.toNat_ofNat, hmod, h256, Nat.testBit_div_two_pow, Nat.add_comm]

theorem byte64_bits (d : BitVec 64) (k : Nat) (hk : k < 8) (i : Nat) (hi : i < 8) :
    (byte64 d (8 * k)).getLsbD i = d.getLsbD (8 * k + i) := by
  unfold byte64
  simp only [BitVec.getLsbD_setWidth, BitVec.getLsbD_sshiftRight, BitVec.getLsbD_and, BitVec.getLsbD_shiftLeft]
  have h1 : 8 * k + i < 64 := by omega
  have h2 : ¬ (8 * k + i < 8 * k) := by omega
  have h3 : 8 * k + i - 8 * k = i := by omega
  have h4 : ¬ (64 ≤ i) := by omega
  have h5 : (0xff#64).getLsbD i = true := by
    have : ∀ j, j < 8 → (0xff#64).getLsbD j = true := by decide
    exact this i hi
  simp [h1, h2, h3, h4, h5, hi]

theorem encode_int64_eq (d : BitVec 64) : encode_int64 d = toLE 8 d.toNat := by
  have h : ∀ k, k < 8 → byte64 d (8 * k) = BitVec.ofNat 8 (d.toNat / 256 ^ k) :=
    fun k hk => byte_toNat d _ k (byte64_bits d k hk)
  unfold encode_int64
  rw [show List.range 8 = [0, 1, 2, 3, 4, 5, 6, 7] by decide]
  simp only [List.map_cons, List.map_nil]
  rw [h 0 (by omega), h 1 (by omega), h 2 (by omega), h 3 (by omega), h 4 (by omega), h 5 (by omega), h 6 (by omega), h 7 (by omega)]
  simp [toLE, Nat.div_div_eq_div_mul]

theorem mask_bits (k i : Nat) (hk : k < 4) (hi : i < 8) : (0xff#32 <<< (8 * k)).getLsbD (8 * k + i) = true := by
  have : ∀ k, k < 4 → ∀ i, i < 8 → (0xff#32 <<< (8 * k)).getLsbD (8 * k + i) = true := by decide
  exact this k hk i hi

theorem byte32_bits (d : BitVec 32) (k : Nat) (hk : k < 4) (i : Nat) (hi : i < 8) :
    (((d &&& (0xff#32 <<< (8 * k))) >>> (8 * k)).setWidth 8).getLsbD i = d.getLsbD (8 * k + i) := by
  have h5 := mask_bits k i hk hi
  simp only [BitVec.getLsbD_setWidth, BitVec.getLsbD_ushiftRight, BitVec.getLsbD_and, h5]
  simp [hi]

theorem sbyte32_bits (d : BitVec 32) (k : Nat) (hk : k < 4) (i : Nat) (hi : i < 8) :
    (((d &&& (0xff#32 <<< (8 * k))).sshiftRight (8 * k)).setWidth 8).getLsbD i = d.getLsbD (8 * k + i) := by
  have h5 := mask_bits k i hk hi
  have h1 : 8 * k + i < 32 := by omega
  have h4 : ¬ (32 ≤ i) := by omega
  simp only [BitVec.getLsbD_setWidth, BitVec.getLsbD_sshiftRight, BitVec.getLsbD_and, h5]
  simp [hi, h1, h4]

theorem encode_uint32_eq (d : BitVec 32) : encode_uint32 d = toLE 4 d.toNat := by
  have h : ∀ k, k < 4 → ((d &&& (0xff#32 <<< (8 * k))) >>> (8 * k)).setWidth 8 = BitVec.ofNat 8 (d.toNat / 256 ^ k) :=
    fun k hk => byte_toNat d _ k (byte32_bits d k hk)
  have h0 := h 0 (by omega); have h1 := h 1 (by omega); have h2 := h 2 (by omega); have h3 := h 3 (by omega)
  simp at h0 h1 h2 h3
  unfold encode_uint32
  simp [toLE, Nat.div_div_eq_div_mul, h0, h1, h2, h3]

theorem encode_int32_eq (d : BitVec 32) : encode_int32 d = toLE 4 d.toNat := by
  have h : ∀ k, k < 4 → ((d &&& (0xff#32 <<< (8 * k))).sshiftRight (8 * k)).setWidth 8 = BitVec.ofNat 8 (d.toNat / 256 ^ k) :=
    fun k hk => byte_toNat d _ k (sbyte32_bits d k hk)
  have h0 := h 0 (by omega); have h1 := h 1 (by omega); have h2 := h 2 (by omega); have h3 := h 3 (by omega)
  simp at h0 h1 h2 h3
  unfold encode_int32
  simp [toLE, Nat.div_div_eq_div_mul, h0, h1, h2, h3]

theorem encode_uint16_eq (d : BitVec 16) : encode_uint16 d = toLE 2 d.toNat := by
  have hm : ∀ k, k < 2 → ∀ i, i < 8 → (0xff#16 <<< (8 * k)).getLsbD (8 * k + i) = true := by decide
  have h : ∀ k, k < 2 → ((d &&& (0xff#16 <<< (8 * k))) >>> (8 * k)).setWidth 8 = BitVec.ofNat 8 (d.toNat / 256 ^ k) := by
    intro k hk
    refine byte_toNat d _ k ?_
    intro i hi
    simp only [BitVec.getLsbD_setWidth, BitVec.getLsbD_ushiftRight, BitVec.getLsbD_and, hm k hk i hi]
    simp [hi]
  have h0 := h 0 (by omega); have h1 := h 1 (by omega)
  simp at h0 h1
  unfold encode_uint16
  simp [toLE, h0, h1]

/-! ## Decoding -/

theorem host_big (big : Bool) : host_is_big_endian big = big := by cases big <;> decide

theorem len8 {l : List Byte} (h : l.length = 8) : swap8 l = l.reverse := by
  match l, h with
  | [c0, c1, c2, c3, c4, c5, c6, c7], _ => rfl
theorem len4 {l : List Byte} (h : l.length = 4) : swap4 l = l.reverse := by
  match l, h with
  | [c0, c1, c2, c3], _ => rfl
theorem len2 {l : List Byte} (h : l.length = 2) : swap2 l = l.reverse := by
  match l, h with
  | [c0, c1], _ => rfl

theorem store_load (big : Bool) (n : Nat) (l : List Byte) (h : l.length = n) : store big n (load big (8 * n) l) = l := by
  have h256 : 256 ^ n = 2 ^ (8 * n) := by
    rw [show (256 : Nat) = 2 ^ 8 by rfl, ← Nat.pow_mul]
  cases big
  · have := fromLE_lt l
    rw [h, h256] at this
    simp only [store, load, Bool.false_eq_true, if_false, ofNat_toNat_mod _ _ this]
    rw [← h]; exact toLE_fromLE l
  · have := fromLE_lt l.reverse
    rw [List.length_reverse, h, h256] at this
    simp only [store, load, if_true, ofNat_toNat_mod _ _ this]
    rw [← h, ← List.length_reverse, toLE_fromLE, List.reverse_reverse]

theorem extract_int64_eq (big : Bool) (l : List Byte) (h : 8 ≤ l.length) :
    extract_int64 big l = BitVec.ofNat 64 (fromLE (l.take 8)) := by
  have hl : (l.take 8).length = 8 := by simp [h]
  unfold extract_int64 swap_bytes_if_big_endian_int64
  rw [host_big]
  cases big
  · simp [load]
  · simp only [not_true_eq_false, if_false]
    rw [store_load true 8 _ hl, len8 hl]
    simp [load]

theorem extract_uint32_eq (big : Bool) (l : List Byte) (h : 4 ≤ l.length) :
    extract_uint32 big l = BitVec.ofNat 32 (fromLE (l.take 4)) := by
  have hl : (l.take 4).length = 4 := by simp [h]
  unfold extract_uint32 swap_bytes_if_big_endian_uint32
  rw [host_big]
  cases big
  · simp [load]
  · simp only [not_true_eq_false, if_false]
    rw [store_load true 4 _ hl, len4 hl]
    simp [load]

theorem extract_uint16_eq (big : Bool) (l : List Byte) (h : 2 ≤ l.length) :
    extract_uint16 big l = BitVec.ofNat 16 (fromLE (l.take 2)) := by
  have hl : (l.take 2).length = 2 := by simp [h]
  unfold extract_uint16 swap_bytes_if_big_endian_uint16
  rw [host_big]
  cases big
  · simp [load]
  · simp only [not_true_eq_false, if_false]
    rw [store_load true 2 _ hl, len2 hl]
    simp [load]

/-! ## The properties -/

/-- **C31** Every 64-bit integer comes back, on hosts of both byte orders, whatever follows it in the buffer. -/
theorem C31_int64_roundtrip (big : Bool) (x : BitVec 64) (rest : List Byte) :
    extract_int64 big (encode_int64 x ++ rest) = x := by
  rw [encode_int64_eq, extract_int64_eq _ _ (by simp [toLE_length]), List.take_append_of_le_length (by simp [toLE_length]),
    List.take_of_length_le (by simp [toLE_length]), fromLE_toLE _ _ (by have := x.isLt; omega)]
  simp

/-- **C31** The same for signed numbers in their usual range. -/
theorem C31_signed_roundtrip (big : Bool) (t : Int) (h1 : -2 ^ 63 ≤ t) (h2 : t < 2 ^ 63) (rest : List Byte) :
    (extract_int64 big (encode_int64 (BitVec.ofInt 64 t) ++ rest)).toInt = t := by
  rw [C31_int64_roundtrip, BitVec.toInt_ofInt]
  exact Int.bmod_eq_of_le (by omega) (by omega)

theorem C31_uint32_roundtrip (big : Bool) (x : BitVec 32) (rest : List Byte) :
    extract_uint32 big (encode_uint32 x ++ rest) = x := by
  rw [encode_uint32_eq, extract_uint32_eq _ _ (by simp [toLE_length]), List.take_append_of_le_length (by simp [toLE_length]),
    List.take_of_length_le (by simp [toLE_length]), fromLE_toLE _ _ (by have := x.isLt; omega)]
  simp

theorem C31_int32_roundtrip (big : Bool) (x : BitVec 32) (rest : List Byte) :
    extract_uint32 big (encode_int32 x ++ rest) = x := by
  rw [encode_int32_eq, ← encode_uint32_eq]; exact C31_uint32_roundtrip big x rest

theorem C31_uint16_roundtrip (big : Bool) (x : BitVec 16) (rest : List Byte) :
    extract_uint16 big (encode_uint16 x ++ rest) = x := by
  rw [encode_uint16_eq, extract_uint16_eq _ _ (by simp [toLE_length]), List.take_append_of_le_length (by simp [toLE_length]),
    List.take_of_length_le (by simp [toLE_length]), fromLE_toLE _ _ (by have := x.isLt; omega)]
  simp

/-- **C31** The encoding is a string of fixed length, least significant byte first: byte `i` is digit `i` of the
number in base 256. -/
theorem C31_little_endian (x : BitVec 64) (y : BitVec 32) (z : BitVec 16) :
    (encode_int64 x).map BitVec.toNat = (List.range 8).map (fun i => x.toNat / 256 ^ i % 256) ∧
    (encode_uint32 y).map BitVec.toNat = (List.range 4).map (fun i => y.toNat / 256 ^ i % 256) ∧
    (encode_int32 y).map BitVec.toNat = (List.range 4).map (fun i => y.toNat / 256 ^ i % 256) ∧
    (encode_uint16 z).map BitVec.toNat = (List.range 2).map (fun i => z.toNat / 256 ^ i % 256) := by
  have h : ∀ n v, (toLE n v).map BitVec.toNat = (List.range n).map (fun i => v / 256 ^ i % 256) := by
    intro n
    induction n with
    | zero => intro v; rfl
    | succ n ih =>
      intro v
      rw [List.range_succ_eq_map]
      simp only [toLE, List.map_cons, ih, List.map_map]
      congr 1
      · simp
      · apply List.map_congr_left
        intro i _
        simp [Nat.div_div_eq_div_mul, Nat.pow_succ, Nat.mul_comm]
  rw [encode_int64_eq, encode_uint32_eq, encode_int32_eq, encode_uint16_eq]
  exact ⟨h 8 _, h 4 _, h 4 _, h 2 _⟩

/-! ### Buffers -/

theorem put_length (b : List Byte) (off : Nat) (l : List Byte) (h : off + l.length ≤ b.length) :
    (put b off l).length = b.length := by
  simp [put]; omega

theorem put_here (b : List Byte) (off : Nat) (l : List Byte) (h : off ≤ b.length) :
    (put b off l).drop off = l ++ b.drop (off + l.length) := by
  unfold put
  have : (b.take off).length = off := by simp [h]
  rw [List.append_assoc, List.drop_append_of_le_length (by omega), List.drop_of_length_le (by omega), List.nil_append]

/-- Writing later in the buffer leaves what comes before. -/
theorem put_before (b : List Byte) (off : Nat) (l : List Byte) (k : Nat) (h : k ≤ off) (hb : off ≤ b.length) :
    (put b off l).take k = b.take k := by
  unfold put
  rw [List.append_assoc, List.take_append_of_le_length (by simp; omega), List.take_take, Nat.min_eq_left h]

theorem encode_length64 (x : BitVec 64) : (encode_int64 x).length = 8 := by rw [encode_int64_eq, toLE_length]
theorem encode_length32 (x : BitVec 32) : (encode_uint32 x).length = 4 := by rw [encode_uint32_eq, toLE_length]
theorem encode_length16 (x : BitVec 16) : (encode_uint16 x).length = 2 := by rw [encode_uint16_eq, toLE_length]

theorem put_put (b : List Byte) (off : Nat) (l1 l2 : List Byte) (h : off + l1.length ≤ b.length) :
    put (put b off l1) (off + l1.length) l2 = put b off (l1 ++ l2) := by
  unfold put
  have hlen : (b.take off ++ l1).length = off + l1.length := by simp; omega
  rw [List.take_left' hlen, List.drop_append, List.drop_of_length_le (by omega)]
  simp [hlen, Nat.add_assoc]

theorem encode_tag_eq (b : List Byte) (off : Nat) (t : WTag) (h : off + 12 ≤ b.length) :
    encode_tag b off t = put b off (encode_int64 t.time ++ encode_uint32 t.microstep) := by
  unfold encode_tag
  have := put_put b off (encode_int64 t.time) (encode_uint32 t.microstep) (by rw [encode_length64]; omega)
  rw [encode_length64] at this
  exact this

theorem extract_tag_enc (big : Bool) (t : WTag) (rest : List Byte) :
    extract_tag big (encode_int64 t.time ++ (encode_uint32 t.microstep ++ rest)) = t := by
  unfold extract_tag
  rw [C31_int64_roundtrip, List.drop_left' (encode_length64 _), C31_uint32_roundtrip]

/-- **C31** Tags come back from any place in a buffer, and the rest of the buffer is left as it was. -/
theorem C31_tag_roundtrip (big : Bool) (buffer : List Byte) (off : Nat) (t : WTag) (h : off + 12 ≤ buffer.length) :
    extract_tag big ((encode_tag buffer off t).drop off) = t ∧
    (encode_tag buffer off t).take off = buffer.take off ∧
    (encode_tag buffer off t).drop (off + 12) = buffer.drop (off + 12) := by
  rw [encode_tag_eq _ _ _ h]
  have hl : (encode_int64 t.time ++ encode_uint32 t.microstep).length = 12 := by
    simp [encode_length64, encode_length32]
  refine ⟨?_, put_before _ _ _ _ (Nat.le_refl _) (by omega), ?_⟩
  · rw [put_here _ _ _ (by omega), List.append_assoc, extract_tag_enc]
  · rw [← List.drop_drop, put_here _ _ _ (by omega), hl, List.drop_left' hl]

theorem put_all (b l : List Byte) (h : b.length = l.length) : put b 0 l = l := by
  simp [put, ← h]

theorem tagged_header_eq (buffer : List Byte) (hb : buffer.length = 21) (ty : Byte) (p f : BitVec 16) (len : BitVec 64)
    (t : WTag) : tagged_header buffer ty p f len t =
      [ty] ++ encode_uint16 p ++ encode_uint16 f ++ encode_uint32 (len.setWidth 32) ++
        (encode_int64 t.time ++ encode_uint32 t.microstep) := by
  have l16 := encode_length16; have l32 := encode_length32; have l64 := encode_length64
  unfold tagged_header
  dsimp only
  have e1 : put (put buffer 0 [ty]) 1 (encode_uint16 p) = put buffer 0 ([ty] ++ encode_uint16 p) :=
    put_put buffer 0 [ty] _ (by simp; omega)
  rw [e1]
  have e2 : put (put buffer 0 ([ty] ++ encode_uint16 p)) 3 (encode_uint16 f) =
      put buffer 0 ([ty] ++ encode_uint16 p ++ encode_uint16 f) := by
    have := put_put buffer 0 ([ty] ++ encode_uint16 p) (encode_uint16 f) (by simp [l16]; omega)
    simpa [l16] using this
  rw [e2]
  have e3 : put (put buffer 0 ([ty] ++ encode_uint16 p ++ encode_uint16 f)) 5 (encode_uint32 (len.setWidth 32)) =
      put buffer 0 ([ty] ++ encode_uint16 p ++ encode_uint16 f ++ encode_uint32 (len.setWidth 32)) := by
    have := put_put buffer 0 ([ty] ++ encode_uint16 p ++ encode_uint16 f) (encode_uint32 (len.setWidth 32)) (by simp [l16]; omega)
    simpa [l16] using this
  rw [e3]
  have hlen : ([ty] ++ encode_uint16 p ++ encode_uint16 f ++ encode_uint32 (len.setWidth 32)).length = 9 := by
    simp [l16, l32]
  have hpl : (put buffer 0 ([ty] ++ encode_uint16 p ++ encode_uint16 f ++ encode_uint32 (len.setWidth 32))).length = 21 := by
    rw [put_length _ _ _ (by omega)]; exact hb
  rw [encode_tag_eq _ _ _ (by omega)]
  have e4 := put_put buffer 0 ([ty] ++ encode_uint16 p ++ encode_uint16 f ++ encode_uint32 (len.setWidth 32))
    (encode_int64 t.time ++ encode_uint32 t.microstep) (by omega)
  rw [hlen, Nat.zero_add] at e4
  rw [e4]
  exact put_all _ _ (by simp [l16, l32, l64]; omega)

theorem extract_timed_enc (big : Bool) (p f : BitVec 16) (len : BitVec 32) (t : WTag) (rest : List Byte) :
    extract_timed_header big (encode_uint16 p ++ (encode_uint16 f ++ (encode_uint32 len ++
      (encode_int64 t.time ++ (encode_uint32 t.microstep ++ rest))))) =
      { port := p, federate := f, length := len, tag := t } := by
  have l16 := encode_length16; have l32 := encode_length32
  unfold extract_timed_header extract_header
  have d2 : ∀ l : List Byte, (encode_uint16 p ++ l).drop 2 = l := fun l => List.drop_left' (l16 p)
  have d4 : ∀ l : List Byte, (encode_uint16 p ++ (encode_uint16 f ++ l)).drop 4 = l := by
    intro l
    rw [show (4 : Nat) = 2 + 2 by rfl, ← List.drop_drop, d2]; exact List.drop_left' (l16 f)
  have d8 : ∀ l : List Byte, (encode_uint16 p ++ (encode_uint16 f ++ (encode_uint32 len ++ l))).drop 8 = l := by
    intro l
    rw [show (8 : Nat) = 4 + 4 by rfl, ← List.drop_drop, d4]; exact List.drop_left' (l32 len)
  rw [d2, d4, d8, C31_uint16_roundtrip, C31_uint16_roundtrip, C31_uint32_roundtrip, extract_tag_enc]

/-- **C31** The header of a tagged message comes back: type, port, federate, tag, and the length if it is less
than 2^32. -/
theorem C31_header_roundtrip (big : Bool) (buffer : List Byte) (hb : buffer.length = 21) (ty : Byte) (p f : BitVec 16)
    (len : BitVec 64) (hlen : len.toNat < 2 ^ 32) (t : WTag) (rest : List Byte) :
    (tagged_header buffer ty p f len t).length = 21 ∧
    (tagged_header buffer ty p f len t)[0]? = some ty ∧
    (let h := extract_timed_header big ((tagged_header buffer ty p f len t ++ rest).drop 1)
     h.port = p ∧ h.federate = f ∧ h.length.toNat = len.toNat ∧ h.tag = t) := by
  rw [tagged_header_eq buffer hb]
  refine ⟨?_, rfl, ?_⟩
  · simp [encode_length64, encode_length32, encode_length16]
  · rw [List.append_assoc, List.append_assoc, List.append_assoc, List.append_assoc, List.append_assoc]
    rw [show ∀ l : List Byte, ([ty] ++ l).drop 1 = l by intro l; rfl]
    dsimp only
    rw [extract_timed_enc]
    refine ⟨rfl, rfl, ?_, rfl⟩
    simp; omega

/-- **C31** The length field holds only the lowest 32 bits: a message of 2^32 bytes is announced as empty, although
its payload is sent. -/
theorem C31_long_message_announced_wrongly (big : Bool) (buffer : List Byte) (hb : buffer.length = 21) (ty : Byte)
    (p f : BitVec 16) (t : WTag) :
    (extract_timed_header big ((tagged_header buffer ty p f (BitVec.ofNat 64 (2 ^ 32)) t).drop 1)).length = 0#32 := by
  rw [tagged_header_eq buffer hb, List.append_assoc, List.append_assoc, List.append_assoc]
  rw [show ∀ l : List Byte, ([ty] ++ l).drop 1 = l by intro l; rfl]
  have := extract_timed_enc big p f ((BitVec.ofNat 64 (2 ^ 32)).setWidth 32) t []
  simp only [List.append_nil] at this
  rw [this]
  show BitVec.setWidth 32 (BitVec.ofNat 64 (2 ^ 32)) = 0#32
  decide

/-- The bytes of a number in reverse. -/
theorem swap_big (x : BitVec 64) : swap_bytes_if_big_endian_int64 true x = BitVec.ofNat 64 (fromLE (toLE 8 x.toNat).reverse) := by
  unfold swap_bytes_if_big_endian_int64
  rw [host_big]
  simp only [not_true_eq_false, if_false]
  rw [len8 (by simp [store, toLE_length])]
  simp [store, load]

/-- **C31** The start time message is the exception: on a little-endian RTI it comes back, on a big-endian RTI the
federates read its bytes in reverse order. -/
theorem C31_start_time_partial (big : Bool) (x : BitVec 64) :
    extract_int64 big (start_time_message false x ++ []) = x ∧
    extract_int64 big (start_time_message true x ++ []) = BitVec.ofNat 64 (fromLE (encode_int64 x).reverse) := by
  refine ⟨?_, ?_⟩
  · unfold start_time_message swap_bytes_if_big_endian_int64
    rw [host_big]; simp only [Bool.false_eq_true, not_false_eq_true, if_true]
    exact C31_int64_roundtrip _ _ _
  · unfold start_time_message
    rw [C31_int64_roundtrip, swap_big, encode_int64_eq]

theorem C31_start_time_wrong_on_big_endian_rti : ∃ x : BitVec 64, ∀ big, extract_int64 big (start_time_message true x ++ []) ≠ x :=
  ⟨1#64, by decide +kernel⟩

example : encode_int64 (BitVec.ofInt 64 (-2)) = [0xfe#8, 0xff#8, 0xff#8, 0xff#8, 0xff#8, 0xff#8, 0xff#8, 0xff#8] := by decide
example : (List.replicate 21 (0xaa#8)).length = 21 ∧ (1000#64).toNat < 2 ^ 32 := by decide

end ReactorC.Net
