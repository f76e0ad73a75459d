import Verif.Md5.Lemmas
/-! # Properties of MD5 -/
namespace Verif.Md5
open Verif.Hash Verif.Bits

/-! ## C50 -/

/-- One call of `md5_append` for each chunk, with its length. -/
def feed (m : Sem) (s : State) : List (List Byte) → Outcome State
  | [] => .ok s
  | c :: cs => do
    let s ← append m s c c.length
    feed m s cs

theorem feed_ok (m : Sem) : ∀ (cs : List (List Byte)) (s : State) (msg : List Byte), Inv s msg → (∀ c ∈ cs, c.length ≤ limit m) →
    ∃ s', feed m s cs = .ok s' ∧ Inv s' (msg ++ cs.flatten) := by
  intro cs
  induction cs with
  | nil => intro s msg h _; exact ⟨s, rfl, by simpa using h⟩
  | cons c cs ih =>
    intro s msg h hc
    obtain ⟨s1, h1, h2⟩ := append_ok m s msg c c.length h (by omega) (hc c (List.mem_cons_self ..))
    rw [List.take_length] at h2
    obtain ⟨s2, h3, h4⟩ := ih s1 (msg ++ c) h2 fun d hd => hc d (List.mem_cons_of_mem _ hd)
    refine ⟨s2, ?_, by rw [List.flatten_cons, ← List.append_assoc]; exact h4⟩
    unfold feed
    rw [h1, Outcome.bind_eq, Outcome.bind_ok, h3]

theorem bytes_eq (w : Word) : bytes w = (List.range 4).map fun i => BitVec.ofNat 8 (w.toNat / 256 ^ i) := by
  have e : ∀ k, (w >>> (8 * k)).setWidth 8 = BitVec.ofNat 8 (w.toNat / 256 ^ k) := by
    intro k
    apply BitVec.eq_of_toNat_eq
    rw [BitVec.toNat_setWidth, BitVec.toNat_ushiftRight, BitVec.toNat_ofNat, Nat.shiftRight_eq_div_pow, Nat.pow_mul]
  have h0 := e 0
  have h1 := e 1
  have h2 := e 2
  have h3 := e 3
  simp only [Nat.mul_zero, BitVec.ushiftRight_zero, Nat.mul_one, Nat.reduceMul] at h0 h1 h2 h3
  unfold bytes
  rw [h0, h1, h2, h3]
  rfl

theorem ofNat8_congr {a b : Nat} (h : a % 256 = b % 256) : BitVec.ofNat 8 a = BitVec.ofNat 8 b := by
  apply BitVec.eq_of_toNat_eq
  rw [BitVec.toNat_ofNat, BitVec.toNat_ofNat]
  exact h

theorem length_bytes (c0 c1 : Word) (n : Nat) (h : c1.toNat * 2 ^ 32 + c0.toNat = n % 2 ^ 64) : bytes c0 ++ bytes c1 = RFC.length64 n := by
  have h0 := c0.isLt
  have h1 := c1.isLt
  have e1 : c0.toNat = n % 2 ^ 32 := by omega
  have e2 : c1.toNat = n / 2 ^ 32 % 2 ^ 32 := by omega
  rw [bytes_eq, bytes_eq, e1, e2]
  unfold RFC.length64
  rw [show List.range 8 = [0, 1, 2, 3, 4, 5, 6, 7] from rfl, show List.range 4 = [0, 1, 2, 3] from rfl]
  simp only [List.map_cons, List.map_nil, List.cons_append, List.nil_append, Nat.reducePow]
  rw [ofNat8_congr (show n % 4294967296 / 1 % 256 = n / 1 % 256 by omega), ofNat8_congr (show n % 4294967296 / 256 % 256 = n / 256 % 256 by omega),
    ofNat8_congr (show n % 4294967296 / 65536 % 256 = n / 65536 % 256 by omega),
    ofNat8_congr (show n % 4294967296 / 16777216 % 256 = n / 16777216 % 256 by omega),
    ofNat8_congr (show n / 4294967296 % 4294967296 / 1 % 256 = n / 4294967296 % 256 by omega),
    ofNat8_congr (show n / 4294967296 % 4294967296 / 256 % 256 = n / 1099511627776 % 256 by omega),
    ofNat8_congr (show n / 4294967296 % 4294967296 / 65536 % 256 = n / 281474976710656 % 256 by omega),
    ofNat8_congr (show n / 4294967296 % 4294967296 / 16777216 % 256 = n / 72057594037927936 % 256 by omega)]

theorem pad_length (c : Word) (n : Nat) (h : c.toNat / 8 % 64 = n % 64) :
    (((55#32 - (c >>> 3)) &&& 63#32) + 1#32).toInt = (((119 - n % 64) % 64 + 1 : Nat) : Int) := by
  have hc := c.isLt
  have e : (((55#32 - (c >>> 3)) &&& 63#32) + 1#32).toNat = (119 - n % 64) % 64 + 1 := by
    rw [BitVec.toNat_add, BitVec.toNat_and, show (63#32).toNat = 2 ^ 6 - 1 from rfl, Nat.and_two_pow_sub_one_eq_mod, BitVec.toNat_sub,
      BitVec.toNat_ushiftRight, Nat.shiftRight_eq_div_pow, show (1#32).toNat = 1 from rfl, show (55#32).toNat = 55 from rfl]
    omega
  rw [BitVec.toInt_eq_toNat_of_lt (by omega), e]

theorem finish_ok (m : Sem) (s : State) (msg : List Byte) (h : Inv s msg) : ∃ s', finish m s = .ok (s', RFC.md5 msg) ∧ Inv s' (RFC.padded msg) := by
  have hcount := h.count
  have hoff : s.count0.toNat / 8 % 64 = msg.length % 64 := by
    have := s.count0.isLt
    have := s.count1.isLt
    omega
  have hk : (119 - msg.length % 64) % 64 + 1 ≤ 64 := by omega
  generalize hkk : (119 - msg.length % 64) % 64 = k at *
  have hlim : 64 ≤ limit m := by cases m <;> simp only [limit] <;> omega
  obtain ⟨s1, a1, a2⟩ := append_ok m s msg pad (k + 1) h (by unfold pad; rw [List.length_cons, List.length_replicate]; omega) (by omega)
  have hlb := length_bytes s.count0 s.count1 _ hcount
  obtain ⟨s2, b1, b2⟩ := append_ok m s1 _ (RFC.length64 (8 * msg.length)) 8 a2 (by simp [RFC.length64]) (by omega)
  have hpad : (msg ++ pad.take (k + 1)) ++ (RFC.length64 (8 * msg.length)).take 8 = RFC.padded msg := by
    unfold RFC.padded
    rw [hkk]
    unfold pad
    rw [List.take_succ_cons, List.take_replicate, Nat.min_eq_left (by omega), List.take_of_length_le (by simp [RFC.length64])]
    simp only [List.append_assoc, List.cons_append, List.nil_append]
    rfl
  rw [hpad] at b2
  refine ⟨s2, ?_, b2⟩
  unfold finish
  rw [pad_length s.count0 msg.length hoff, hkk, a1, Outcome.bind_eq, Outcome.bind_ok, hlb]
  have b1' : append m s1 (RFC.length64 (8 * msg.length)) 8 = .ok s2 := b1
  rw [b1', Outcome.bind_eq, Outcome.bind_ok]
  have hh := b2.holds.hash
  unfold RFC.md5
  rw [← hh]
  unfold RFC.output abcd
  simp only [List.flatMap_cons, List.flatMap_nil, List.append_nil]
  rw [bytes_eq, bytes_eq, bytes_eq, bytes_eq]
  simp only [List.append_assoc]

/-- Feeding a message in any chunks and finishing gives the MD5 digest of RFC 1321
of the whole message, of any length. `limit m` is what one call can take: below 2^29
bytes in ISO C++, up to 2^31 - 64 bytes when shifts wrap. -/
theorem C50_streaming (m : Sem) (buf : List Byte) (hb : buf.length = 64) (chunks : List (List Byte)) (hc : ∀ c ∈ chunks, c.length ≤ limit m) :
    ∃ s s', feed m (init buf) chunks = .ok s ∧ finish m s = .ok (s', RFC.md5 chunks.flatten) := by
  obtain ⟨s, h1, h2⟩ := feed_ok m chunks (init buf) [] (init_inv buf hb) hc
  obtain ⟨s', h3, _⟩ := finish_ok m s _ h2
  exact ⟨s, s', h1, h3⟩

example : ∀ c ∈ [List.replicate 70 0x61#8, [], [0x62#8]], c.length ≤ limit .strict := by decide +kernel
example : (feed .strict (init (List.replicate 64 0)) [[0x61], [], [0x62, 0x63]]).bind (fun s => (finish .strict s).bind fun r => .ok r.2) =
    .ok [0x90, 0x01, 0x50, 0x98, 0x3c, 0xd2, 0x4f, 0xb0, 0xd6, 0x96, 0x3f, 0x7d, 0x28, 0xe1, 0x7f, 0x72] := by decide +kernel

/-- A length that is not positive leaves the state alone, where negative left
shifts are not undefined. -/
theorem C50_nothing (s : State) (data : List Byte) (n : Int) (h : n ≤ 0) : append .wrap s data n = .ok s := by
  unfold append
  have : shl .wrap (BitVec.ofInt 32 n) 3 = .ok (BitVec.ofInt 32 n <<< 3) := rfl
  rw [this, Outcome.bind_eq, Outcome.bind_ok, if_pos h]

/-! ## C81: large chunks -/

/-- A chunk of 2^29 bytes or more is undefined in ISO C++ ... -/
theorem C81_shift_wrong (s : State) (data : List Byte) (n : Nat) (h : 2 ^ 29 ≤ n) (h' : n < 2 ^ 31) : append .strict s data n = .ub := by
  unfold append
  have : shl .strict (BitVec.ofInt 32 (n : Int)) 3 = .ub := by
    unfold shl
    have hnb : (BitVec.ofInt 32 (n : Int)).toNat = n := by
      rw [BitVec.ofInt_natCast, BitVec.toNat_ofNat]; omega
    have h3 : 2 ^ 32 ≤ (BitVec.ofInt 32 (n : Int)).toNat * 2 ^ (3 : Int).toNat := by
      rw [hnb, show (3 : Int).toNat = 3 from rfl]
      omega
    exact if_pos ⟨rfl, Or.inr (Or.inr (Or.inr h3))⟩
  rw [this]
  rfl

/-- ... and on x86-64 too for the last 63 lengths, when bytes are waiting in the
buffer: the sum of line 338 overflows. -/
theorem C81_sum_wrong (m : Sem) (s : State) (msg data : List Byte) (n : Nat) (hs : Inv s msg) (h0 : msg.length % 64 ≠ 0)
    (h : 2 ^ 31 - msg.length % 64 ≤ n) (h' : n < 2 ^ 31) : append m s data n = .ub := by
  cases m with
  | strict => exact C81_shift_wrong s data n (by omega) h'
  | wrap =>
    unfold append
    have : shl .wrap (BitVec.ofInt 32 (n : Int)) 3 = .ok (BitVec.ofInt 32 (n : Int) <<< 3) := rfl
    rw [this, Outcome.bind_eq, Outcome.bind_ok, if_neg (by omega)]
    have hc := hs.count
    have hoff : ((s.count0 >>> 3) &&& 63#32).toNat = msg.length % 64 := by
      rw [offset_eq]
      have := s.count0.isLt
      have := s.count1.isLt
      omega
    simp only
    rw [hoff]
    unfold appendData
    rw [if_pos h0]
    have : chk32 (((msg.length % 64 : Nat) : Int) + (n : Int)) = .ub := by
      unfold chk32
      rw [if_neg]
      unfold INT_MAX
      omega
    rw [this]
    rfl

/-- Any other length is fine on x86-64. -/
theorem C81_chunk_partial (s : State) (msg data : List Byte) (hs : Inv s msg) (h : data.length ≤ 2 ^ 31 - 64) :
    ∃ s', append .wrap s data data.length = .ok s' ∧ Inv s' (msg ++ data) := by
  obtain ⟨s', h1, h2⟩ := append_ok .wrap s msg data data.length hs (by omega) h
  rw [List.take_length] at h2
  exact ⟨s', h1, h2⟩

example : Inv (init (List.replicate 64 0)) [] := init_inv _ (by decide)

end Verif.Md5
