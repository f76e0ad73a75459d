import Verif.Sha1.Lemmas
/-! # Properties of SHA-1 -/
namespace Verif.Sha1
open Verif.Hash

/-! ## C51 -/

/-- One call of `SHA1_Update` for each chunk, with its length. -/
def feed (ctx : Ctx) : List (List Byte) → Outcome Ctx
  | [] => .ok ctx
  | c :: cs => do
    let ctx ← update ctx c c.length
    feed ctx cs

theorem feed_ok : ∀ (cs : List (List Byte)) (ctx : Ctx) (msg : List Byte), Inv ctx msg →
    ∃ ctx', feed ctx cs = .ok ctx' ∧ Inv ctx' (msg ++ cs.flatten) := by
  intro cs
  induction cs with
  | nil => intro ctx msg h; exact ⟨ctx, rfl, by simpa using h⟩
  | cons c cs ih =>
    intro ctx msg h
    obtain ⟨c1, h1, h2⟩ := update_ok ctx msg c c.length h (Nat.le_refl _)
    rw [List.take_length] at h2
    obtain ⟨c2, h3, h4⟩ := ih c1 (msg ++ c) h2
    refine ⟨c2, ?_, by rw [List.flatten_cons, ← List.append_assoc]; exact h4⟩
    unfold feed
    rw [h1, Outcome.bind_eq, Outcome.bind_ok, h3]

theorem ofNat8_congr {a b : Nat} (h : a % 256 = b % 256) : BitVec.ofNat 8 a = BitVec.ofNat 8 b := by
  apply BitVec.eq_of_toNat_eq
  rw [BitVec.toNat_ofNat, BitVec.toNat_ofNat]
  exact h

theorem lenByte_eq (w : Word) (k : Nat) : ((w >>> (8 * k)) &&& 255#32).setWidth 8 = BitVec.ofNat 8 (w.toNat / 256 ^ k) := by
  apply BitVec.eq_of_toNat_eq
  rw [BitVec.toNat_setWidth, BitVec.toNat_and, BitVec.toNat_ushiftRight, BitVec.toNat_ofNat, Nat.shiftRight_eq_div_pow, Nat.pow_mul,
    show 255 % 2 ^ 32 = 2 ^ 8 - 1 from rfl, Nat.and_two_pow_sub_one_eq_mod, Nat.mod_mod, BitVec.toNat_ofNat]

theorem lenBytes_eq (w : Word) : lenBytes w = (List.range 4).map fun i => BitVec.ofNat 8 (w.toNat / 256 ^ (3 - i)) := by
  have h0 := lenByte_eq w 0
  have h1 := lenByte_eq w 1
  have h2 := lenByte_eq w 2
  have h3 := lenByte_eq w 3
  simp only [Nat.mul_zero, Nat.mul_one, Nat.reduceMul] at h0 h1 h2 h3
  unfold lenBytes
  rw [h0, h1, h2, h3]
  rfl

theorem hashBytes_eq (w : Word) : hashBytes w = (List.range 4).map fun i => BitVec.ofNat 8 (w.toNat / 256 ^ (3 - i)) := by
  have hw := w.isLt
  unfold hashBytes
  rw [show List.range 4 = [0, 1, 2, 3] from rfl]
  simp only [List.map_cons, List.map_nil, Nat.reducePow, Nat.reduceSub]
  have e : ∀ (v : Word) (n : Nat), v.toNat / 2 ^ 24 % 256 = n % 256 → (v >>> 24).setWidth 8 = BitVec.ofNat 8 n := by
    intro v n h
    apply BitVec.eq_of_toNat_eq
    rw [BitVec.toNat_setWidth, BitVec.toNat_ushiftRight, BitVec.toNat_ofNat, Nat.shiftRight_eq_div_pow]
    exact h
  have s : ∀ v : Word, (v <<< 8).toNat = v.toNat * 2 ^ 8 % 2 ^ 32 := by
    intro v
    rw [BitVec.toNat_shiftLeft, Nat.shiftLeft_eq]
  rw [e w (w.toNat / 16777216) (by omega), e (w <<< 8) (w.toNat / 65536) (by rw [s]; omega),
    e ((w <<< 8) <<< 8) (w.toNat / 256) (by rw [s, s]; omega), e (((w <<< 8) <<< 8) <<< 8) (w.toNat / 1) (by rw [s, s, s]; omega)]

theorem length_bytes (hi lo : Word) (n : Nat) (h : hi.toNat * 2 ^ 32 + lo.toNat = n % 2 ^ 64) : lenBytes hi ++ lenBytes lo = FIPS.length64 n := by
  have h0 := lo.isLt
  have h1 := hi.isLt
  have e1 : lo.toNat = n % 2 ^ 32 := by omega
  have e2 : hi.toNat = n / 2 ^ 32 % 2 ^ 32 := by omega
  rw [lenBytes_eq, lenBytes_eq, e1, e2]
  unfold FIPS.length64
  rw [show List.range 8 = [0, 1, 2, 3, 4, 5, 6, 7] from rfl, show List.range 4 = [0, 1, 2, 3] from rfl]
  simp only [List.map_cons, List.map_nil, List.cons_append, List.nil_append, Nat.reducePow, Nat.reduceSub]
  rw [ofNat8_congr (show n % 4294967296 / 1 % 256 = n / 1 % 256 by omega), ofNat8_congr (show n % 4294967296 / 256 % 256 = n / 256 % 256 by omega),
    ofNat8_congr (show n % 4294967296 / 65536 % 256 = n / 65536 % 256 by omega),
    ofNat8_congr (show n % 4294967296 / 16777216 % 256 = n / 16777216 % 256 by omega),
    ofNat8_congr (show n / 4294967296 % 4294967296 / 1 % 256 = n / 4294967296 % 256 by omega),
    ofNat8_congr (show n / 4294967296 % 4294967296 / 256 % 256 = n / 1099511627776 % 256 by omega),
    ofNat8_congr (show n / 4294967296 % 4294967296 / 65536 % 256 = n / 281474976710656 % 256 by omega),
    ofNat8_congr (show n / 4294967296 % 4294967296 / 16777216 % 256 = n / 72057594037927936 % 256 by omega)]

theorem final_ok (fuel : Nat) (hf : 64 ≤ fuel) (ctx : Ctx) (msg : List Byte) (h : Inv ctx msg) : final fuel ctx = .ok (init, FIPS.sha1 msg) := by
  have hlb := length_bytes ctx.sizeHi ctx.sizeLo _ h.size
  generalize hkk : (119 - msg.length % 64) % 64 = k
  obtain ⟨c1, a1, a2⟩ := update_ok ctx msg [0x80#8] 1 h (by decide)
  obtain ⟨c2, b1, b2⟩ := padZeros_ok k fuel c1 _ a2 (by
    rw [List.take_of_length_le (by decide), List.length_append, List.length_singleton]; omega) (by omega) (by omega)
  obtain ⟨c3, d1, d2⟩ := update_ok c2 _ (FIPS.length64 (8 * msg.length)) 8 b2 (by simp [FIPS.length64])
  have hpad : (msg ++ [0x80#8].take 1 ++ List.replicate k 0#8) ++ (FIPS.length64 (8 * msg.length)).take 8 = FIPS.padded msg := by
    unfold FIPS.padded
    rw [hkk, List.take_of_length_le (by simp [FIPS.length64])]
    rfl
  rw [hpad] at d2
  have a1' : update ctx [0x80#8] 1 = .ok c1 := a1
  have d1' : update c2 (FIPS.length64 (8 * msg.length)) 8 = .ok c3 := d1
  unfold final
  rw [a1', Outcome.bind_eq, Outcome.bind_ok, b1, Outcome.bind_eq, Outcome.bind_ok, hlb, d1', Outcome.bind_eq, Outcome.bind_ok]
  have hh := d2.hash
  unfold FIPS.sha1
  rw [← hh]
  unfold FIPS.output words
  simp only [List.flatMap_cons, List.flatMap_nil, List.append_nil]
  rw [hashBytes_eq, hashBytes_eq, hashBytes_eq, hashBytes_eq, hashBytes_eq]
  simp only [List.append_assoc]

/-- Feeding a message in any chunks and finishing gives the SHA-1 digest of FIPS 180
of the whole message, and the context is as new. -/
theorem C51_streaming (chunks : List (List Byte)) (fuel : Nat) (hf : 64 ≤ fuel) :
    ∃ ctx, feed init chunks = .ok ctx ∧ final fuel ctx = .ok (init, FIPS.sha1 chunks.flatten) := by
  obtain ⟨ctx, h1, h2⟩ := feed_ok chunks init [] init_inv
  exact ⟨ctx, h1, final_ok fuel hf ctx _ h2⟩

example : (feed init [[0x61], [], [0x62, 0x63]]).bind (fun s => (final 64 s).bind fun r => .ok r.2) =
    .ok [0xa9, 0x99, 0x3e, 0x36, 0x47, 0x06, 0x81, 0x6a, 0xba, 0x3e, 0x25, 0x71, 0x78, 0x50, 0xc2, 0x6c, 0x9c, 0xd0, 0xd8, 0x9d] := by decide +kernel

/-- A length that is not positive leaves the context alone. -/
theorem C51_nothing (ctx : Ctx) (data : List Byte) (n : Int) (h : n ≤ 0) : update ctx data n = .ok ctx := by
  unfold update
  rw [show n.toNat = 0 by omega]
  rfl

example : (0 : Int) ≤ 0 := by decide

end Verif.Sha1
