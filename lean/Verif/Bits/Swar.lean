import Verif.Bits.Lemmas
import Verif.CStr
/-! # Counting bits in parallel (Long.bitCount): byte-by-byte argument -/
namespace Verif.Bits
open Verif.CInt

/-- The byte `c` repeated `n` times. -/
def rep (c : Nat) : Nat → Nat
  | 0 => 0
  | n + 1 => 256 * rep c n + c

def s1 (n x : Nat) : Nat := x - (x >>> 1 &&& rep 0x55 n)
def s2 (n y : Nat) : Nat := (y &&& rep 0x33 n) + (y >>> 2 &&& rep 0x33 n)
def s3 (n z : Nat) : Nat := (z + z >>> 4) &&& rep 0x0f n

def b1 (b : Nat) : Nat := b - (b >>> 1 &&& 0x55)
def b2 (b : Nat) : Nat := (b &&& 0x33) + (b >>> 2 &&& 0x33)

/-- One-bits among the low `k` bits of a number. -/
def pcN (k n : Nat) : Nat := ((List.range k).filter fun j => n.testBit j).length

theorem and_shift {s c : Nat} (a b M : Nat) (hb : b < 256) (hc : c < 2 ^ (8 - s)) (hs : s ≤ 8) :
    (256 * a + b) >>> s &&& (256 * M + c) = 256 * (a >>> s &&& M) + (b >>> s &&& c) := by
  have hc8 : c < 2 ^ 8 := Nat.lt_of_lt_of_le hc (Nat.pow_le_pow_right (by omega) (by omega))
  have hlow : (b >>> s &&& c) < 2 ^ 8 := Nat.lt_of_le_of_lt Nat.and_le_right hc8
  apply Nat.eq_of_testBit_eq
  intro j
  have e256 : (256 : Nat) = 2 ^ 8 := rfl
  rw [Nat.testBit_and, Nat.testBit_shiftRight, e256, Nat.testBit_two_pow_mul_add a (by omega),
    Nat.testBit_two_pow_mul_add M hc8, Nat.testBit_two_pow_mul_add _ hlow, Nat.testBit_and, Nat.testBit_and,
    Nat.testBit_shiftRight, Nat.testBit_shiftRight]
  by_cases hj : j < 8
  · simp only [hj, if_true]
    by_cases hsj : s + j < 8
    · simp only [hsj, if_true]
    · have : c.testBit j = false := by
        apply Nat.testBit_lt_two_pow
        exact Nat.lt_of_lt_of_le hc (Nat.pow_le_pow_right (by omega) (by omega))
      simp [this]
  · have h1 : ¬ s + j < 8 := by omega
    simp only [hj, if_false, h1]
    congr 2
    omega

theorem s1_succ (n a b : Nat) (hb : b < 256) : s1 (n + 1) (256 * a + b) = 256 * s1 n a + b1 b := by
  unfold s1 b1
  rw [rep, and_shift a b _ hb (by decide) (by omega)]
  have h1 : (a >>> 1 &&& rep 0x55 n) ≤ a :=
    Nat.le_trans Nat.and_le_left (by rw [Nat.shiftRight_eq_div_pow]; exact Nat.div_le_self _ _)
  have h2 : (b >>> 1 &&& 0x55) ≤ b :=
    Nat.le_trans Nat.and_le_left (by rw [Nat.shiftRight_eq_div_pow]; exact Nat.div_le_self _ _)
  omega

theorem s2_succ (n a b : Nat) (hb : b < 256) : s2 (n + 1) (256 * a + b) = 256 * s2 n a + b2 b := by
  unfold s2 b2
  rw [rep, and_shift a b _ hb (by decide) (by omega)]
  have h := and_shift (s := 0) (c := 0x33) a b (rep 0x33 n) hb (by decide) (by omega)
  simp only [Nat.shiftRight_zero] at h
  rw [h]
  omega

/-- Every nibble of the `n` bytes is at most 4. -/
def Good : Nat → Nat → Prop
  | 0, z => z = 0
  | n + 1, z => z % 16 ≤ 4 ∧ z / 16 % 16 ≤ 4 ∧ Good n (z / 256)

theorem good_low {n z : Nat} (h : Good n z) : z % 16 ≤ 4 := by
  cases n with
  | zero => simp [Good] at h; simp [h]
  | succ n => exact h.1

theorem s3_succ (n a b : Nat) (hb : b < 256) (h1 : b % 16 ≤ 4) (h2 : b / 16 ≤ 4) (ha : Good n a) :
    s3 (n + 1) (256 * a + b) = 256 * s3 n a + (b % 16 + b / 16) := by
  have ha' := good_low ha
  unfold s3
  rw [rep]
  have e : 256 * a + b + (256 * a + b) >>> 4 = 256 * (a + a >>> 4) + (16 * (a % 16 + b / 16) + (b % 16 + b / 16)) := by
    rw [Nat.shiftRight_eq_div_pow, Nat.shiftRight_eq_div_pow]
    simp only [show (2 : Nat) ^ 4 = 16 from rfl]
    omega
  have h := and_shift (s := 0) (c := 0x0f) (a + a >>> 4) (16 * (a % 16 + b / 16) + (b % 16 + b / 16)) (rep 0x0f n)
    (by omega) (by decide) (by omega)
  simp only [Nat.shiftRight_zero] at h
  rw [e, h]
  have h15 : (16 * (a % 16 + b / 16) + (b % 16 + b / 16)) &&& 0x0f = b % 16 + b / 16 := by
    rw [show (0x0f : Nat) = 2 ^ 4 - 1 from rfl, Nat.and_two_pow_sub_one_eq_mod]
    simp only [show (2 : Nat) ^ 4 = 16 from rfl]
    omega
  rw [h15]

theorem byte_facts (b : Nat) (hb : b < 256) :
    b1 b < 256 ∧ b2 (b1 b) < 256 ∧ b2 (b1 b) % 16 ≤ 4 ∧ b2 (b1 b) / 16 ≤ 4 ∧
    b2 (b1 b) % 16 + b2 (b1 b) / 16 = pcN 8 b := by
  have key : ∀ n : Fin 256, b1 n.val < 256 ∧ b2 (b1 n.val) < 256 ∧ b2 (b1 n.val) % 16 ≤ 4 ∧
      b2 (b1 n.val) / 16 ≤ 4 ∧ b2 (b1 n.val) % 16 + b2 (b1 n.val) / 16 = pcN 8 n.val := by decide +kernel
  exact key ⟨b, hb⟩

theorem swar_succ (n a b : Nat) (hb : b < 256) (hg : Good n (s2 n (s1 n a))) :
    s3 (n + 1) (s2 (n + 1) (s1 (n + 1) (256 * a + b))) = 256 * s3 n (s2 n (s1 n a)) + pcN 8 b ∧
    Good (n + 1) (s2 (n + 1) (s1 (n + 1) (256 * a + b))) := by
  obtain ⟨h1, h2, h3, h4, h5⟩ := byte_facts b hb
  rw [s1_succ n a b hb, s2_succ n _ _ h1, s3_succ n _ _ h2 h3 h4 hg, h5]
  refine ⟨rfl, ?_⟩
  have e : (256 * s2 n (s1 n a) + b2 (b1 b)) / 256 = s2 n (s1 n a) := by omega
  refine ⟨by omega, by omega, ?_⟩
  rw [e]; exact hg

theorem pcN_split (k a b : Nat) (hb : b < 256) : pcN (8 + k) (256 * a + b) = pcN 8 b + pcN k a := by
  unfold pcN
  have e256 : (256 : Nat) = 2 ^ 8 := rfl
  rw [List.range_add, List.filter_append, List.length_append, List.filter_map, List.length_map]
  congr 2
  · apply List.filter_congr
    intro j hj
    have : j < 8 := by simpa using hj
    rw [e256, Nat.testBit_two_pow_mul_add a (by omega)]; simp [this]
  · apply List.filter_congr
    intro j _
    simp only [Function.comp]
    rw [e256, Nat.testBit_two_pow_mul_add a (by omega), if_neg (by omega)]; simp

theorem pcN_le8 (b : Nat) (hb : b < 256) : pcN 8 b ≤ 8 := by
  obtain ⟨_, _, h3, h4, h5⟩ := byte_facts b hb
  omega

theorem lin1 (v0 v1 v2 v3 v4 v5 v6 v7 : Nat) :
    256 * (256 * (256 * (256 * (256 * (256 * (256 * (256 * 0 + v7) + v6) + v5) + v4) + v3) + v2) + v1) + v0 =
    v0 + 256 * (v1 + 256 * (v2 + 256 * (v3 + 256 * (v4 + 256 * (v5 + 256 * (v6 + 256 * v7)))))) := by
  omega

theorem lin2 (v0 v1 v2 v3 v4 v5 v6 v7 : Nat) :
    v0 + v1 + v2 + v3 + v4 + v5 + v6 + v7 = v0 + (v1 + (v2 + (v3 + (v4 + (v5 + (v6 + v7)))))) := by omega

/-- The first three statements turn the word into its bytes' bit counts. -/
theorem swar_bytes (x : Nat) (hx : x < 2 ^ 64) :
    ∃ v0 v1 v2 v3 v4 v5 v6 v7 : Nat,
      s3 8 (s2 8 (s1 8 x)) = v0 + 256 * (v1 + 256 * (v2 + 256 * (v3 + 256 * (v4 + 256 * (v5 + 256 * (v6 + 256 * v7)))))) ∧
      (v0 ≤ 8 ∧ v1 ≤ 8 ∧ v2 ≤ 8 ∧ v3 ≤ 8 ∧ v4 ≤ 8 ∧ v5 ≤ 8 ∧ v6 ≤ 8 ∧ v7 ≤ 8) ∧
      v0 + v1 + v2 + v3 + v4 + v5 + v6 + v7 = pcN 64 x ∧ Good 8 (s2 8 (s1 8 x)) := by
  have dec : ∀ y : Nat, y = 256 * (y / 256) + y % 256 := fun y => by omega
  have m : ∀ y : Nat, y % 256 < 256 := fun y => Nat.mod_lt _ (by omega)
  have z0 : x / 256 / 256 / 256 / 256 / 256 / 256 / 256 / 256 = 0 := by
    simp only [show (2 : Nat) ^ 64 = 18446744073709551616 from rfl] at hx; omega
  have g0 : Good 0 (s2 0 (s1 0 (x / 256 / 256 / 256 / 256 / 256 / 256 / 256 / 256))) := by
    rw [z0]; show s2 0 (s1 0 0) = 0; decide
  have t0 : s3 0 (s2 0 (s1 0 (x / 256 / 256 / 256 / 256 / 256 / 256 / 256 / 256))) = 0 := by rw [z0]; decide
  obtain ⟨t1, g1⟩ := swar_succ 0 _ (x / 256 / 256 / 256 / 256 / 256 / 256 / 256 % 256) (m _) g0
  rw [← dec, t0] at t1; rw [← dec] at g1
  obtain ⟨t2, g2⟩ := swar_succ 1 _ (x / 256 / 256 / 256 / 256 / 256 / 256 % 256) (m _) g1
  rw [← dec, t1] at t2; rw [← dec] at g2
  obtain ⟨t3, g3⟩ := swar_succ 2 _ (x / 256 / 256 / 256 / 256 / 256 % 256) (m _) g2
  rw [← dec, t2] at t3; rw [← dec] at g3
  obtain ⟨t4, g4⟩ := swar_succ 3 _ (x / 256 / 256 / 256 / 256 % 256) (m _) g3
  rw [← dec, t3] at t4; rw [← dec] at g4
  obtain ⟨t5, g5⟩ := swar_succ 4 _ (x / 256 / 256 / 256 % 256) (m _) g4
  rw [← dec, t4] at t5; rw [← dec] at g5
  obtain ⟨t6, g6⟩ := swar_succ 5 _ (x / 256 / 256 % 256) (m _) g5
  rw [← dec, t5] at t6; rw [← dec] at g6
  obtain ⟨t7, g7⟩ := swar_succ 6 _ (x / 256 % 256) (m _) g6
  rw [← dec, t6] at t7; rw [← dec] at g7
  obtain ⟨t8, g8⟩ := swar_succ 7 _ (x % 256) (m _) g7
  rw [← dec, t7] at t8; rw [← dec] at g8
  have p : pcN 64 x = pcN 8 (x % 256) + (pcN 8 (x / 256 % 256) + (pcN 8 (x / 256 / 256 % 256) +
      (pcN 8 (x / 256 / 256 / 256 % 256) + (pcN 8 (x / 256 / 256 / 256 / 256 % 256) +
      (pcN 8 (x / 256 / 256 / 256 / 256 / 256 % 256) + (pcN 8 (x / 256 / 256 / 256 / 256 / 256 / 256 % 256) +
      pcN 8 (x / 256 / 256 / 256 / 256 / 256 / 256 / 256 % 256))))))) := by
    have q : ∀ k y, pcN (8 + k) y = pcN 8 (y % 256) + pcN k (y / 256) := fun k y => by
      have := pcN_split k (y / 256) (y % 256) (m y); rw [← dec] at this; exact this
    have hlast : x / 256 / 256 / 256 / 256 / 256 / 256 / 256 < 256 := by omega
    rw [q 56 x, q 48, q 40, q 32, q 24, q 16, q 8, Nat.mod_eq_of_lt hlast]
  refine ⟨pcN 8 (x % 256), pcN 8 (x / 256 % 256), pcN 8 (x / 256 / 256 % 256), pcN 8 (x / 256 / 256 / 256 % 256),
    pcN 8 (x / 256 / 256 / 256 / 256 % 256), pcN 8 (x / 256 / 256 / 256 / 256 / 256 % 256),
    pcN 8 (x / 256 / 256 / 256 / 256 / 256 / 256 % 256), pcN 8 (x / 256 / 256 / 256 / 256 / 256 / 256 / 256 % 256),
    ?_, ⟨pcN_le8 _ (m _), pcN_le8 _ (m _), pcN_le8 _ (m _), pcN_le8 _ (m _),
    pcN_le8 _ (m _), pcN_le8 _ (m _), pcN_le8 _ (m _), pcN_le8 _ (m _)⟩, ?_, g8⟩
  · rw [t8]; exact lin1 _ _ _ _ _ _ _ _
  · rw [p]; exact lin2 _ _ _ _ _ _ _ _

theorem sum_a2 (v0 v1 v2 v3 v4 v5 v6 v7 : Nat) :
    v0 + 256 * (v1 + 256 * (v2 + 256 * (v3 + 256 * (v4 + 256 * (v5 + 256 * (v6 + 256 * v7)))))) +
      (v1 + 256 * (v2 + 256 * (v3 + 256 * (v4 + 256 * (v5 + 256 * (v6 + 256 * v7)))))) =
    (v0 + v1) + 256 * ((v1 + v2) + 256 * ((v2 + v3) + 256 * ((v3 + v4) + 256 * ((v4 + v5) +
      256 * ((v5 + v6) + 256 * ((v6 + v7) + 256 * v7)))))) := by
  omega
theorem sum_a4 (v0 v1 v2 v3 v4 v5 v6 v7 : Nat) :
    v0 + 256 * (v1 + 256 * (v2 + 256 * (v3 + 256 * (v4 + 256 * (v5 + 256 * (v6 + 256 * v7)))))) +
      (v2 + 256 * (v3 + 256 * (v4 + 256 * (v5 + 256 * (v6 + 256 * v7))))) =
    (v0 + v2) + 256 * ((v1 + v3) + 256 * ((v2 + v4) + 256 * ((v3 + v5) + 256 * ((v4 + v6) +
      256 * ((v5 + v7) + 256 * (v6 + 256 * v7)))))) := by
  omega
theorem sum_d1 {X v0 T : Nat} (h0 : v0 ≤ 64) (e : X = v0 + 256 * T) : X / 256 = T := by omega
theorem sum_d2 {X v0 v1 T : Nat} (h0 : v0 ≤ 64) (h1 : v1 ≤ 64) (e : X = v0 + 256 * (v1 + 256 * T)) :
    X / 65536 = T := by omega
theorem sum_d4 {X v0 v1 v2 v3 T : Nat} (h0 : v0 ≤ 64) (h1 : v1 ≤ 64) (h2 : v2 ≤ 64) (h3 : v3 ≤ 64)
    (e : X = v0 + 256 * (v1 + 256 * (v2 + 256 * (v3 + 256 * T)))) : X / 4294967296 = T := by omega
theorem sum_bound {v0 v1 v2 v3 v4 v5 v6 v7 V : Nat}
    (h0 : v0 ≤ 64) (h1 : v1 ≤ 64) (h2 : v2 ≤ 64) (h3 : v3 ≤ 64) (h4 : v4 ≤ 64) (h5 : v5 ≤ 64) (h6 : v6 ≤ 64) (h7 : v7 ≤ 8)
    (e : V = v0 + 256 * (v1 + 256 * (v2 + 256 * (v3 + 256 * (v4 + 256 * (v5 + 256 * (v6 + 256 * v7))))))) :
    V < 2 ^ 60 := by omega
theorem sum_mod {W D a b c d : Nat} (h : a + c < 128) (eW : W = a + 256 * b) (eD : D = c + 256 * d) :
    (W + D) % 128 = a + c := by omega

theorem sum_bytes (v0 v1 v2 v3 v4 v5 v6 v7 V : Nat)
    (hV : V = v0 + 256 * (v1 + 256 * (v2 + 256 * (v3 + 256 * (v4 + 256 * (v5 + 256 * (v6 + 256 * v7)))))))
    (hb : v0 ≤ 8 ∧ v1 ≤ 8 ∧ v2 ≤ 8 ∧ v3 ≤ 8 ∧ v4 ≤ 8 ∧ v5 ≤ 8 ∧ v6 ≤ 8 ∧ v7 ≤ 8) :
    V < 2 ^ 60 ∧ V + V / 256 < 2 ^ 60 ∧ V + V / 256 + (V + V / 256) / 65536 < 2 ^ 60 ∧
    (V + V / 256 + (V + V / 256) / 65536 + (V + V / 256 + (V + V / 256) / 65536) / 4294967296) % 128 =
      v0 + v1 + v2 + v3 + v4 + v5 + v6 + v7 := by
  obtain ⟨h0, h1, h2, h3, h4, h5, h6, h7⟩ := hb
  have e1 := sum_d1 (by omega) hV
  have e2 := (congr (congrArg HAdd.hAdd hV) e1).trans (sum_a2 v0 v1 v2 v3 v4 v5 v6 v7)
  generalize V + V / 256 = X at e2 ⊢
  have e3 := sum_d2 (by clear hV e1 e2; omega) (by clear hV e1 e2; omega) e2
  have e4 := (congr (congrArg HAdd.hAdd e2) e3).trans <|
    sum_a4 (v0 + v1) (v1 + v2) (v2 + v3) (v3 + v4) (v4 + v5) (v5 + v6) (v6 + v7) v7
  have b1 : V < 2 ^ 60 := by
    clear e1 e2 e3 e4
    exact sum_bound (by omega) (by omega) (by omega) (by omega) (by omega) (by omega) (by omega) h7 hV
  clear hV e1 e3
  have b2 : X < 2 ^ 60 := by
    clear e4
    refine sum_bound ?_ ?_ ?_ ?_ ?_ ?_ ?_ h7 e2 <;> (clear e2; omega)
  clear e2
  generalize X + X / 65536 = W at e4 ⊢
  have e5 := sum_d4 (by clear e4; omega) (by clear e4; omega) (by clear e4; omega) (by clear e4; omega) e4
  have b3 : W < 2 ^ 60 := by
    clear e5
    refine sum_bound ?_ ?_ ?_ ?_ ?_ ?_ ?_ h7 e4 <;> (clear e4; omega)
  refine ⟨b1, b2, b3, ?_⟩
  rw [sum_mod (by clear e4 e5; omega) e4 e5]
  clear e4 e5
  omega

/-! Transfer from words to numbers -/

theorem sar_and (x c : BitVec 64) (s : Nat) (hc : c.toNat < 2 ^ (64 - s)) (hs : s ≤ 64) :
    (x.sshiftRight s &&& c).toNat = (x.toNat >>> s &&& c.toNat) := by
  have : x.sshiftRight s &&& c = x >>> s &&& c := by
    apply BitVec.eq_of_getLsbD_eq
    intro j hj
    rw [BitVec.getLsbD_and, BitVec.getLsbD_and, BitVec.getLsbD_sshiftRight, BitVec.getLsbD_ushiftRight]
    by_cases h : s + j < 64
    · rw [if_pos h, show decide (64 ≤ j) = false by simp; omega]; simp
    · have : c.getLsbD j = false := by
        rw [BitVec.getLsbD]
        apply Nat.testBit_lt_two_pow
        exact Nat.lt_of_lt_of_le hc (Nat.pow_le_pow_right (by omega) (by omega))
      simp [this]
  rw [this, BitVec.toNat_and, BitVec.toNat_ushiftRight]

theorem sar_pos (x : BitVec 64) (s : Nat) (h : x.toNat < 2 ^ 63) : (x.sshiftRight s).toNat = x.toNat / 2 ^ s := by
  have : x.msb = false := by rw [BitVec.msb_eq_false_iff_two_mul_lt]; omega
  rw [BitVec.sshiftRight_eq_of_msb_false this, BitVec.toNat_ushiftRight, Nat.shiftRight_eq_div_pow]

theorem popcount_eq (x : BitVec 64) : popcount x = pcN 64 x.toNat := rfl

/-- Bound on good numbers. -/
theorem good_lt {n z : Nat} (h : Good n z) : 3 * z < 256 ^ n := by
  induction n generalizing z with
  | zero => simp [Good] at h; simp [h]
  | succ n ih =>
    obtain ⟨h1, h2, h3⟩ := h
    have := ih h3
    have e : 256 ^ (n + 1) = 256 * 256 ^ n := by rw [Nat.pow_succ]; omega
    have p : 0 < 256 ^ n := Nat.pow_pos (by omega)
    rw [e]
    have hd : z / 16 / 16 = z / 256 := by rw [Nat.div_div_eq_div_mul]
    generalize 256 ^ n = P at *
    omega

theorem tail_sum (i3 : BitVec 64) (V : Nat) (e3 : i3.toNat = V) (k1 : V < 2 ^ 60) (k2 : V + V / 256 < 2 ^ 60)
    (k3 : V + V / 256 + (V + V / 256) / 65536 < 2 ^ 60) :
    ((i3 + i3.sshiftRight 8 + (i3 + i3.sshiftRight 8).sshiftRight 16 +
      (i3 + i3.sshiftRight 8 + (i3 + i3.sshiftRight 8).sshiftRight 16).sshiftRight 32).setWidth 32 &&& 0x7f#32).toNat =
    (V + V / 256 + (V + V / 256) / 65536 + (V + V / 256 + (V + V / 256) / 65536) / 4294967296) % 128 := by
  have e4 : (i3 + i3.sshiftRight 8).toNat = V + V / 256 := by
    rw [BitVec.toNat_add_of_lt (by rw [sar_pos _ _ (by omega), e3]; omega), sar_pos _ _ (by omega), e3]
  generalize i3 + i3.sshiftRight 8 = i4 at *
  generalize V + V / 256 = X at *
  have e5 : (i4 + i4.sshiftRight 16).toNat = X + X / 65536 := by
    rw [BitVec.toNat_add_of_lt (by rw [sar_pos _ _ (by omega), e4]; omega), sar_pos _ _ (by omega), e4]
  generalize i4 + i4.sshiftRight 16 = i5 at *
  generalize X + X / 65536 = W at *
  have e6 : (i5 + i5.sshiftRight 32).toNat = W + W / 4294967296 := by
    rw [BitVec.toNat_add_of_lt (by rw [sar_pos _ _ (by omega), e5]; omega), sar_pos _ _ (by omega), e5]
  generalize i5 + i5.sshiftRight 32 = i6 at *
  rw [BitVec.toNat_and, BitVec.toNat_setWidth]
  have : (0x7f#32).toNat = 2 ^ 7 - 1 := rfl
  rw [this, Nat.and_two_pow_sub_one_eq_mod, e6]
  generalize W + W / 4294967296 = Z
  omega

theorem longBitCount_wrap (x : BitVec 64) : longBitCount .wrap x = .ok (popcount x : Int) := by
  obtain ⟨v0, v1, v2, v3, v4, v5, v6, v7, hV, hb, hsum, hgood⟩ := swar_bytes x.toNat x.isLt
  obtain ⟨k1, k2, k3, k5⟩ := sum_bytes v0 v1 v2 v3 v4 v5 v6 v7 _ hV hb
  have r55 : rep 0x55 8 = (0x5555555555555555#64).toNat := by decide
  have r33 : rep 0x33 8 = (0x3333333333333333#64).toNat := by decide
  have r0f : rep 0x0f 8 = (0x0f0f0f0f0f0f0f0f#64).toNat := by decide
  -- first statement
  have e1 : (x - (x.sshiftRight 1 &&& 0x5555555555555555#64)).toNat = s1 8 x.toNat := by
    have h := sar_and x 0x5555555555555555#64 1 (by decide) (by omega)
    have hle : (x.sshiftRight 1 &&& 0x5555555555555555#64).toNat ≤ x.toNat := by
      rw [h]; exact Nat.le_trans Nat.and_le_left (by rw [Nat.shiftRight_eq_div_pow]; exact Nat.div_le_self _ _)
    rw [BitVec.toNat_sub_of_le (by rw [BitVec.le_def]; exact hle), h, s1, r55]
  generalize hi1 : x - (x.sshiftRight 1 &&& 0x5555555555555555#64) = i1 at e1
  have e2 : ((i1 &&& 0x3333333333333333#64) + (i1.sshiftRight 2 &&& 0x3333333333333333#64)).toNat = s2 8 (s1 8 x.toNat) := by
    have h := sar_and i1 0x3333333333333333#64 2 (by decide) (by omega)
    have hs : (i1 &&& 0x3333333333333333#64).toNat + (i1.sshiftRight 2 &&& 0x3333333333333333#64).toNat = s2 8 (s1 8 x.toNat) := by
      rw [h, BitVec.toNat_and, e1, s2, r33]
    rw [BitVec.toNat_add_of_lt (by rw [hs]; have := good_lt hgood; omega), hs]
  generalize hi2 : (i1 &&& 0x3333333333333333#64) + (i1.sshiftRight 2 &&& 0x3333333333333333#64) = i2 at e2
  have hlt : 3 * i2.toNat < 2 ^ 64 := by rw [e2]; exact good_lt hgood
  have e3 : ((i2 + i2.sshiftRight 4) &&& 0x0f0f0f0f0f0f0f0f#64).toNat = s3 8 (s2 8 (s1 8 x.toNat)) := by
    have h4 := sar_pos i2 4 (by omega)
    rw [BitVec.toNat_and, BitVec.toNat_add_of_lt (by rw [h4]; omega), h4, s3, r0f, e2, Nat.shiftRight_eq_div_pow]
  generalize hi3 : (i2 + i2.sshiftRight 4) &&& 0x0f0f0f0f0f0f0f0f#64 = i3 at e3
  have e7 := tail_sum i3 _ e3 k1 k2 k3
  rw [k5, hsum, ← popcount_eq] at e7
  simp only [longBitCount, bitCountHead, bitCountMid, sub_wrap, add_wrap, Outcome.bind_eq, Outcome.bind_ok,
    hi1, hi2, hi3, e7]

end Verif.Bits
