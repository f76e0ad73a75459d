import Verif.MathOps.Model
/-! # Property theorems C08-C10, C57 (integer part of java.lang.Math) -/
namespace Verif.MathOps
open CInt

/-- Specification: `o` is the exact value `x` if it is representable in a
signed `w`-bit type, and `ArithmeticException` otherwise. -/
def Exact (w : Nat) (x : Int) (o : Outcome (BitVec w)) : Prop :=
  (Fits w x → ∃ r, o = .ok r ∧ r.toInt = x) ∧ (¬ Fits w x → o = .throw .arithmetic)

/-! ## C08 -/

theorem addExact_cond (a b : BitVec w) :
    ((a ^^^ (a + b)) &&& (b ^^^ (a + b))).slt 0 = a.saddOverflow b := by
  rw [slt_zero, BitVec.saddOverflow_eq, BitVec.msb_and, BitVec.msb_xor, BitVec.msb_xor]
  cases a.msb <;> cases b.msb <;> cases (a + b).msb <;> rfl

theorem subExact_cond (a b : BitVec w) :
    ((a ^^^ b) &&& (a ^^^ (a - b))).slt 0 = a.ssubOverflow b := by
  rw [slt_zero, BitVec.ssubOverflow_eq, BitVec.msb_and, BitVec.msb_xor, BitVec.msb_xor]
  cases a.msb <;> cases b.msb <;> cases (a - b).msb <;> rfl

theorem C08_addExact (w : Nat) (a b : BitVec w) :
    Exact w (a.toInt + b.toInt) (addExact .wrap a b) := by
  simp only [addExact, add_wrap, Outcome.bind_eq, Outcome.bind_ok, addExact_cond]
  constructor
  · intro h
    have hn : ¬ (a.saddOverflow b = true) := by rw [saddOverflow_iff]; exact fun h' => h' h
    rw [if_neg hn]
    exact ⟨_, rfl, BitVec.toInt_add_of_not_saddOverflow hn⟩
  · intro h
    rw [if_pos ((saddOverflow_iff a b).mpr h)]

theorem C08_subtractExact (w : Nat) (a b : BitVec w) :
    Exact w (a.toInt - b.toInt) (subtractExact .wrap a b) := by
  simp only [subtractExact, sub_wrap, Outcome.bind_eq, Outcome.bind_ok, subExact_cond]
  constructor
  · intro h
    have hn : ¬ (a.ssubOverflow b = true) := by rw [ssubOverflow_iff]; exact fun h' => h' h
    rw [if_neg hn]
    exact ⟨_, rfl, BitVec.toInt_sub_of_not_ssubOverflow hn⟩
  · intro h
    rw [if_pos ((ssubOverflow_iff a b).mpr h)]

theorem eq_intMin_iff {w : Nat} (hw : 0 < w) (v : BitVec w) :
    v = BitVec.intMin w ↔ v.toInt = -(2 ^ (w - 1) : Int) := by
  rw [← BitVec.toInt_inj, BitVec.toInt_intMin_of_pos hw]

theorem eq_intMax_iff {w : Nat} (hw : 0 < w) (v : BitVec w) :
    v = BitVec.intMax w ↔ v.toInt = (2 ^ (w - 1) : Int) - 1 := by
  rw [← BitVec.toInt_inj, BitVec.toInt_intMax]

theorem C08_negateExact (w : Nat) (hw : 0 < w) (m : Sem) (v : BitVec w) :
    Exact w (-v.toInt) (negateExact m v) := by
  have hf := fits_toInt hw v
  have hno : ¬ v = BitVec.intMin w → ¬ (v.negOverflow = true) := by
    intro h; simp [BitVec.negOverflow_eq, hw, h]
  have hmin := eq_intMin_iff hw v
  unfold negateExact
  constructor
  · intro h
    have h1 : ¬ v = BitVec.intMin w := by rw [hmin]; intro h'; unfold Fits at h; omega
    rw [if_neg h1]
    refine ⟨-v, ?_, BitVec.toInt_neg_of_not_negOverflow (hno h1)⟩
    simp [neg, hno h1]
  · intro h
    rw [if_pos]
    rw [hmin]; unfold Fits at h hf; omega

theorem toInt_one {w : Nat} (hw : 1 < w) : (1 : BitVec w).toInt = 1 := by
  have h2 : 2 ≤ 2 ^ (w - 1) := by
    obtain ⟨k, rfl⟩ : ∃ k, w = k + 2 := ⟨w - 2, by omega⟩
    have : 0 < 2 ^ k := Nat.two_pow_pos k
    simp [Nat.pow_succ]; omega
  exact toInt_eq_of_fits (by omega) (x := 1) (by
    unfold Fits
    have : ((2 : Int) ^ (w - 1)) = ((2 ^ (w - 1) : Nat) : Int) := by push_cast; rfl
    omega) (by simp)

theorem C08_incrementExact (w : Nat) (hw : 1 < w) (m : Sem) (v : BitVec w) :
    Exact w (v.toInt + 1) (incrementExact m v) := by
  have hf := fits_toInt (by omega) v
  have hmax := eq_intMax_iff (by omega) v
  unfold incrementExact
  constructor
  · intro h
    have h1 : ¬ v = BitVec.intMax w := by rw [hmax]; intro h'; unfold Fits at h; omega
    have hno : ¬ (v.saddOverflow 1 = true) := by
      rw [saddOverflow_iff, toInt_one hw]; exact fun h' => h' h
    rw [if_neg h1]
    refine ⟨v + 1, by rw [add, if_neg (fun h => hno h.2)], ?_⟩
    rw [BitVec.toInt_add_of_not_saddOverflow hno, toInt_one hw]
  · intro h
    rw [if_pos]
    rw [hmax]; unfold Fits at h hf; omega

theorem C08_decrementExact (w : Nat) (hw : 1 < w) (m : Sem) (v : BitVec w) :
    Exact w (v.toInt - 1) (decrementExact m v) := by
  have hf := fits_toInt (by omega) v
  have hmin := eq_intMin_iff (by omega) v
  unfold decrementExact
  constructor
  · intro h
    have h1 : ¬ v = BitVec.intMin w := by rw [hmin]; intro h'; unfold Fits at h; omega
    have hno : ¬ (v.ssubOverflow 1 = true) := by
      rw [ssubOverflow_iff, toInt_one hw]; exact fun h' => h' h
    rw [if_neg h1]
    refine ⟨v - 1, by rw [sub, if_neg (fun h => hno h.2)], ?_⟩
    rw [BitVec.toInt_sub_of_not_ssubOverflow hno, toInt_one hw]
  · intro h
    rw [if_pos]
    rw [hmin]; unfold Fits at h hf; omega

/-- Under ISO C++ the addition and subtraction are performed before the check,
so an overflowing call is undefined rather than an exception. -/
theorem C08_strict_overflow_undefined (w : Nat) (a b : BitVec w) :
    (¬ Fits w (a.toInt + b.toInt) → addExact .strict a b = .ub) ∧
    (¬ Fits w (a.toInt - b.toInt) → subtractExact .strict a b = .ub) := by
  constructor
  · intro h; simp [addExact, add, (saddOverflow_iff a b).mpr h]
  · intro h; simp [subtractExact, sub, (ssubOverflow_iff a b).mpr h]

example : addExact .wrap (2147483647 : BitVec 32) 1 = .throw .arithmetic ∧
    addExact .wrap (2147483646 : BitVec 32) 1 = .ok 2147483647 ∧
    subtractExact .wrap (BitVec.intMin 64) 1 = .throw .arithmetic ∧
    incrementExact .strict (BitVec.intMax 64) = .throw .arithmetic ∧
    decrementExact .strict (BitVec.intMax 64) = .ok 9223372036854775806 := by decide
example : ¬ Fits 32 ((2147483647 : BitVec 32).toInt + (1 : BitVec 32).toInt) := by decide

theorem two_pow_ge {w : Nat} (hw : 1 < w) : (2 : Int) ≤ 2 ^ (w - 1) := by
  obtain ⟨k, rfl⟩ : ∃ k, w = k + 2 := ⟨w - 2, by omega⟩
  have : 0 < 2 ^ k := Nat.two_pow_pos k
  have h : ((2 : Int) ^ (k + 2 - 1)) = ((2 ^ (k + 1) : Nat) : Int) := by push_cast; rfl
  rw [h, Nat.pow_succ]; omega

theorem toInt_neg_one {w : Nat} (hw : 1 < w) : (-1 : BitVec w).toInt = -1 := by
  apply toInt_eq_of_fits (by omega) (x := -1)
  · have := two_pow_ge hw; unfold Fits; omega
  · rw [BitVec.ofInt_neg]; simp

theorem sdivOverflow_iff {w : Nat} (hw : 1 < w) (x y : BitVec w) :
    x.sdivOverflow y = true ↔ x = BitVec.intMin w ∧ y = -1 := by
  have h : (-1 : BitVec w) = BitVec.allOnes w := BitVec.neg_one_eq_allOnes
  rw [BitVec.sdivOverflow_eq, h]
  simp [Nat.lt_trans Nat.zero_lt_one hw]

theorem tdiv_fits {w : Nat} (hw : 1 < w) (x y : BitVec w) (hy : y ≠ 0)
    (hs : ¬ (x = BitVec.intMin w ∧ y = -1)) : Fits w (x.toInt.tdiv y.toInt) := by
  have fx := fits_toInt (by omega) x
  have hy0 : y.toInt ≠ 0 := by
    intro h; apply hy; apply BitVec.toInt_inj.mp; simpa using h
  have hm1 : y.toInt = -1 → y = -1 := by
    intro h; apply BitVec.toInt_inj.mp; rw [h, toInt_neg_one hw]
  have hmin := (eq_intMin_iff (by omega) x).mpr
  have hle : (x.toInt.tdiv y.toInt).natAbs = x.toInt.natAbs / y.toInt.natAbs := by
    rw [Int.natAbs_tdiv]; rfl
  by_cases h1 : y.toInt = -1
  · have hx : ¬ x.toInt = -(2 ^ (w - 1) : Int) := fun h => hs ⟨hmin h, hm1 h1⟩
    rw [h1, Int.tdiv_neg, Int.tdiv_one]
    unfold Fits at *; omega
  · by_cases h2 : y.toInt = 1
    · rw [h2, Int.tdiv_one]; exact fx
    · have h3 : 2 ≤ y.toInt.natAbs := by omega
      have : x.toInt.natAbs / y.toInt.natAbs ≤ x.toInt.natAbs / 2 := Nat.div_le_div_left h3 (by omega)
      have hp := two_pow_ge hw
      unfold Fits at *; omega

theorem toInt_sdiv_of_fits {w : Nat} (hw : 0 < w) (x y : BitVec w) (h : Fits w (x.toInt.tdiv y.toInt)) :
    (x.sdiv y).toInt = x.toInt.tdiv y.toInt :=
  toInt_eq_of_fits hw h (by
    apply BitVec.toInt_inj.mp
    rw [BitVec.toInt_sdiv, BitVec.toInt_ofInt])

/-! ## C09 -/

theorem p31 : (2 : Int) ^ (32 - 1) = 2147483648 := by decide
theorem p63 : (2 : Int) ^ (64 - 1) = 9223372036854775808 := by decide

theorem bound32 (a : BitVec 32) : -2147483648 ≤ a.toInt ∧ a.toInt < 2147483648 := by
  have := fits_toInt (by omega) a; unfold Fits at this; simpa using this
theorem bound64 (a : BitVec 64) : -9223372036854775808 ≤ a.toInt ∧ a.toInt < 9223372036854775808 := by
  have := fits_toInt (by omega) a; unfold Fits at this; simpa using this

theorem mul_bound (x y : Int) (B : Int) (hB : 0 ≤ B) (hx : -B ≤ x ∧ x ≤ B) (hy : -B ≤ y ∧ y ≤ B) :
    -(B * B) ≤ x * y ∧ x * y ≤ B * B := by
  have h1 : 0 ≤ (B - x) * (B + y) := Int.mul_nonneg (by omega) (by omega)
  have h2 : 0 ≤ (B + x) * (B - y) := Int.mul_nonneg (by omega) (by omega)
  have h3 : 0 ≤ (B - x) * (B - y) := Int.mul_nonneg (by omega) (by omega)
  have h4 : 0 ≤ (B + x) * (B + y) := Int.mul_nonneg (by omega) (by omega)
  simp only [Int.sub_mul, Int.add_mul, Int.mul_sub, Int.mul_add] at h1 h2 h3 h4
  have c1 : B * y = y * B := Int.mul_comm _ _
  have c2 : x * B = B * x := Int.mul_comm _ _
  constructor <;> omega

/-- The value of an `int` product as a `long`. -/
theorem prod64 (a b : BitVec 32) :
    (a.signExtend 64 * b.signExtend 64).toInt = a.toInt * b.toInt ∧
    ¬ ((a.signExtend 64).smulOverflow (b.signExtend 64) = true) := by
  have ha := bound32 a
  have hb := bound32 b
  have hp := mul_bound a.toInt b.toInt 2147483648 (by omega) (by omega) (by omega)
  have ea : (a.signExtend 64).toInt = a.toInt := BitVec.toInt_signExtend_of_le (by omega)
  have eb : (b.signExtend 64).toInt = b.toInt := BitVec.toInt_signExtend_of_le (by omega)
  have hno : ¬ ((a.signExtend 64).smulOverflow (b.signExtend 64) = true) := by
    rw [smulOverflow_iff, ea, eb]
    intro h; apply h; unfold Fits; rw [p63]; omega
  exact ⟨by rw [BitVec.toInt_mul_of_not_smulOverflow hno, ea, eb], hno⟩

/-- The low 32 bits of a `long`, as a value. -/
theorem low32 (v : BitVec 64) : (v.setWidth 32).toInt = Int.bmod v.toInt 4294967296 := by
  have h1 : (v.setWidth 32).toInt = Int.bmod v.toNat 4294967296 := by
    rw [BitVec.toInt_setWidth]
  rw [h1, BitVec.toInt_eq_toNat_bmod]
  rw [Int.bmod_bmod_of_dvd (by decide)]

theorem bmod32_cases (x : Int) :
    (Fits 32 x → Int.bmod x 4294967296 = x) ∧ -2147483648 ≤ Int.bmod x 4294967296 ∧
    Int.bmod x 4294967296 < 2147483648 := by
  have hb := Int.bmod_def x 4294967296
  unfold Fits
  rw [p31]
  split at hb <;> (refine ⟨?_, ?_, ?_⟩ <;> omega)

/-- `multiplyExact(int,int)`, completely: exact when representable, exception
when the product exceeds the largest int, but a product below the smallest int
is returned truncated.  Full statement (C09) fails in that last case
(`C09_multiplyExact_wrong`). -/
theorem C09_multiplyExact_int_partial (m : Sem) (a b : BitVec 32) :
    (Fits 32 (a.toInt * b.toInt) → ∃ r, multiplyExactInt m a b = .ok r ∧ r.toInt = a.toInt * b.toInt) ∧
    (2147483647 < a.toInt * b.toInt → multiplyExactInt m a b = .throw .arithmetic) ∧
    (a.toInt * b.toInt < -2147483648 → ∃ r, multiplyExactInt m a b = .ok r ∧ r.toInt ≠ a.toInt * b.toInt) := by
  obtain ⟨hp, hno⟩ := prod64 a b
  have ha := bound32 a
  have hb := bound32 b
  have hbd := mul_bound a.toInt b.toInt 2147483648 (by omega) (by omega) (by omega)
  generalize hP : a.signExtend 64 * b.signExtend 64 = P at hp
  have hlow := low32 P
  have hse : ((P.setWidth 32).signExtend 64).toInt = Int.bmod P.toInt 4294967296 := by
    rw [BitVec.toInt_signExtend_of_le (by omega), hlow]
  obtain ⟨hfix, hlo, hhi⟩ := bmod32_cases P.toInt
  have hnos : ¬ (P.ssubOverflow ((P.setWidth 32).signExtend 64) = true) := by
    rw [ssubOverflow_iff, hse]; intro h; apply h; unfold Fits; rw [p63]; omega
  have hd : (P - (P.setWidth 32).signExtend 64).toInt = P.toInt - Int.bmod P.toInt 4294967296 := by
    rw [BitVec.toInt_sub_of_not_ssubOverflow hnos, hse]
  have hval : multiplyExactInt m a b =
      if 0 < P.toInt - Int.bmod P.toInt 4294967296 then .throw .arithmetic else .ok (P.setWidth 32) := by
    simp only [multiplyExactInt, mul, hno, hP, sub, hnos, and_false, Bool.false_eq_true, if_false, Outcome.bind_eq,
      Outcome.bind_ok, BitVec.slt_iff_toInt_lt, hd]
    rfl
  rw [hval, ← hp]
  refine ⟨?_, ?_, ?_⟩
  · intro h
    rw [if_neg (by rw [hfix h]; omega)]
    exact ⟨_, rfl, by rw [hlow, hfix h]⟩
  · intro h
    rw [if_pos (by omega)]
  · intro h
    rw [if_neg (by omega)]
    exact ⟨_, rfl, by rw [hlow]; omega⟩

theorem C09_multiplyExact_wrong :
    multiplyExactInt .strict (-65536) 65536 = .ok 0 := by decide

/-- Low half with the top bit of the low 32 bits: when `multiplyExact(long)`
looks at the division at all. -/
def checked (a b : BitVec 64) : Prop :=
  2147483648 ≤ a.toInt.natAbs % 4294967296 ∨ 2147483648 ≤ b.toInt.natAbs % 4294967296

instance (a b : BitVec 64) : Decidable (checked a b) := by unfold checked; infer_instance

theorem abs_toNat (v : BitVec 64) : (if v.slt 0 then -v else v).toNat = v.toInt.natAbs := by
  have hb := bound64 v
  have hlt := v.isLt
  rw [BitVec.toInt_eq_toNat_cond]
  rw [slt_zero, BitVec.msb_eq_decide]
  by_cases h : 2 ^ (64 - 1) ≤ v.toNat
  · have h2 : ¬ 2 * v.toNat < 2 ^ 64 := by omega
    simp only [h, decide_true, if_true, h2, if_false, BitVec.toNat_neg]
    omega
  · have h2 : 2 * v.toNat < 2 ^ 64 := by omega
    simp only [h, decide_false, Bool.false_eq_true, if_false, h2, if_true]
    omega

theorem checked_iff (a b : BitVec 64) :
    ((((if a.slt 0 then -a else a).setWidth 32).setWidth 64 ||| ((if b.slt 0 then -b else b).setWidth 32).setWidth 64) >>> 31 ≠
      (0 : BitVec 64)) ↔ checked a b := by
  have key : ∀ x : Nat, x / 2147483648 = 0 ↔ ¬ (2147483648 ≤ x) := by omega
  rw [ne_eq, ← BitVec.toNat_inj]
  simp only [BitVec.toNat_ushiftRight, BitVec.toNat_or, BitVec.toNat_setWidth, abs_toNat,
    Nat.shiftRight_or_distrib]
  have hz : (0 : BitVec 64).toNat = 0 := rfl
  rw [hz]
  have e1 : ∀ n : Nat, n % 2 ^ 32 % 2 ^ 64 = n % 4294967296 := by intro n; omega
  rw [e1, e1, Nat.or_eq_zero_iff]
  simp only [Nat.shiftRight_eq_div_pow, Nat.reducePow, key, checked]
  omega

theorem abs_wrap (v : BitVec 64) : abs32 .wrap v = .ok (((if v.slt 0 then -v else v).setWidth 32).setWidth 64) := by
  unfold abs32 abs
  by_cases h : v.slt 0 = true
  · simp only [h, if_true, neg_wrap, Outcome.bind_eq, Outcome.bind_ok]
  · simp only [h, if_false, Outcome.bind_eq, Outcome.bind_ok]
    rfl

/-- If the wrapped product divided by `b` gives `a` back, nothing wrapped. -/
theorem quot_check (a b : BitVec 64) (hb : b ≠ 0) (hab : ¬ (a = BitVec.intMin 64 ∧ b = -1)) :
    ∃ q, div (a * b) b = .ok q ∧ (q = a ↔ Fits 64 (a.toInt * b.toInt)) := by
  have ba := bound64 a
  have bb := bound64 b
  have br := bound64 (a * b)
  have hb0 : b.toInt ≠ 0 := by
    intro h; apply hb; apply BitVec.toInt_inj.mp; simpa using h
  have hr : ∃ k : Int, (a * b).toInt = a.toInt * b.toInt + 18446744073709551616 * k := by
    rw [BitVec.toInt_mul]
    have h := Int.bmod_def (a.toInt * b.toInt) (2 ^ 64)
    have h64 : ((2 ^ 64 : Nat) : Int) = 18446744073709551616 := by decide
    rw [h64] at h
    have hdm := Int.emod_add_mul_ediv (a.toInt * b.toInt) 18446744073709551616
    rw [h]
    split
    · exact ⟨-(a.toInt * b.toInt / 18446744073709551616), by omega⟩
    · exact ⟨-(a.toInt * b.toInt / 18446744073709551616) - 1, by omega⟩
  obtain ⟨k, hk⟩ := hr
  have hm1 : b.toInt = -1 → b = -1 := by
    intro h; apply BitVec.toInt_inj.mp; rw [h]; decide
  have hmin : a.toInt = -9223372036854775808 → a = BitVec.intMin 64 := by
    intro h; apply BitVec.toInt_inj.mp; rw [h]; decide
  -- no trap in the division
  have hnt' : ¬ (a * b = BitVec.intMin 64 ∧ b = -1) := by
    rintro ⟨h1, h2⟩
    apply hab
    refine ⟨?_, h2⟩
    rw [h2] at h1
    have : a = -(a * -1) := by rw [BitVec.mul_neg, BitVec.neg_neg]; simp
    rw [this, h1]; decide
  have hnt : ¬ ((a * b).sdivOverflow b = true) := by rw [sdivOverflow_iff (by omega)]; exact hnt'
  have hnt2 : Fits 64 ((a * b).toInt.tdiv b.toInt) := tdiv_fits (by omega) _ _ hb hnt'
  have hq : ((a * b).sdiv b).toInt = (a * b).toInt.tdiv b.toInt := by
    exact toInt_sdiv_of_fits (by omega) _ _ hnt2
  refine ⟨(a * b).sdiv b, by rw [div, if_neg (fun h => h.elim hb hnt)], ?_⟩
  rw [← BitVec.toInt_inj, hq]
  constructor
  · intro h
    have hdm := Int.tmod_add_mul_tdiv (a * b).toInt b.toInt
    have hlt : ((a * b).toInt.tmod b.toInt).natAbs < b.toInt.natAbs := by
      rw [Int.natAbs_tmod]; exact Nat.mod_lt _ (by omega)
    rw [h] at hdm
    have hc : b.toInt * a.toInt = a.toInt * b.toInt := Int.mul_comm _ _
    have : k = 0 := by omega
    unfold Fits; rw [p63]
    subst this
    omega
  · intro h
    unfold Fits at h; rw [p63] at h
    have : k = 0 := by omega
    subst this
    rw [hk, Int.mul_zero, Int.add_zero, Int.mul_tdiv_cancel _ hb0]

/-- `multiplyExact(long,long)`, completely, for wrap-around arithmetic: exact
whenever the product is representable; an exception when it is not and one of
the operands' magnitudes has bit 31 of its low half set; otherwise (not
representable, both low halves below 2^31) a wrong value is returned. -/
theorem C09_multiplyExact_long_partial (a b : BitVec 64) :
    (Fits 64 (a.toInt * b.toInt) →
      ∃ r, multiplyExactLong .wrap a b = .ok r ∧ r.toInt = a.toInt * b.toInt) ∧
    (¬ Fits 64 (a.toInt * b.toInt) → checked a b → multiplyExactLong .wrap a b = .throw .arithmetic) ∧
    (¬ Fits 64 (a.toInt * b.toInt) → ¬ checked a b → ¬ (a = BitVec.intMin 64 ∧ b = -1) →
      ∃ r, multiplyExactLong .wrap a b = .ok r ∧ r.toInt ≠ a.toInt * b.toInt) := by
  have hck := checked_iff a b
  by_cases hsp : a = BitVec.intMin 64 ∧ b = -1
  · have hthrow : multiplyExactLong .wrap a b = .throw .arithmetic := by
      simp [multiplyExactLong, hsp]
    have hnf : ¬ Fits 64 (a.toInt * b.toInt) := by rw [hsp.1, hsp.2]; decide
    exact ⟨fun h => absurd h hnf, fun _ _ => hthrow, fun _ _ h => absurd hsp h⟩
  · have hexact : Fits 64 (a.toInt * b.toInt) → (a * b).toInt = a.toInt * b.toInt := by
      intro h
      apply BitVec.toInt_mul_of_not_smulOverflow
      rw [smulOverflow_iff]; exact fun h' => h' h
    have hnexact : ¬ Fits 64 (a.toInt * b.toInt) → (a * b).toInt ≠ a.toInt * b.toInt := by
      intro h h'
      apply h; rw [← h']; exact fits_toInt (by omega) _
    have hform : multiplyExactLong .wrap a b =
        if checked a b ∧ b ≠ 0 ∧ ¬ Fits 64 (a.toInt * b.toInt) then .throw .arithmetic else .ok (a * b) := by
      simp only [multiplyExactLong, hsp, if_false, mul_wrap, abs_wrap, Outcome.bind_eq, Outcome.bind_ok]
      by_cases hc : checked a b
      · rw [if_pos (hck.mpr hc)]
        by_cases hb : b = 0
        · simp [hb]
        · obtain ⟨q, hq, hqa⟩ := quot_check a b hb hsp
          simp only [ne_eq, hb, not_false_eq_true, if_true, hq, Outcome.bind_ok, hqa, hc, true_and]
      · rw [if_neg (fun h => hc (hck.mp h)), if_neg (fun h => hc h.1)]
    rw [hform]
    refine ⟨?_, ?_, ?_⟩
    · intro h
      rw [if_neg (fun h' => h'.2.2 h)]
      exact ⟨_, rfl, hexact h⟩
    · intro h hc
      rw [if_pos]
      refine ⟨hc, ?_, h⟩
      rintro rfl
      apply h; simp; decide
    · intro h hc _
      rw [if_neg (fun h' => hc h'.1)]
      exact ⟨_, rfl, hnexact h⟩

theorem C09_multiplyExact_long_wrong :
    multiplyExactLong .wrap 4294967296 4294967296 = .ok 0 := by decide

/-- `toIntExact`: exact when representable; throws for larger values unless the
comparison itself overflows; smaller values are returned truncated. -/
theorem C09_toIntExact_partial (v : BitVec 64) :
    (Fits 32 v.toInt → ∃ r, toIntExact .strict v = .ok r ∧ toIntExact .wrap v = .ok r ∧ r.toInt = v.toInt) ∧
    (2147483647 < v.toInt → v.toInt < 9223372034707292160 →
      toIntExact .strict v = .throw .arithmetic ∧ toIntExact .wrap v = .throw .arithmetic) ∧
    (v.toInt < -2147483648 → ∃ r, toIntExact .wrap v = .ok r ∧ r.toInt ≠ v.toInt) := by
  have hb := bound64 v
  have hlow := low32 v
  have hse : ((v.setWidth 32).signExtend 64).toInt = Int.bmod v.toInt 4294967296 := by
    rw [BitVec.toInt_signExtend_of_le (by omega), hlow]
  obtain ⟨hfix, hlo, hhi⟩ := bmod32_cases v.toInt
  have hmul : ∃ k : Int, v.toInt - Int.bmod v.toInt 4294967296 = 4294967296 * k := by
    have h := Int.bmod_def v.toInt 4294967296
    have hdm := Int.emod_add_mul_ediv v.toInt 4294967296
    rw [h]
    split
    · exact ⟨v.toInt / 4294967296, by omega⟩
    · exact ⟨v.toInt / 4294967296 + 1, by omega⟩
  obtain ⟨k, hk⟩ := hmul
  have gen : ∀ m, v.toInt < 9223372034707292160 → toIntExact m v =
      if 0 < v.toInt - Int.bmod v.toInt 4294967296 then .throw .arithmetic else .ok (v.setWidth 32) := by
    intro m hv
    have hnos : ¬ (v.ssubOverflow ((v.setWidth 32).signExtend 64) = true) := by
      rw [ssubOverflow_iff, hse]; intro h; apply h; unfold Fits; rw [p63]; omega
    have hd : (v - (v.setWidth 32).signExtend 64).toInt = v.toInt - Int.bmod v.toInt 4294967296 := by
      rw [BitVec.toInt_sub_of_not_ssubOverflow hnos, hse]
    simp only [toIntExact, sub, hnos, and_false, Bool.false_eq_true, if_false, Outcome.bind_eq,
      Outcome.bind_ok, BitVec.slt_iff_toInt_lt, hd]
    rfl
  refine ⟨?_, ?_, ?_⟩
  · intro h
    have h' := h
    unfold Fits at h'; rw [p31] at h'
    rw [gen _ (by omega), gen _ (by omega), if_neg (by rw [hfix h]; omega)]
    exact ⟨_, rfl, rfl, by rw [hlow, hfix h]⟩
  · intro h1 h2
    rw [gen _ h2, gen _ h2, if_pos (by omega)]
    exact ⟨rfl, rfl⟩
  · intro h
    rw [gen _ (by omega), if_neg (by omega)]
    exact ⟨_, rfl, by rw [hlow]; omega⟩

theorem C09_toIntExact_wrong : toIntExact .strict (-4294967296) = .ok 0 ∧
    toIntExact .wrap (BitVec.intMax 64) = .ok (-1) ∧ toIntExact .strict (BitVec.intMax 64) = .ub := by decide

example : Fits 32 ((46340 : BitVec 32).toInt * (46340 : BitVec 32).toInt) := by decide
example : multiplyExactLong .wrap 3037000500 3037000500 = .throw .arithmetic ∧
    multiplyExactLong .wrap 3037000499 3037000499 = .ok 9223372030926249001 := by decide
example : toIntExact .strict 2147483648 = .throw .arithmetic := by decide

/-! ## C10 -/

theorem msb_iff_neg (x : BitVec w) : x.msb = decide (x.toInt < 0) := BitVec.msb_eq_toInt

theorem fdiv_tdiv (x y : Int) (hy : y ≠ 0) :
    Int.fdiv x y = if (x < 0 ↔ ¬ y < 0) ∧ x.tdiv y * y ≠ x then x.tdiv y - 1 else x.tdiv y := by
  have hdm := Int.tmod_add_mul_tdiv x y
  have hlt : (x.tmod y).natAbs < y.natAbs := by
    rw [Int.natAbs_tmod]; exact Nat.mod_lt _ (by omega)
  have hc : y * x.tdiv y = x.tdiv y * y := Int.mul_comm _ _
  have hfd := Int.fmod_add_mul_fdiv x y
  have hs : 0 ≤ x → 0 ≤ x.tmod y := Int.tmod_nonneg _
  have hs' : x ≤ 0 → x.tmod y ≤ 0 := by
    intro h
    have h2 := Int.tmod_nonneg y (a := -x) (by omega)
    rw [Int.neg_tmod] at h2; omega
  have hf1 : 0 < y → 0 ≤ x.fmod y ∧ x.fmod y < y := fun h =>
    ⟨Int.fmod_nonneg_of_pos _ h, Int.fmod_lt_of_pos _ h⟩
  have hf2 : y < 0 → x.fmod y ≤ 0 ∧ y < x.fmod y := by
    intro h
    have h3 : x.fmod y = -((-x).fmod (-y)) := by rw [Int.neg_fmod_neg]; omega
    have h4 := Int.fmod_nonneg_of_pos (-x) (b := -y) (by omega)
    have h5 := Int.fmod_lt_of_pos (-x) (b := -y) (by omega)
    omega
  -- uniqueness of the quotient
  have uniq : ∀ q1 q2 : Int, q1 * y - q2 * y < y.natAbs → q2 * y - q1 * y < y.natAbs → q1 = q2 := by
    intro q1 q2 h1 h2
    have e : q1 * y - q2 * y = (q1 - q2) * y := by rw [Int.sub_mul]
    have e2 : q2 * y - q1 * y = -((q1 - q2) * y) := by rw [Int.sub_mul]; omega
    rw [e] at h1; rw [e2] at h2
    by_cases hz : q1 - q2 = 0
    · omega
    · exfalso
      have : y.natAbs ≤ ((q1 - q2) * y).natAbs := by
        rw [Int.natAbs_mul]; exact Nat.le_mul_of_pos_left _ (by omega)
      omega
  have hcf : y * x.fdiv y = x.fdiv y * y := Int.mul_comm _ _
  rcases Int.lt_or_gt_of_ne hy with hyn | hyp
  · have := hf2 hyn
    split
    · rename_i hc2
      apply uniq <;> rw [Int.sub_mul] <;> omega
    · rename_i hc2
      apply uniq <;> omega
  · have := hf1 hyp
    split
    · rename_i hc2
      apply uniq <;> rw [Int.sub_mul] <;> omega
    · rename_i hc2
      apply uniq <;> omega

theorem tdiv_mul_fits {w : Nat} (x y : Int) (hx : Fits w x) : Fits w (x.tdiv y * y) := by
  have hdm := Int.tmod_add_mul_tdiv x y
  have hc : y * x.tdiv y = x.tdiv y * y := Int.mul_comm _ _
  have hle : (x.tmod y).natAbs ≤ x.natAbs := by
    rw [Int.natAbs_tmod]; exact Nat.mod_le _ _
  have hs : 0 ≤ x → 0 ≤ x.tmod y := Int.tmod_nonneg _
  have hs' : x ≤ 0 → x.tmod y ≤ 0 := by
    intro h
    have h2 := Int.tmod_nonneg y (a := -x) (by omega)
    rw [Int.neg_tmod] at h2; omega
  unfold Fits at *
  omega

/-- Floor division: exactly the mathematical floor of the quotient
(`Int.fdiv`), for every pair except division by zero (exception) and
`MIN_VALUE / -1`, which traps. -/
theorem C10_floorDiv (w : Nat) (hw : 1 < w) (m : Sem) (x y : BitVec w) :
    (y = 0 → floorDiv m x y = .throw .arithmetic) ∧
    (y ≠ 0 → ¬ (x = BitVec.intMin w ∧ y = -1) →
      ∃ q, floorDiv m x y = .ok q ∧ q.toInt = Int.fdiv x.toInt y.toInt) ∧
    (x = BitVec.intMin w ∧ y = -1 → floorDiv m x y = .ub) := by
  have fx := fits_toInt (by omega) x
  have fy := fits_toInt (by omega) y
  have hp := two_pow_ge hw
  refine ⟨fun h => by simp [floorDiv, h], ?_, ?_⟩
  · intro hy hs
    have hy0 : y.toInt ≠ 0 := by
      intro h; apply hy; apply BitVec.toInt_inj.mp; simpa using h
    have hm1 : y.toInt = -1 → y = -1 := by
      intro h; apply BitVec.toInt_inj.mp; rw [h, toInt_neg_one hw]
    have hmin := (eq_intMin_iff (by omega) x).mpr
    have hqf : Fits w (x.toInt.tdiv y.toInt) := tdiv_fits hw x y hy hs
    have hnt : ¬ (x.sdivOverflow y = true) := by rw [sdivOverflow_iff hw]; exact hs
    have hq : (x.sdiv y).toInt = x.toInt.tdiv y.toInt := toInt_sdiv_of_fits (by omega) x y hqf
    have hpf := tdiv_mul_fits x.toInt y.toInt fx
    have hno : ¬ ((x.sdiv y).smulOverflow y = true) := by
      rw [smulOverflow_iff, hq]; exact fun h => h hpf
    have hprod : (x.sdiv y * y).toInt = x.toInt.tdiv y.toInt * y.toInt := by
      rw [BitVec.toInt_mul_of_not_smulOverflow hno, hq]
    have hfd := fdiv_tdiv x.toInt y.toInt hy0
    have hsign : ((x ^^^ y).slt 0 = true) ↔ (x.toInt < 0 ↔ ¬ y.toInt < 0) := by
      rw [slt_zero, BitVec.msb_xor, msb_iff_neg, msb_iff_neg]
      by_cases h1 : x.toInt < 0 <;> by_cases h2 : y.toInt < 0 <;> simp [h1, h2]
    have hneq : (x.sdiv y * y ≠ x) ↔ (x.toInt.tdiv y.toInt * y.toInt ≠ x.toInt) := by
      rw [ne_eq, ← BitVec.toInt_inj, hprod]
    simp only [floorDiv, hy, if_false, div, hnt, or_self, Bool.false_eq_true, Outcome.bind_eq, Outcome.bind_ok,
      mul, hno, and_false]
    by_cases hsg : (x ^^^ y).slt 0 = true
    · rw [if_pos hsg]
      by_cases hne : x.sdiv y * y ≠ x
      · rw [if_pos hne]
        rw [if_pos ⟨hsign.mp hsg, hneq.mp hne⟩] at hfd
        have hlow : Fits w (x.toInt.tdiv y.toInt - 1) := by
          -- the quotient is not the minimum: |q*y| ≤ 2^(w-1) with |y| ≥ 2, or y = ±1 divides x
          have hle : (x.toInt.tdiv y.toInt).natAbs = x.toInt.natAbs / y.toInt.natAbs := by
            rw [Int.natAbs_tdiv]; rfl
          have hne' := hneq.mp hne
          by_cases h1 : y.toInt = -1
          · exfalso; apply hne'; rw [h1, Int.tdiv_neg, Int.tdiv_one]; omega
          · by_cases h2 : y.toInt = 1
            · exfalso; apply hne'; rw [h2, Int.tdiv_one]; omega
            · have h3 : 2 ≤ y.toInt.natAbs := by omega
              have : x.toInt.natAbs / y.toInt.natAbs ≤ x.toInt.natAbs / 2 := Nat.div_le_div_left h3 (by omega)
              unfold Fits at *; omega
        have hnos : ¬ ((x.sdiv y).ssubOverflow 1 = true) := by
          rw [ssubOverflow_iff, hq, toInt_one hw]; exact fun h => h hlow
        refine ⟨x.sdiv y - 1, by rw [sub, if_neg (fun h => hnos h.2)], ?_⟩
        rw [BitVec.toInt_sub_of_not_ssubOverflow hnos, hq, toInt_one hw, hfd]
      · rw [if_neg hne]
        rw [if_neg (fun h => hne (hneq.mpr h.2))] at hfd
        exact ⟨_, rfl, by rw [hq, hfd]⟩
    · rw [if_neg hsg]
      rw [if_neg (fun h => hsg (hsign.mpr h.1))] at hfd
      exact ⟨_, rfl, by rw [hq, hfd]⟩
  · rintro ⟨rfl, rfl⟩
    have hn1 : (-1 : BitVec w) ≠ 0 := by
      intro h
      have := congrArg BitVec.toInt h
      rw [toInt_neg_one hw] at this
      simp at this
    have hov : (BitVec.intMin w).sdivOverflow (-1) = true := (sdivOverflow_iff hw _ _).mpr ⟨rfl, rfl⟩
    simp only [floorDiv, hn1, if_false, div, hov, or_true, if_true, Outcome.bind_eq, Outcome.bind_ub]

/-- Floor modulus: exactly `Int.fmod`, in wrap-around arithmetic, so it has the
sign of the divisor, is smaller in magnitude and satisfies the division law. -/
theorem C10_floorMod (w : Nat) (hw : 1 < w) (x y : BitVec w) :
    (y = 0 → floorMod .wrap x y = .throw .arithmetic) ∧
    (y ≠ 0 → ¬ (x = BitVec.intMin w ∧ y = -1) →
      ∃ r q, floorMod .wrap x y = .ok r ∧ floorDiv .wrap x y = .ok q ∧
        q.toInt * y.toInt + r.toInt = x.toInt ∧
        (0 < y.toInt → 0 ≤ r.toInt ∧ r.toInt < y.toInt) ∧
        (y.toInt < 0 → y.toInt < r.toInt ∧ r.toInt ≤ 0)) := by
  have fx := fits_toInt (by omega) x
  have fy := fits_toInt (by omega) y
  obtain ⟨h0, h1, _⟩ := C10_floorDiv w hw .wrap x y
  refine ⟨fun h => by simp [floorMod, h0 h], ?_⟩
  intro hy hs
  obtain ⟨q, hq, hqv⟩ := h1 hy hs
  have hy0 : y.toInt ≠ 0 := by
    intro h; apply hy; apply BitVec.toInt_inj.mp; simpa using h
  have hfd := Int.fmod_add_mul_fdiv x.toInt y.toInt
  have hf1 : 0 < y.toInt → 0 ≤ x.toInt.fmod y.toInt ∧ x.toInt.fmod y.toInt < y.toInt := fun h =>
    ⟨Int.fmod_nonneg_of_pos _ h, Int.fmod_lt_of_pos _ h⟩
  have hf2 : y.toInt < 0 → x.toInt.fmod y.toInt ≤ 0 ∧ y.toInt < x.toInt.fmod y.toInt := by
    intro h
    have h3 : x.toInt.fmod y.toInt = -((-x.toInt).fmod (-y.toInt)) := by rw [Int.neg_fmod_neg]; omega
    have h4 := Int.fmod_nonneg_of_pos (-x.toInt) (b := -y.toInt) (by omega)
    have h5 := Int.fmod_lt_of_pos (-x.toInt) (b := -y.toInt) (by omega)
    omega
  have hfit : Fits w (x.toInt.fmod y.toInt) := by
    rcases Int.lt_or_gt_of_ne hy0 with h | h
    · have := hf2 h; unfold Fits at *; omega
    · have := hf1 h; unfold Fits at *; omega
  have hr : (x - q * y).toInt = x.toInt.fmod y.toInt := by
    apply toInt_eq_of_fits (by omega) hfit
    have e : x.toInt.fmod y.toInt = x.toInt - q.toInt * y.toInt := by
      rw [hqv, Int.mul_comm]; omega
    rw [e, Int.sub_eq_add_neg, BitVec.ofInt_add, BitVec.ofInt_neg, BitVec.ofInt_mul, BitVec.ofInt_toInt,
      BitVec.ofInt_toInt, BitVec.ofInt_toInt, BitVec.sub_eq_add_neg]
  refine ⟨x - q * y, q, ?_, hq, ?_, ?_, ?_⟩
  · simp only [floorMod, hq, Outcome.bind_eq, Outcome.bind_ok, mul_wrap, sub_wrap]
  · rw [hr, hqv, Int.mul_comm]; omega
  · intro h; rw [hr]; exact hf1 h
  · intro h; rw [hr]; have := hf2 h; omega

/-- Under ISO C++ `floorMod` overflows internally for some representable
results, and `floorDiv(MIN_VALUE, -1)` traps. -/
theorem C10_undefined_cases : floorMod .strict (BitVec.intMin 32) 3 = .ub ∧
    floorMod .wrap (BitVec.intMin 32) 3 = .ok 1 ∧ floorDiv .wrap (BitVec.intMin 64) (-1) = .ub := by decide

example : floorDiv .strict (-7 : BitVec 32) 2 = .ok (-4) ∧ floorMod .strict (-7 : BitVec 32) 2 = .ok 1 ∧
    floorMod .strict (7 : BitVec 64) (-2) = .ok (-1) := by decide

/-! ## C57: abs, max, min -/

theorem C57_abs (w : Nat) (hw : 0 < w) (m : Sem) (v : BitVec w) (h : v ≠ BitVec.intMin w) :
    ∃ r, abs m v = .ok r ∧ r.toInt = v.toInt.natAbs := by
  unfold abs
  by_cases hs : v.slt 0 = true
  · have hneg : v.toInt < 0 := by rw [slt_zero, msb_iff_neg] at hs; simpa using hs
    have hno : ¬ (v.negOverflow = true) := by simp [BitVec.negOverflow_eq, h]
    rw [if_pos hs]
    refine ⟨-v, by simp [neg, hno], ?_⟩
    rw [BitVec.toInt_neg_of_not_negOverflow hno]; omega
  · have hneg : ¬ v.toInt < 0 := by rw [slt_zero, msb_iff_neg] at hs; simpa using hs
    rw [if_neg hs]
    exact ⟨v, rfl, by omega⟩

/-- The smallest value has no absolute value: wrap-around returns it unchanged. -/
theorem C57_abs_min : abs .wrap (BitVec.intMin 32) = .ok (BitVec.intMin 32) ∧
    abs .strict (BitVec.intMin 32) = .ub := by decide

theorem C57_max_min (w : Nat) (a b : BitVec w) :
    (MathOps.max a b).toInt = Max.max a.toInt b.toInt ∧ (MathOps.min a b).toInt = Min.min a.toInt b.toInt := by
  simp only [MathOps.max, MathOps.min, BitVec.slt_iff_toInt_lt]
  constructor <;> split <;> omega

example : abs .strict (-5 : BitVec 64) = .ok 5 ∧ MathOps.max (-5 : BitVec 64) 3 = 3 := by decide

end Verif.MathOps
