import Verif.Common
/-!
# C++ signed integer arithmetic

`int` is `BitVec 32`, `long` is `BitVec 64` (LP64); `toInt` is the value.
With `Sem.strict` an overflowing operation is undefined behaviour (ISO C++),
with `Sem.wrap` it wraps around (gcc -fwrapv, and what x86-64 code does).
-/
namespace Verif.CInt

def add (m : Sem) (a b : BitVec w) : Outcome (BitVec w) :=
  if m = .strict ∧ a.saddOverflow b then .ub else .ok (a + b)
def sub (m : Sem) (a b : BitVec w) : Outcome (BitVec w) :=
  if m = .strict ∧ a.ssubOverflow b then .ub else .ok (a - b)
def mul (m : Sem) (a b : BitVec w) : Outcome (BitVec w) :=
  if m = .strict ∧ a.smulOverflow b then .ub else .ok (a * b)
def neg (m : Sem) (a : BitVec w) : Outcome (BitVec w) :=
  if m = .strict ∧ a.negOverflow then .ub else .ok (-a)
/-- `/`: a zero divisor and `MIN / -1` trap on x86-64 and are undefined in
either reading. -/
def div (a b : BitVec w) : Outcome (BitVec w) :=
  if b = 0 ∨ a.sdivOverflow b then .ub else .ok (a.sdiv b)
/-- `%`, same restrictions. -/
def rem (a b : BitVec w) : Outcome (BitVec w) :=
  if b = 0 ∨ a.sdivOverflow b then .ub else .ok (a.srem b)

/-- Values representable in a signed type of `w` bits. -/
def Fits (w : Nat) (x : Int) : Prop := -(2 ^ (w - 1) : Int) ≤ x ∧ x < (2 ^ (w - 1) : Int)

instance (w : Nat) (x : Int) : Decidable (Fits w x) := by unfold Fits; infer_instance

theorem add_wrap (a b : BitVec w) : add .wrap a b = .ok (a + b) := by simp [add]
theorem sub_wrap (a b : BitVec w) : sub .wrap a b = .ok (a - b) := by simp [sub]
theorem mul_wrap (a b : BitVec w) : mul .wrap a b = .ok (a * b) := by simp [mul]
theorem neg_wrap (a : BitVec w) : neg .wrap a = .ok (-a) := by simp [neg]

theorem saddOverflow_iff (a b : BitVec w) : a.saddOverflow b = true ↔ ¬ Fits w (a.toInt + b.toInt) := by
  simp only [BitVec.saddOverflow, Fits, Bool.or_eq_true, decide_eq_true_eq]
  omega

theorem ssubOverflow_iff (a b : BitVec w) : a.ssubOverflow b = true ↔ ¬ Fits w (a.toInt - b.toInt) := by
  simp only [BitVec.ssubOverflow, Fits, Bool.or_eq_true, decide_eq_true_eq]
  omega

theorem smulOverflow_iff (a b : BitVec w) : a.smulOverflow b = true ↔ ¬ Fits w (a.toInt * b.toInt) := by
  simp only [BitVec.smulOverflow, Fits, Bool.or_eq_true, decide_eq_true_eq]
  omega

theorem fits_toInt {w : Nat} (hw : 0 < w) (a : BitVec w) : Fits w a.toInt := by
  have h1 := BitVec.le_two_mul_toInt (x := a)
  have h2 := BitVec.two_mul_toInt_lt (x := a)
  have : (2 : Int) ^ w = 2 * 2 ^ (w - 1) := by
    obtain ⟨k, rfl⟩ : ∃ k, w = k + 1 := ⟨w - 1, by omega⟩
    simp [Int.pow_succ]; omega
  unfold Fits
  omega

theorem slt_zero (a : BitVec w) : a.slt 0 = a.msb := by
  exact BitVec.slt_zero_eq_msb

theorem toInt_eq_of_fits {w : Nat} (hw : 0 < w) {a : BitVec w} {x : Int} (h : Fits w x)
    (ha : a = BitVec.ofInt w x) : a.toInt = x := by
  subst ha
  rw [BitVec.toInt_ofInt]
  have : (2 : Int) ^ w = 2 * 2 ^ (w - 1) := by
    obtain ⟨k, rfl⟩ : ∃ k, w = k + 1 := ⟨w - 1, by omega⟩
    simp [Int.pow_succ]; omega
  apply Int.bmod_eq_of_le <;> (unfold Fits at h; push_cast; omega)

end Verif.CInt
