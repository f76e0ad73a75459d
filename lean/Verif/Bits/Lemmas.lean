import Verif.Bits.Model
import Verif.Bits.Spec
/-! # Lemmas on bit operations -/
namespace Verif.Bits
open Verif.CInt

theorem getLsbD_lt {x : BitVec w} {j : Nat} (h : x.getLsbD j = true) : j < w := by
  rcases Nat.lt_or_ge j w with h' | h'
  · exact h'
  · rw [BitVec.getLsbD_of_ge x j h'] at h; simp at h

/-- Every non-zero word has a highest one-bit. -/
theorem exists_highest {x : BitVec w} (hx : x ≠ 0) : ∃ h, IsHighest x h ∧ h < w := by
  have key : ∀ n, (∀ j, n ≤ j → x.getLsbD j = false) → (∀ j, x.getLsbD j = false) ∨ ∃ h, IsHighest x h := by
    intro n
    induction n with
    | zero => intro h; left; intro j; exact h j (by omega)
    | succ n ih =>
      intro h
      cases hb : x.getLsbD n with
      | true => right; exact ⟨n, hb, fun j hj => h j (by omega)⟩
      | false =>
        apply ih
        intro j hj
        rcases Nat.lt_or_ge n j with h' | h'
        · exact h j (by omega)
        · have : j = n := by omega
          rw [this]; exact hb
  rcases key w (fun j hj => BitVec.getLsbD_of_ge x j hj) with h | ⟨h, hh⟩
  · exact absurd (BitVec.eq_of_getLsbD_eq (by intro i _; simp [h i])) hx
  · exact ⟨h, hh, getLsbD_lt hh.1⟩

theorem exists_lowest {x : BitVec w} (hx : x ≠ 0) : ∃ l, IsLowest x l ∧ l < w := by
  have key : ∀ n, (∀ j, j < n → x.getLsbD j = false) ∨ ∃ l, IsLowest x l := by
    intro n
    induction n with
    | zero => left; intro j hj; omega
    | succ n ih =>
      rcases ih with h | h
      · cases hb : x.getLsbD n with
        | true => right; exact ⟨n, hb, h⟩
        | false =>
          left; intro j hj
          rcases Nat.lt_or_ge j n with h' | h'
          · exact h j h'
          · have : j = n := by omega
            rw [this]; exact hb
      · exact Or.inr h
  rcases key w with h | ⟨h, hh⟩
  · exact absurd (BitVec.eq_of_getLsbD_eq (by intro i hi; simp [h i hi])) hx
  · exact ⟨h, hh, getLsbD_lt hh.1⟩

/-- The `n` bits up to the highest one `h` are set. -/
def Smeared (y : BitVec w) (h n : Nat) : Prop :=
  (∀ j, h < j + n → j ≤ h → y.getLsbD j = true) ∧ ∀ j, h < j → y.getLsbD j = false

theorem smear_step {y : BitVec w} {h n : Nat} (hw : h < w) (hs : Smeared y h n) :
    Smeared (smear y n) h (n + n) := by
  constructor
  · intro j h1 h2
    unfold smear
    rw [BitVec.getLsbD_or, BitVec.getLsbD_sshiftRight]
    by_cases hc : h < j + n
    · rw [hs.1 j hc h2]; rfl
    · have : y.getLsbD (n + j) = true := hs.1 (n + j) (by omega) (by omega)
      simp [this, show n + j < w by omega, show j < w by omega]
  · intro j h1
    unfold smear
    rw [BitVec.getLsbD_or, BitVec.getLsbD_sshiftRight, hs.2 j h1]
    by_cases hj : j < w
    · by_cases hc : n + j < w
      · rw [if_pos hc, hs.2 (n + j) (by omega)]; simp
      · have : y.msb = false := by
          rw [BitVec.msb_eq_getLsbD_last]; exact hs.2 _ (by omega)
        simp [hc, this]
    · simp [show w ≤ j by omega]

theorem smeared_init {x : BitVec w} {h : Nat} (hx : IsHighest x h) : Smeared x h 1 := by
  refine ⟨?_, hx.2⟩
  intro j h1 h2
  have : j = h := by omega
  rw [this]; exact hx.1

theorem smeared_full {y : BitVec w} {h n : Nat} (hw : h < w) (hn : w ≤ n) (hs : Smeared y h n) :
    y.toNat = 2 ^ (h + 1) - 1 := by
  have : y = BitVec.ofNat w (2 ^ (h + 1) - 1) := by
    apply BitVec.eq_of_getLsbD_eq
    intro j hj
    rw [BitVec.getLsbD_ofNat, Nat.testBit_two_pow_sub_one]
    by_cases hc : j ≤ h
    · rw [hs.1 j (by omega) hc]; simp [hj]; omega
    · rw [hs.2 j (by omega)]; simp; omega
  rw [this, BitVec.toNat_ofNat]
  apply Nat.mod_eq_of_lt
  have : 2 ^ (h + 1) ≤ 2 ^ w := Nat.pow_le_pow_right (by omega) (by omega)
  have : 0 < 2 ^ (h + 1) := Nat.pow_pos (by omega)
  omega

theorem isBit_of_toNat {r : BitVec w} {h : Nat} (hr : r.toNat = 2 ^ h) : IsBit r h := by
  intro j
  rw [BitVec.getLsbD, hr, Nat.testBit_two_pow]
  simp [eq_comm]

theorem isBit_toNat {r : BitVec w} {h : Nat} (hr : IsBit r h) : r.toNat = 2 ^ h := by
  have hlt := getLsbD_lt ((hr h).mpr rfl)
  have : r = BitVec.twoPow w h := by
    apply BitVec.eq_of_getLsbD_eq
    intro j hj
    rw [BitVec.getLsbD_twoPow]
    cases hb : r.getLsbD j with
    | true => have := (hr j).mp hb; simp [this]; omega
    | false =>
      have : j ≠ h := fun h' => by rw [(hr j).mpr h'] at hb; simp at hb
      simp; omega
  rw [this, BitVec.toNat_twoPow, Nat.mod_eq_of_lt (Nat.pow_lt_pow_right (by omega) hlt)]

/-- The lowest one-bit survives `x & -x`, nothing else does. -/
theorem and_neg_isBit {x : BitVec w} {l : Nat} (h : IsLowest x l) : IsBit (x &&& -x) l := by
  have hl := getLsbD_lt h.1
  intro j
  rw [BitVec.getLsbD_and, BitVec.getLsbD_neg]
  have hex : (∃ k, k < j ∧ x.getLsbD k = true) ↔ l < j := by
    constructor
    · rintro ⟨k, hk, hb⟩
      rcases Nat.lt_or_ge k l with h' | h'
      · rw [h.2 k h'] at hb; simp at hb
      · omega
    · intro h'; exact ⟨l, h', h.1⟩
  simp only [hex]
  rcases Nat.lt_trichotomy j l with h' | h' | h'
  · rw [h.2 j h']; simp; omega
  · subst h'; rw [h.1]; simp
  · cases hb : x.getLsbD j with
    | false => simp; omega
    | true => have := getLsbD_lt hb; simp [h', this]; omega

/-! Shifts by literal counts -/

theorem shl_wrap (x : BitVec w) (k : Int) : shl .wrap x k = .ok (x <<< (k % w).toNat) := by simp [shl]
theorem shr_wrap (x : BitVec w) (k : Int) : shr .wrap x k = .ok (x >>> (k % w).toNat) := by simp [shr]
theorem sar_wrap (x : BitVec w) (k : Int) : sar .wrap x k = .ok (x.sshiftRight (k % w).toNat) := by simp [sar]

/-- Shifting a small enough word left is defined in both readings. -/
theorem shl_small (m : Sem) (x : BitVec w) (k : Nat) (hk : k < w) (hx : x.toNat < 2 ^ (w - k))
    (hk0 : 0 < k) : shl m x k = .ok (x <<< k) := by
  have e : ((k : Int) % w).toNat = k := by
    rw [Int.emod_eq_of_lt (by omega) (by omega)]; simp
  have hmsb : x.msb = false := by
    rw [BitVec.msb_eq_false_iff_two_mul_lt]
    have : 2 ^ (w - k) ≤ 2 ^ (w - 1) := Nat.pow_le_pow_right (by omega) (by omega)
    have : 2 ^ w = 2 * 2 ^ (w - 1) := by rw [← Nat.pow_succ']; congr 1; omega
    omega
  have hp : x.toNat * 2 ^ k < 2 ^ w := by
    have : 2 ^ w = 2 ^ (w - k) * 2 ^ k := by rw [← Nat.pow_add]; congr 1; omega
    rw [this]
    exact Nat.mul_lt_mul_of_pos_right hx (Nat.pow_pos (by omega))
  unfold shl
  rw [if_neg, e]
  rintro ⟨_, h | h | h | h⟩
  · omega
  · omega
  · rw [hmsb] at h; simp at h
  · simp only [Int.toNat_natCast] at h; omega

end Verif.Bits
