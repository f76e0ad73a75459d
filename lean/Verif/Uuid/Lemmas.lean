import Verif.Uuid.Model
import Verif.Uuid.Spec
import Verif.NumText.LongProps
import Verif.JString.Props
/-! # Lemmas about UUID text -/
namespace Verif.Uuid
open Verif.CInt Verif.Bits Verif.NumText Verif.JString

theorem shl_one (m : Sem) (k : Nat) (hk : k ≤ 15) : shl m (1 : BitVec 64) ((k : Int) * 4) = .ok (1#64 <<< (4 * k)) := by
  have : k = 0 ∨ k = 1 ∨ k = 2 ∨ k = 3 ∨ k = 4 ∨ k = 5 ∨ k = 6 ∨ k = 7 ∨ k = 8 ∨ k = 9 ∨ k = 10 ∨ k = 11 ∨ k = 12 ∨ k = 13 ∨ k = 14 ∨ k = 15 := by omega
  rcases this with h | h | h | h | h | h | h | h | h | h | h | h | h | h | h | h <;> subst h <;> cases m <;> rfl

theorem sub_one (m : Sem) (k : Nat) (hk : k ≤ 15) : sub m (1#64 <<< (4 * k)) 1 = .ok (1#64 <<< (4 * k) - 1) := by
  have : k = 0 ∨ k = 1 ∨ k = 2 ∨ k = 3 ∨ k = 4 ∨ k = 5 ∨ k = 6 ∨ k = 7 ∨ k = 8 ∨ k = 9 ∨ k = 10 ∨ k = 11 ∨ k = 12 ∨ k = 13 ∨ k = 14 ∨ k = 15 := by omega
  rcases this with h | h | h | h | h | h | h | h | h | h | h | h | h | h | h | h <;> subst h <;> cases m <;> rfl

theorem padded (v : BitVec 64) (k : Nat) (hk : k ≤ 15) :
    (1#64 <<< (4 * k) ||| (v &&& (1#64 <<< (4 * k) - 1))).toNat = 16 ^ k + v.toNat % 16 ^ k := by
  have h1 : (1#64 <<< (4 * k)).toNat = 2 ^ (4 * k) := by
    rw [BitVec.toNat_shiftLeft]
    show (1 <<< (4 * k)) % 2 ^ 64 = _
    rw [Nat.shiftLeft_eq, Nat.one_mul]
    exact Nat.mod_eq_of_lt (Nat.pow_lt_pow_right (by omega) (by omega))
  have h2 : (1#64 <<< (4 * k) - 1).toNat = 2 ^ (4 * k) - 1 := by
    have hp : 0 < 2 ^ (4 * k) := Nat.pow_pos (by omega)
    rw [BitVec.toNat_sub_of_le]
    · rw [h1]; rfl
    · rw [BitVec.le_def, h1]; exact hp
  rw [BitVec.toNat_or, BitVec.toNat_and, h2, h1, Nat.and_two_pow_sub_one_eq_mod, show (16 : Nat) = 2 ^ 4 from rfl, ← Nat.pow_mul]
  have := Nat.two_pow_add_eq_or_of_lt (Nat.mod_lt v.toNat (Nat.pow_pos (by omega : 0 < 2) : 0 < 2 ^ (4 * k))) 1
  rw [Nat.mul_one] at this
  exact this.symm

/-- `digits` gives exactly `k` digits of the low `4k` bits. -/
theorem digits_hex (m : Sem) (v : BitVec 64) (k : Nat) (h1 : 1 ≤ k) (hk : k ≤ 15) :
    ∃ t, digits m v k = .ok t ∧ Hex k t (v.toNat % 16 ^ k) := by
  unfold digits
  rw [shl_one m k hk]
  simp only [Outcome.bind_eq, Outcome.bind_ok]
  rw [sub_one m k hk]
  simp only [Outcome.bind_ok]
  have hp := padded v k hk
  generalize 1#64 <<< (4 * k) ||| (v &&& (1#64 <<< (4 * k) - 1)) = w at hp
  have hpos : 0 < 16 ^ k := Nat.pow_pos (by omega)
  have hlt := Nat.mod_lt v.toNat hpos
  generalize hu : v.toNat % 16 ^ k = u at hp hlt
  obtain ⟨n, hn, b1, b2, h3⟩ := toUnsignedString0_digits w 4 (by omega) (by omega)
  have hb := digits_bound hn b2
  have hnk : n = k + 1 := by
    rw [show (2 : Nat) ^ 4 = 16 from rfl] at b1 b2
    have c1 : k < n := by
      rcases Nat.lt_or_ge k n with h | h
      · exact h
      · have := Nat.pow_le_pow_right (by omega : 0 < 16) h
        omega
    have c2 : n - 1 < k + 1 := by
      rcases b2 with ⟨h, _⟩ | h
      · omega
      · have : 16 ^ (n - 1) < 16 ^ (k + 1) := by rw [Nat.pow_succ]; omega
        exact (Nat.pow_lt_pow_iff_right (by omega)).mp this
    omega
  subst hnk
  have hnib : ∀ j, j < k → nib 4 w j = u / 16 ^ j % 16 := by
    intro j hj
    rw [nib_eq 4 w j (Or.inl (by omega)), Nat.pow_mul, hp, show (2 : Nat) ^ 4 = 16 from rfl]
    have e : 16 ^ k = 16 ^ j * (16 * 16 ^ (k - j - 1)) := by
      rw [← Nat.pow_succ', ← Nat.pow_add]; congr 1; omega
    rw [e, Nat.add_comm, Nat.add_mul_div_left _ _ (Nat.pow_pos (by omega)), Nat.add_mul_mod_self_left]
  have hnum := digit_prefix 16 (by omega) (by omega) (nib 4 w) u k hlt hnib (k - 1) (by omega)
  rw [show k - 1 + 1 = k by omega, show k - 1 - (k - 1) = 0 by omega, Nat.pow_zero, Nat.div_one] at hnum
  refine ⟨(List.range k).map fun j => digitChar (nib 4 w (k - 1 - j)), ?_, by simp, hnum, ?_⟩
  · unfold longToHexString
    rw [h3]
    simp only [Outcome.bind_ok]
    rw [show (1 : Int) = ((1 : Nat) : Int) from rfl, from_drop _ _ (by simp; omega)]
    congr 1
    rw [List.range_succ_eq_map, List.map_cons, List.drop_one, List.tail_cons, List.map_map]
    apply List.map_congr_left
    intro j _
    show digitChar (nib 4 w (k + 1 - 1 - (j + 1))) = _
    congr 2; omega
  · intro c hc
    rw [List.mem_map] at hc
    obtain ⟨j, hj, rfl⟩ := hc
    have : j < k := List.mem_range.mp hj
    rw [hnib _ (by omega)]
    have : u / 16 ^ (k - 1 - j) % 16 < 16 := Nat.mod_lt _ (by omega)
    exact digitChar_lower (by omega)

/-- A digit is not a dash. -/
theorem hex_no_dash {n : Nat} {t : List Byte} {v : Nat} (h : Hex n t v) : chr '-' ∉ t := by
  intro hm
  obtain ⟨d, hd⟩ := h.2.1.mem _ hm
  have h1 : digitVal (chr '-') = none := by decide
  rw [IsDigit, h1] at hd
  cases hd.1

theorem numeral_lt {b : Nat} {t : List Byte} {v : Nat} (h : Numeral b t v) : v < b ^ t.length := by
  induction h with
  | one h => simpa using h.2
  | @snoc t n c d _ hd ih =>
    rw [List.length_append, List.length_singleton, Nat.pow_succ]
    have h1 := hd.2
    have h2 : (n + 1) * b ≤ b ^ t.length * b := Nat.mul_le_mul_right b ih
    have h3 : (n + 1) * b = n * b + b := by rw [Nat.add_mul, Nat.one_mul]
    omega

theorem hex_lt {n : Nat} {t : List Byte} {v : Nat} (h : Hex n t v) : v < 16 ^ n := by
  have := numeral_lt h.2.1
  rwa [h.1] at this

/-- A component is read back. -/
theorem component_hex {n : Nat} {t : List Byte} {v : Nat} (h : Hex n t v) (hn : n ≤ 15) :
    component t = .ok (BitVec.ofNat 64 v) := by
  unfold component
  have hv : v < 2 ^ 63 := by
    have h1 := hex_lt h
    have h2 : 16 ^ n ≤ 16 ^ 15 := Nat.pow_le_pow_right (by omega) hn
    have h3 : (16 : Nat) ^ 15 < 2 ^ 63 := by decide
    omega
  have := C16_decode_hex [] (txt "0x") t false v .none (Or.inl rfl) h.2 hv
  rw [List.nil_append] at this
  rw [this]
  simp only [Outcome.bind_eq, Outcome.bind_ok]
  rfl

theorem pieces_single {d : Byte} {p t : List Byte} {ps : List (List Byte)} (h : d ∉ p) (ht : Pieces [d] t ps) :
    Pieces [d] (p ++ [d] ++ t) (p :: ps) := by
  refine Pieces.cut ?_ ht
  intro i hi ho
  rw [occursAt_single, List.append_assoc, List.getElem?_append_left hi] at ho
  exact h (List.mem_of_getElem? ho)

theorem pieces_last {d : Byte} {p : List Byte} (h : d ∉ p) : Pieces [d] p [p] := by
  refine Pieces.last ?_
  intro i ho
  rw [occursAt_single] at ho
  exact h (List.mem_of_getElem? ho)

end Verif.Uuid
