import Verif.Floats.Bits
import Verif.Floats.Spec
/-!
# The patterns of IEEE 754 and what the code makes of them
-/
namespace Verif.Floats

/-- The magnitude of exponent `e` and fraction `m`, in units. -/
def mag (f : Fmt) (e m : Nat) : Nat := if e = 0 then m else (2 ^ f.p + m) * 2 ^ (e - 1)

theorem two_w {f : Fmt} (F : f.Fits) : 2 * (f.bias + 1) = 2 ^ f.w := by
  have h1 := F.hb
  have h2 : f.w ≠ 0 := by
    intro h
    have : f.bias = 0 := by unfold Fmt.bias; rw [h]
    omega
  unfold Fmt.bias
  obtain ⟨w, hw⟩ : ∃ w, f.w = w + 1 := ⟨f.w - 1, by omega⟩
  have := Nat.two_pow_pos w
  rw [hw, Nat.add_sub_cancel, Nat.pow_succ]
  omega

/-- A pattern without the sign. -/
theorem ieee_pos {f : Fmt} {e m : Nat} (he : e < 2 ^ f.w) (hm : m < 2 ^ f.p) :
    ieee f (e * 2 ^ f.p + m) =
      if e = 2 ^ f.w - 1 then (if m = 0 then .inf false else .nan) else .fin false (mag f e m) := by
  have hP := Nat.two_pow_pos f.p
  have h1 : (e * 2 ^ f.p + m) / 2 ^ f.p = e := by
    rw [Nat.add_comm, Nat.add_mul_div_right _ _ hP, Nat.div_eq_of_lt hm, Nat.zero_add]
  have h2 : (e * 2 ^ f.p + m) % 2 ^ f.p = m := by
    rw [Nat.add_comm, Nat.add_mul_mod_self_right, Nat.mod_eq_of_lt hm]
  have h3 : (e * 2 ^ f.p + m) / 2 ^ (f.p + f.w) = 0 := by
    rw [Nat.pow_add, ← Nat.div_div_eq_div_mul, h1, Nat.div_eq_of_lt he]
  unfold ieee
  simp only [h1, h2, h3, Nat.mod_eq_of_lt he]
  unfold mag
  simp only [Nat.zero_mod]
  by_cases h : e = 0
  · simp [h]
  · simp [h]

/-- The sign. -/
theorem ieee_opp {f : Fmt} {b : Nat} (hb : b < 2 ^ f.last) :
    ieee f (b + 2 ^ f.last) = opposite (ieee f b) := by
  have hl : f.last = f.p + f.w := rfl
  have hP := Nat.two_pow_pos f.p
  rw [hl] at hb ⊢
  have h1 : (b + 2 ^ (f.p + f.w)) / 2 ^ (f.p + f.w) % 2 = 1 := by
    rw [Nat.add_div_right _ (Nat.two_pow_pos _), Nat.div_eq_of_lt hb]
  have h2 : (b + 2 ^ (f.p + f.w)) / 2 ^ f.p % 2 ^ f.w = b / 2 ^ f.p % 2 ^ f.w := by
    rw [Nat.pow_add, Nat.add_mul_div_left _ _ hP, Nat.add_mod_right]
  have h3 : (b + 2 ^ (f.p + f.w)) % 2 ^ f.p = b % 2 ^ f.p := by
    rw [Nat.pow_add, Nat.add_mul_mod_self_left]
  unfold ieee
  simp only [h1, h2, h3, Nat.div_eq_of_lt hb, Nat.zero_mod]
  split
  · split <;> rfl
  · split <;> rfl

/-- Every pattern below the sign bit has an exponent and a fraction. -/
theorem parts {f : Fmt} {b : Nat} (hb : b < 2 ^ f.last) :
    ∃ e m, b = e * 2 ^ f.p + m ∧ e < 2 ^ f.w ∧ m < 2 ^ f.p := by
  have hP := Nat.two_pow_pos f.p
  refine ⟨b / 2 ^ f.p, b % 2 ^ f.p, ?_, ?_, Nat.mod_lt _ hP⟩
  · rw [Nat.mul_comm]; exact (Nat.div_add_mod b _).symm
  · rw [Nat.div_lt_iff_lt_mul hP, ← Nat.pow_add]
    have hl : f.last = f.p + f.w := rfl
    rw [Nat.add_comm, ← hl]; exact hb

theorem mag_range {f : Fmt} {e m : Nat} (he : e ≠ 0) (hm : m < 2 ^ f.p) :
    2 ^ (f.p + e - 1) ≤ mag f e m ∧ mag f e m < 2 ^ (f.p + e) := by
  unfold mag
  rw [if_neg he]
  have e1 : 2 ^ (f.p + e - 1) = 2 ^ f.p * 2 ^ (e - 1) := by rw [← Nat.pow_add]; congr 1; omega
  have e2 : 2 ^ (f.p + e) = (2 * 2 ^ f.p) * 2 ^ (e - 1) := by
    rw [Nat.mul_comm 2, ← Nat.pow_succ, ← Nat.pow_add]; congr 1; omega
  rw [e1, e2]
  exact ⟨Nat.mul_le_mul_right _ (by omega), Nat.mul_lt_mul_of_pos_right (by omega) (Nat.two_pow_pos _)⟩

theorem mag_lt_pow {f : Fmt} {e m : Nat} (hm : m < 2 ^ f.p) : mag f e m < 2 ^ (f.p + e) := by
  by_cases he : e = 0
  · unfold mag; rw [if_pos he, he]; exact hm
  · exact (mag_range he hm).2

/-- Patterns are in the order of their magnitudes. -/
theorem mag_lt {f : Fmt} {e e' m m' : Nat} (hm : m < 2 ^ f.p) (hm' : m' < 2 ^ f.p)
    (h : e * 2 ^ f.p + m < e' * 2 ^ f.p + m') : mag f e m < mag f e' m' := by
  have hP := Nat.two_pow_pos f.p
  rcases Nat.lt_trichotomy e e' with h1 | h1 | h1
  · have h2 := mag_lt_pow (f := f) (e := e) hm
    have h3 := (mag_range (f := f) (e := e') (by omega) hm').1
    have h4 : 2 ^ (f.p + e) ≤ 2 ^ (f.p + e' - 1) := Nat.pow_le_pow_right (by decide) (by omega)
    omega
  · subst h1
    unfold mag
    by_cases he : e = 0
    · rw [if_pos he, if_pos he]; omega
    · rw [if_neg he, if_neg he]
      exact Nat.mul_lt_mul_of_pos_right (by omega) (Nat.two_pow_pos _)
  · have := Nat.mul_le_mul_right (2 ^ f.p) (show e' + 1 ≤ e from h1)
    rw [Nat.add_mul, Nat.one_mul] at this
    omega

theorem mag_lt_iff {f : Fmt} {e e' m m' : Nat} (hm : m < 2 ^ f.p) (hm' : m' < 2 ^ f.p) :
    mag f e m < mag f e' m' ↔ e * 2 ^ f.p + m < e' * 2 ^ f.p + m' := by
  constructor
  · intro h
    rcases Nat.lt_trichotomy (e * 2 ^ f.p + m) (e' * 2 ^ f.p + m') with h1 | h1 | h1
    · exact h1
    · have hP := Nat.two_pow_pos f.p
      have a1 : (e * 2 ^ f.p + m) / 2 ^ f.p = e := by
        rw [Nat.add_comm, Nat.add_mul_div_right _ _ hP, Nat.div_eq_of_lt hm, Nat.zero_add]
      have a2 : (e' * 2 ^ f.p + m') / 2 ^ f.p = e' := by
        rw [Nat.add_comm, Nat.add_mul_div_right _ _ hP, Nat.div_eq_of_lt hm', Nat.zero_add]
      have : e = e' := by rw [← a1, ← a2, h1]
      subst this
      have : m = m' := by omega
      subst this
      omega
    · have := mag_lt hm' hm h1
      omega
  · exact mag_lt hm hm'

/-- Nothing is lost of a fine magnitude. -/
theorem seen_exact {f : Fmt} (F : f.Fits) {e m : Nat} (hm : m < 2 ^ f.p)
    (hf : Fine f (mag f e m)) :
    seen f (mag f e m) * 2 ^ (f.unit - (f.p + 1)) = mag f e m := by
  have hD := Nat.two_pow_pos (f.unit - (f.p + 1))
  have hu := unit_le F
  rcases hf with ⟨h1, h2⟩ | ⟨h1, h2, h3⟩
  · unfold seen
    simp only [if_pos h1]
    exact Nat.div_mul_cancel h2
  · have he : e ≠ 0 := by
      intro h
      have := mag_lt_pow (f := f) (e := e) hm
      rw [h, Nat.add_zero] at this
      have h5 : 2 ^ f.p ≤ 2 ^ f.unit := Nat.pow_le_pow_right (by decide) (by omega)
      rw [h] at h1
      omega
    have h4 : f.unit < f.p + e := by
      have := (mag_range (f := f) he hm).2
      exact (Nat.pow_lt_pow_iff_right (by decide)).1 (Nat.lt_of_le_of_lt h1 this)
    have hdvd : 2 ^ (f.unit - (f.p + 1)) ∣ mag f e m := by
      unfold mag
      rw [if_neg he]
      exact Nat.dvd_trans (Nat.pow_dvd_pow 2 (by omega)) (Nat.dvd_mul_left _ _)
    generalize mag f e m = k at h1 h2 h3 hdvd
    have hv : k / 2 ^ (f.unit - (f.p + 1)) / 2 ^ f.p % 2 = 0 := by
      rw [Nat.div_div_eq_div_mul, ← Nat.pow_add]
      have e1 : f.unit - (f.p + 1) + f.p = f.unit - 1 := by omega
      rw [e1]
      have e2 : 2 ^ f.unit = 2 ^ (f.unit - 1) * 2 := by rw [← Nat.pow_succ]; congr 1; omega
      rw [e2, Nat.mod_mul] at h3
      have hp := Nat.two_pow_pos (f.unit - 1)
      generalize hq : k / 2 ^ (f.unit - 1) % 2 = q at h3
      rcases Nat.eq_zero_or_pos q with h | h
      · exact h
      · have := Nat.mul_le_mul_left (2 ^ (f.unit - 1)) h
        omega
    unfold seen
    simp only [if_neg (show ¬ k < 2 ^ f.unit by omega), hv, Nat.zero_mul, Nat.sub_zero]
    exact Nat.div_mul_cancel hdvd

/-- A fine magnitude comes out right. -/
theorem enc_fine {f : Fmt} (F : f.Fits) {e m : Nat} (hm : m < 2 ^ f.p) (hk : mag f e m ≠ 0)
    (hf : Fine f (mag f e m)) : enc f (seen f (mag f e m)) = e * 2 ^ f.p + m := by
  have hx := seen_exact F hm hf
  have hu := unit_le F
  have hb := F.hb
  have hun : f.unit = f.bias - 1 + f.p := rfl
  have hD := Nat.two_pow_pos (f.unit - (f.p + 1))
  have hP := Nat.two_pow_pos f.p
  generalize hV : seen f (mag f e m) = V at hx
  have hV0 : V ≠ 0 := by
    intro h; rw [h, Nat.zero_mul] at hx; exact hk hx.symm
  by_cases he : e = 0
  · exfalso
    have h1 := mag_lt_pow (f := f) (e := e) hm
    rw [he, Nat.add_zero] at h1
    rw [he] at hx
    have h2 : 2 ^ f.p ≤ 2 ^ (f.unit - (f.p + 1)) := Nat.pow_le_pow_right (by decide) (by omega)
    have h3 := Nat.le_mul_of_pos_left (2 ^ (f.unit - (f.p + 1))) (Nat.pos_of_ne_zero hV0)
    omega
  · have hr := mag_range (f := f) he hm
    have hDe : f.unit - (f.p + 1) < f.p + e := by
      have h3 := Nat.le_mul_of_pos_left (2 ^ (f.unit - (f.p + 1))) (Nat.pos_of_ne_zero hV0)
      exact (Nat.pow_lt_pow_iff_right (by decide)).1 (Nat.lt_of_le_of_lt (by omega) hr.2)
    have hL : V.log2 = f.p + e - 1 - (f.unit - (f.p + 1)) := by
      rw [Nat.log2_eq_iff hV0]
      constructor
      · apply Nat.le_of_mul_le_mul_right _ hD
        rw [hx, ← Nat.pow_add]
        have e1 : f.p + e - 1 - (f.unit - (f.p + 1)) + (f.unit - (f.p + 1)) = f.p + e - 1 := by omega
        rw [e1]; exact hr.1
      · apply Nat.lt_of_mul_lt_mul_right (a := 2 ^ (f.unit - (f.p + 1)))
        rw [hx, ← Nat.pow_add]
        have e1 : f.p + e - 1 - (f.unit - (f.p + 1)) + 1 + (f.unit - (f.p + 1)) = f.p + e := by omega
        rw [e1]; exact hr.2
    have hM : V * 2 ^ f.p / 2 ^ V.log2 = 2 ^ f.p + m := by
      rw [hL]
      have e1 : 2 ^ (f.p + e - 1 - (f.unit - (f.p + 1))) * 2 ^ (f.unit - (f.p + 1)) =
          2 ^ f.p * 2 ^ (e - 1) := by
        rw [← Nat.pow_add, ← Nat.pow_add]; congr 1; omega
      have e2 : V * 2 ^ f.p * 2 ^ (f.unit - (f.p + 1)) = (2 ^ f.p + m) * (2 ^ f.p * 2 ^ (e - 1)) := by
        rw [Nat.mul_right_comm, hx]
        unfold mag
        rw [if_neg he, Nat.mul_assoc, Nat.mul_comm (2 ^ (e - 1))]
      rw [← Nat.mul_div_mul_right _ _ hD, e2, e1, Nat.mul_div_cancel _ (Nat.mul_pos hP (Nat.two_pow_pos _))]
    unfold enc
    rw [if_neg hV0, hM, hL]
    have e3 : f.p + e - 1 - (f.unit - (f.p + 1)) + f.bias - (f.p + 1) = e := by omega
    rw [e3]
    omega

theorem fine_small {f : Fmt} {k : Nat} (h : Fine f k) : k < 2 ^ 30 * 2 ^ f.unit := by
  have := Nat.two_pow_pos f.unit
  rcases h with ⟨h, _⟩ | ⟨_, h, _⟩ <;> omega

/-- The bits of a fine value, with either sign. -/
theorem rawBits_fine {f : Fmt} (F : f.Fits) {e m : Nat} (neg : Bool) (hm : m < 2 ^ f.p)
    (hf : Fine f (mag f e m)) :
    rawBits f (.fin neg (mag f e m)) =
      .ok (if neg then -((e * 2 ^ f.p + m : Nat) : Int) else ((e * 2 ^ f.p + m : Nat) : Int)) := by
  by_cases hk : mag f e m = 0
  · have he : e = 0 ∧ m = 0 := by
      unfold mag at hk
      by_cases h : e = 0
      · rw [if_pos h] at hk; exact ⟨h, hk⟩
      · rw [if_neg h] at hk
        have := Nat.mul_pos (show 0 < 2 ^ f.p + m by have := Nat.two_pow_pos f.p; omega)
          (Nat.two_pow_pos (e - 1))
        omega
    rw [hk, rawBits_zero F, he.1, he.2]
    cases neg <;> simp
  · rw [rawBits_fin F hk (fine_small hf), enc_fine F hm hk hf]

/-! ### `longBitsToDouble` -/

theorem bitsLoop_ok {z : Nat} : ∀ (fuel n i : Nat) (g : Nat → Option Char), i < fuel → 1 ≤ i → n < 2 ^ i →
    i < z → g 1 = some '0' →
    ∃ g', bitsLoop fuel n (i : Int) ⟨z, g⟩ = .ok ⟨z, g'⟩ ∧
      (∀ j, i < j → g' j = g j) ∧ g' 0 = g 0 ∧
      ∀ j, 1 ≤ j → j ≤ i → g' j = some (bitChar (n / 2 ^ (i - j)))
  | 0, _, _, _, h, _, _, _, _ => absurd h (by omega)
  | fuel + 1, n, i, g, hf, hi1, hn, hz, hg => by
    unfold bitsLoop
    by_cases hc : n ≠ 0 ∨ (i : Int) > 1
    · rw [if_pos hc, wr_nat _ hz, Outcome.bind_ok]
      by_cases h1 : i = 1
      · -- the last place
        have e : (i : Int) - 1 = ((0 : Nat) : Int) := by omega
        have hn2 : n / 2 = 0 := by rw [h1] at hn; omega
        rw [e, hn2]
        obtain ⟨fuel, rfl⟩ : ∃ k, fuel = k + 1 := ⟨fuel - 1, by omega⟩
        unfold bitsLoop
        rw [if_neg (by omega)]
        refine ⟨_, rfl, ?_, ?_, ?_⟩
        · intro j hj; exact put_ne _ _ (by omega)
        · exact put_ne _ _ (by omega)
        · intro j a b
          have : j = i := by omega
          rw [this, put_same, Nat.sub_self, Nat.pow_zero, Nat.div_one]
      · have e : (i : Int) - 1 = ((i - 1 : Nat) : Int) := by omega
        rw [e]
        have hn' : n < 2 ^ (i - 1 + 1) := by
          have : i - 1 + 1 = i := by omega
          rw [this]; exact hn
        obtain ⟨g', e2, b1, b2, b3⟩ := bitsLoop_ok (z := z) fuel (n / 2) (i - 1) (put g i (bitChar n))
          (by omega) (by omega) (lt_half hn') (by omega) (by rw [put_ne _ _ (by omega)]; exact hg)
        refine ⟨g', e2, ?_, ?_, ?_⟩
        · intro j hj
          rw [b1 j (by omega), put_ne _ _ (by omega)]
        · rw [b2, put_ne _ _ (by omega)]
        · intro j a b
          by_cases hj : j = i
          · rw [hj, b1 i (by omega), put_same, Nat.sub_self, Nat.pow_zero, Nat.div_one]
          · rw [b3 j a (by omega), div_two_pow]
            congr 4
            omega
    · rw [if_neg hc]
      have hi : i = 1 := by omega
      have hn0 : n = 0 := by omega
      refine ⟨g, rfl, fun _ _ => rfl, rfl, ?_⟩
      intro j a b
      have : j = 1 := by omega
      rw [this, hg, hn0, Nat.zero_div]
      rfl

/-- The text of a `long`. -/
theorem bitsText_ok {b : Int} (h : b.natAbs < 2 ^ 63) :
    ∃ t, bitsText b = .ok t ∧ t[0]? = some (if b < 0 then '1' else '0') ∧
      ∀ j, 1 ≤ j → j ≤ 63 → t[j]? = some (bitChar (b.natAbs / 2 ^ (63 - j))) := by
  unfold bitsText malloc
  rw [fill_ok _ (by omega), Outcome.bind_ok, show (64 : Int) = ((64 : Nat) : Int) from rfl,
    wr_nat _ (by omega), Outcome.bind_ok]
  have main : ∀ (c : Char) (g : Nat → Option Char), c ≠ '\x00' → g 0 = some c → g 1 = some '0' →
      g 64 = some '\x00' → ∃ t, (((bitsLoop 100 b.natAbs 63 ⟨65, g⟩).bind fun m => m.cstr 0 65) :
        Outcome (List Char)) = .ok t ∧ t[0]? = some c ∧
      ∀ j, 1 ≤ j → j ≤ 63 → t[j]? = some (bitChar (b.natAbs / 2 ^ (63 - j))) := by
    intro c g hc h0 h1 h64
    obtain ⟨g', e, a1, a2, a3⟩ := bitsLoop_ok (z := 65) 100 b.natAbs 63 g (by omega) (by omega) h
      (by omega) h1
    have e' : bitsLoop 100 b.natAbs 63 ⟨65, g⟩ = .ok ⟨65, g'⟩ := e
    rw [e', Outcome.bind_ok]
    obtain ⟨t, e2, hl, ht⟩ := cstr_ok (n := 65) (g := g') 64 0 (by omega)
      (fun j _ hj => by
        by_cases hj0 : j = 0
        · rw [hj0, a2]; exact ⟨_, h0, hc⟩
        · refine ⟨_, a3 j (by omega) (by omega), ?_⟩
          rcases bitChar_cases (b.natAbs / 2 ^ (63 - j)) with h | h <;> rw [h] <;> decide)
      (by rw [Nat.zero_add, a1 64 (by omega), h64])
    refine ⟨t, e2, ?_, ?_⟩
    · have := ht 0 (by omega)
      rw [Nat.zero_add, a2, h0] at this
      exact this
    · intro j hj1 hj2
      have := ht j (by omega)
      rw [Nat.zero_add, a3 j hj1 hj2] at this
      exact this
  let g0 : Nat → Option Char := put (fun j => if j < 64 then some '0' else none) 64 '\x00'
  show ∃ t, (((if b < 0 then if b = -2 ^ 63 then .ub
      else (Mem.wr ⟨65, g0⟩ 0 '1').bind fun m => bitsLoop 100 b.natAbs 63 m
    else bitsLoop 100 b.natAbs 63 ⟨65, g0⟩).bind fun m => m.cstr 0 65) : Outcome (List Char)) = .ok t ∧ _
  by_cases hneg : b < 0
  · have ew : Mem.wr ⟨65, g0⟩ 0 '1' = .ok ⟨65, put g0 0 '1'⟩ := wr_nat (i := 0) '1' (by omega)
    rw [if_pos hneg, if_neg (by omega), ew, Outcome.bind_ok]
    obtain ⟨t, e, h1, h2⟩ := main '1' (put g0 0 '1') (by decide) (put_same _ 0 '1')
      (by rw [put_ne _ _ (by omega)]; rfl) (by rw [put_ne _ _ (by omega)]; rfl)
    exact ⟨t, e, by rw [h1, if_pos hneg], h2⟩
  · rw [if_neg hneg]
    obtain ⟨t, e, h1, h2⟩ := main '0' g0 (by decide) rfl rfl rfl
    exact ⟨t, e, by rw [h1, if_neg hneg], h2⟩

/-- What `longBitsToDouble` makes of a `long`: sign and magnitude. -/
theorem ofBits_ok {b : Int} (h : b.natAbs < 2 ^ 63) :
    ofBits b = .ok (compose (decide (b < 0)) (b.natAbs / 2 ^ 52) (b.natAbs % 2 ^ 52)) := by
  obtain ⟨t, e, h0, ht⟩ := bitsText_ok h
  unfold ofBits
  rw [e, Outcome.bind_ok]
  unfold textValue
  have hc : charAt t 0 = .ok (if b < 0 then '1' else '0') := by
    unfold charAt; rw [h0]
  rw [hc, Outcome.bind_ok]
  rw [sumLoop_ok (B := b.natAbs / 2 ^ 52) 11 1 0 0 (fun j hj => by
    rw [ht (1 + j) (by omega) (by omega), Nat.div_div_eq_div_mul, ← Nat.pow_add]
    congr 4
    omega)]
  rw [Outcome.bind_ok, sumLoop_ok (B := b.natAbs) 52 12 0 0 (fun j hj => by
    rw [ht (12 + j) (by omega) (by omega)]
    congr 4
    omega)]
  rw [Outcome.bind_ok]
  have h1 : b.natAbs / 2 ^ 52 % 2 ^ 11 = b.natAbs / 2 ^ 52 := by
    apply Nat.mod_eq_of_lt
    rw [Nat.div_lt_iff_lt_mul (by decide)]
    have : (2 : Nat) ^ 11 * 2 ^ 52 = 2 ^ 63 := by decide
    omega
  rw [h1]
  simp only [Int.zero_add, Int.toNat_natCast]
  congr 2
  by_cases hneg : b < 0
  · simp [hneg]
  · simp [hneg]

/-- The values of `compose`: right from exponent 1 on. -/
theorem compose_normal {e m : Nat} (he : e ≠ 0) (hm : m < 2 ^ 52) (he' : e < 2 ^ 11) (neg : Bool)
    (hnan : e = 2047 → m = 0) :
    compose neg e m = if neg then opposite (ieee f64 (e * 2 ^ 52 + m)) else ieee f64 (e * 2 ^ 52 + m) := by
  have h := ieee_pos (f := f64) (e := e) (m := m) he' hm
  have h' : ieee f64 (e * 2 ^ 52 + m) = _ := h
  rw [h']
  unfold compose
  by_cases h1 : e = 2047
  · rw [if_pos h1, if_pos (show e = 2 ^ f64.w - 1 from h1), if_pos (hnan h1)]
    cases neg <;> rfl
  · rw [if_neg h1, if_neg he, if_neg (show ¬ e = 2 ^ f64.w - 1 from h1)]
    unfold mag
    rw [if_neg he]
    cases neg <;> rfl

end Verif.Floats
