import Verif.FloatText.Round
/-!
# `%g`: six significant digits
-/
namespace Verif.FloatText
open Verif.Floats

theorem dropZeros_split (l : List Char) : ∃ j, l = dropZeros l ++ List.replicate j '0' := by
  have key : ∀ r : List Char, ∃ j, r = List.replicate j '0' ++ r.dropWhile (· = '0') := by
    intro r
    induction r with
    | nil => exact ⟨0, rfl⟩
    | cons c r ih =>
      by_cases h : c = '0'
      · obtain ⟨j, hj⟩ := ih
        refine ⟨j + 1, ?_⟩
        rw [List.dropWhile_cons_of_pos (by simpa using h), List.replicate_succ, List.cons_append, ← hj, h]
      · exact ⟨0, by rw [List.dropWhile_cons_of_neg (by simpa using h)]; rfl⟩
  obtain ⟨j, hj⟩ := key l.reverse
  refine ⟨j, ?_⟩
  have := congrArg List.reverse hj
  rw [List.reverse_reverse, List.reverse_append, List.reverse_replicate] at this
  exact this

theorem natOf_zeros (l : List Char) (j : Nat) : natOf (l ++ List.replicate j '0') = natOf l * 10 ^ j := by
  rw [natOf_append, List.length_replicate]
  have : natOf (List.replicate j '0') = 0 := by
    induction j with
    | zero => rfl
    | succ j ih =>
      rw [List.replicate_succ']
      rw [natOf_append, ih]; rfl
  rw [this]; rfl

theorem natOf_lead (l : List Char) (j : Nat) : natOf (List.replicate j '0' ++ l) = natOf l := by
  rw [natOf_append]
  have := natOf_zeros [] j
  rw [List.nil_append] at this
  rw [this]
  show 0 * 10 ^ j * 10 ^ l.length + natOf l = natOf l
  omega

theorem digits_zeros (j : Nat) : Digits (List.replicate j '0') := by
  intro c h
  rw [List.eq_of_mem_replicate h]
  decide

theorem digits_of_append {l r : List Char} (h : Digits (l ++ r)) : Digits l ∧ Digits r :=
  ⟨fun c hc => h c (List.mem_append_left _ hc), fun c hc => h c (List.mem_append_right _ hc)⟩

theorem sign_of (neg : Bool) : SignOf (signText neg) neg := by
  cases neg
  · exact .inr ⟨.inl rfl, rfl⟩
  · exact .inl ⟨rfl, rfl⟩

/-- Digits, a point, digits without the zeros at the end, an exponent. -/
theorem denotes_pointed {i fr ex : List Char} {e : Int} (neg : Bool) (hi : Digits i) (hi0 : i ≠ [])
    (hf : Digits fr) (hex : ExponentOf ex e) :
    ∃ n j : Nat, Denotes (signText neg ++ (i ++ (pointed (dropZeros fr) ++ ex))) neg n
        (e - fr.length + j) ∧ natOf (i ++ fr) = n * 10 ^ j ∧ j ≤ fr.length := by
  obtain ⟨j, hj⟩ := dropZeros_split fr
  have hd : Digits (dropZeros fr) := by rw [hj] at hf; exact (digits_of_append hf).1
  have hlen : fr.length = (dropZeros fr).length + j := by
    have := congrArg List.length hj
    rwa [List.length_append, List.length_replicate] at this
  refine ⟨natOf (i ++ dropZeros fr), j, ⟨signText neg, i, dropZeros fr, pointed (dropZeros fr), ex, e,
    sign_of neg, hi, hi0, hd, ?_, hex, rfl, rfl, by omega⟩, ?_, by omega⟩
  · unfold pointed
    split
    · rename_i h; exact .inr ⟨rfl, h⟩
    · exact .inl rfl
  · rw [← natOf_zeros, List.append_assoc, ← hj]

theorem exponent_text (x : Int) :
    ExponentOf (['e', if x < 0 then '-' else '+'] ++
      (if x.natAbs < 10 then padded 2 x.natAbs else decimal x.natAbs)) x := by
  have hd : Digits (if x.natAbs < 10 then padded 2 x.natAbs else decimal x.natAbs) ∧
      (if x.natAbs < 10 then padded 2 x.natAbs else decimal x.natAbs) ≠ [] ∧
      natOf (if x.natAbs < 10 then padded 2 x.natAbs else decimal x.natAbs) = x.natAbs := by
    split
    · refine ⟨padded_digits _ _, ?_, ?_⟩
      · intro h
        have := congrArg List.length h
        rw [padded_length] at this
        cases this
      · rw [padded_val, Nat.mod_eq_of_lt (by omega)]
    · obtain ⟨h1, h2, h3, _⟩ := decimal_ok x.natAbs
      exact ⟨h1, h2, h3⟩
  generalize (if x.natAbs < 10 then padded 2 x.natAbs else decimal x.natAbs) = d at *
  obtain ⟨h1, h2, h3⟩ := hd
  by_cases hx : x < 0
  · refine .inr ⟨'e', ['-'], d, true, .inl rfl, .inl ⟨rfl, rfl⟩, h1, h2, ?_, ?_⟩
    · rw [if_pos hx]; rfl
    · rw [h3, if_pos rfl]; omega
  · refine .inr ⟨'e', ['+'], d, false, .inl rfl, .inr ⟨.inr rfl, rfl⟩, h1, h2, ?_, ?_⟩
    · rw [if_neg hx]; rfl
    · rw [h3, if_neg (by decide)]; omega

/-- What `%g` prints from six digits `v` and the exponent `x`. -/
def sixText (neg : Bool) (v : Nat) (x : Int) : List Char :=
  signText neg ++
    if x < -4 ∨ 6 ≤ x then
      (padded 6 v).take 1 ++ pointed (dropZeros ((padded 6 v).drop 1)) ++ ['e', if x < 0 then '-' else '+'] ++
        (if x.natAbs < 10 then padded 2 x.natAbs else decimal x.natAbs)
    else if 0 ≤ x then
      (padded 6 v).take (x.toNat + 1) ++ pointed (dropZeros ((padded 6 v).drop (x.toNat + 1)))
    else ['0', '.'] ++ List.replicate ((-x).toNat - 1) '0' ++ dropZeros (padded 6 v)

theorem sixText_denotes (neg : Bool) {v : Nat} (x : Int) (hv : v < 10 ^ 6) :
    ∃ n j : Nat, Denotes (sixText neg v x) neg n (x - 5 + j) ∧ v = n * 10 ^ j ∧ j ≤ 6 := by
  have hlen := padded_length 6 v
  have hdig := padded_digits 6 v
  have hval := padded_val 6 v
  rw [Nat.mod_eq_of_lt hv] at hval
  unfold sixText
  generalize padded 6 v = t at *
  have hsplit : ∀ m, 0 < m → m ≤ 6 → Digits (t.take m) ∧ t.take m ≠ [] ∧ Digits (t.drop m) ∧
      (t.drop m).length = 6 - m ∧ t.take m ++ t.drop m = t := by
    intro m h0 hm
    have h := List.take_append_drop m t
    have h2 := hdig
    rw [← h] at h2
    obtain ⟨h3, h4⟩ := digits_of_append h2
    refine ⟨h3, ?_, h4, by rw [List.length_drop, hlen], h⟩
    intro h5
    have := congrArg List.length h5
    rw [List.length_take, hlen, List.length_nil] at this
    omega
  split
  · obtain ⟨h1, h2, h3, h4, h5⟩ := hsplit 1 (by decide) (by decide)
    obtain ⟨n, j, hn, hj, hj6⟩ := denotes_pointed neg h1 h2 h3 (exponent_text x)
    refine ⟨n, j, ?_, ?_, by omega⟩
    · rw [h4] at hn
      simp only [List.append_assoc] at hn ⊢
      exact hn
    · rw [h5] at hj; omega
  · split
    · obtain ⟨h1, h2, h3, h4, h5⟩ := hsplit (x.toNat + 1) (by omega) (by omega)
      obtain ⟨n, j, hn, hj, hj6⟩ := denotes_pointed (ex := []) neg h1 h2 h3 (.inl ⟨rfl, rfl⟩)
      refine ⟨n, j, ?_, ?_, by omega⟩
      · rw [h4, List.append_nil] at hn
        have e1 : (0 : Int) - ((6 - (x.toNat + 1) : Nat) : Int) + j = x - 5 + j := by omega
        rw [e1] at hn
        exact hn
      · rw [h5] at hj; omega
    · obtain ⟨j, hj⟩ := dropZeros_split t
      have hd : Digits (dropZeros t) := by rw [hj] at hdig; exact (digits_of_append hdig).1
      have hl : t.length = (dropZeros t).length + j := by
        have := congrArg List.length hj
        rwa [List.length_append, List.length_replicate] at this
      refine ⟨natOf (dropZeros t), j, ?_, ?_, by omega⟩
      · refine ⟨signText neg, ['0'], List.replicate ((-x).toNat - 1) '0' ++ dropZeros t, _, [], 0,
          sign_of neg, by intro c h; rw [List.mem_singleton.1 h]; decide, by simp,
          digits_append (digits_zeros _) hd, .inl rfl, .inl ⟨rfl, rfl⟩, ?_, ?_, ?_⟩
        · simp [List.append_assoc]
        · show _ = natOf (List.replicate 1 '0' ++ _)
          rw [natOf_lead, natOf_lead]
        · rw [List.length_append, List.length_replicate]; omega
      · rw [← natOf_zeros, ← hj, hval]

theorem scaleLoop_ok {f : Fmt} {k : Nat} : ∀ fuel j, (∀ i < j, k * 10 ^ i < 2 ^ f.unit) →
    2 ^ f.unit ≤ k * 10 ^ (j + fuel) →
    2 ^ f.unit ≤ k * 10 ^ scaleLoop f k fuel j ∧ ∀ i < scaleLoop f k fuel j, k * 10 ^ i < 2 ^ f.unit := by
  intro fuel
  induction fuel with
  | zero => intro j h1 h2; exact ⟨h2, h1⟩
  | succ fuel ih =>
    intro j h1 h2
    unfold scaleLoop
    split
    · rename_i h; exact ⟨h, h1⟩
    · rename_i h
      refine ih (j + 1) ?_ (by rw [show j + 1 + fuel = j + (fuel + 1) by omega]; exact h2)
      intro i hi
      rcases Nat.lt_or_eq_of_le (Nat.le_of_lt_succ hi) with h' | h'
      · exact h1 i h'
      · rw [h']; omega

theorem decLoop_long (fuel v : Nat) (h : v < 2 ^ fuel) (hf : fuel ≠ 0) (h0 : v ≠ 0) :
    10 ^ ((decLoop fuel v).length - 1) ≤ v ∧ v < 10 ^ (decLoop fuel v).length := by
  induction fuel generalizing v with
  | zero => exact absurd rfl hf
  | succ fuel ih =>
    unfold decLoop
    split
    · rename_i hv
      show 10 ^ 0 ≤ v ∧ v < 10 ^ 1
      omega
    · rename_i hv
      have hlt : v / 10 < 2 ^ fuel := by rw [Nat.pow_succ] at h; omega
      have hf0 : fuel ≠ 0 := by rintro rfl; rw [Nat.pow_zero] at hlt; omega
      obtain ⟨h1, h2⟩ := ih (v / 10) hlt hf0 (by omega)
      rw [List.length_append, List.length_singleton, Nat.add_sub_cancel, Nat.pow_succ]
      have hp : (decLoop fuel (v / 10)).length ≠ 0 := by
        intro h; rw [h] at h2; omega
      obtain ⟨c, hc⟩ : ∃ c, (decLoop fuel (v / 10)).length = c + 1 := ⟨(decLoop fuel (v / 10)).length - 1, by omega⟩
      rw [hc] at h1 h2 ⊢
      rw [Nat.add_sub_cancel] at h1
      rw [Nat.pow_succ] at h2 ⊢
      omega

/-- `k` units times `10 ^ s` as a fraction. -/
def scaleNum (k : Nat) (s : Int) : Nat := if 0 ≤ s then k * 10 ^ s.toNat else k
/-- Its denominator. -/
def scaleDen (f : Fmt) (s : Int) : Nat := if 0 ≤ s then 2 ^ f.unit else 2 ^ f.unit * 10 ^ (-s).toNat

theorem scaled_eq (f : Fmt) (k : Nat) (s : Int) : scaled f k s = divEven (scaleNum k s) (scaleDen f s) := by
  unfold scaled scaleNum scaleDen
  split <;> rfl

theorem exponent10_ok {f : Fmt} {k : Nat} (hk : k ≠ 0) :
    10 ^ 5 * scaleDen f (5 - exponent10 f k) ≤ scaleNum k (5 - exponent10 f k) ∧
    scaleNum k (5 - exponent10 f k) < 10 ^ 6 * scaleDen f (5 - exponent10 f k) := by
  have hU := Nat.two_pow_pos f.unit
  unfold exponent10
  split
  · rename_i h
    have hq : k / 2 ^ f.unit ≠ 0 := Nat.ne_of_gt (Nat.div_pos h hU)
    obtain ⟨h1, h2⟩ := decLoop_long _ _ Nat.lt_log2_self (Nat.succ_ne_zero _) hq
    change 10 ^ ((decimal (k / 2 ^ f.unit)).length - 1) ≤ _ at h1
    change _ < 10 ^ (decimal (k / 2 ^ f.unit)).length at h2
    have hl : 0 < (decimal (k / 2 ^ f.unit)).length := List.length_pos_iff.2 (decimal_ok _).2.1
    have h3 := (Nat.le_div_iff_mul_le hU).1 h1
    have h4 := (Nat.div_lt_iff_lt_mul hU).1 h2
    generalize (decimal (k / 2 ^ f.unit)).length = l at *
    obtain ⟨c, rfl⟩ : ∃ c, l = c + 1 := ⟨l - 1, by omega⟩
    rw [Nat.add_sub_cancel] at h3
    have e1 : (5 : Int) - ((c + 1 : Nat) - 1) = 5 - c := by omega
    rw [e1]
    unfold scaleNum scaleDen
    generalize 2 ^ f.unit = U at *
    by_cases h5 : c ≤ 5
    · rw [if_pos (by omega), if_pos (by omega)]
      obtain ⟨d, hd⟩ : ∃ d, c + d = 5 := ⟨5 - c, by omega⟩
      have e2 : ((5 : Int) - c).toNat = d := by omega
      rw [e2]
      have h6 : 10 ^ c * U * 10 ^ d ≤ k * 10 ^ d := Nat.mul_le_mul_right _ h3
      have h7 : k * 10 ^ d < 10 ^ (c + 1) * U * 10 ^ d :=
        Nat.mul_lt_mul_of_pos_right h4 (Nat.pow_pos (by decide))
      have e3 : 10 ^ c * U * 10 ^ d = 10 ^ 5 * U := by
        rw [← hd, Nat.pow_add, Nat.mul_right_comm]
      have e4 : 10 ^ (c + 1) * U * 10 ^ d = 10 ^ 6 * U := by
        rw [show 6 = c + 1 + d by omega, Nat.pow_add 10 (c + 1), Nat.mul_right_comm]
      omega
    · rw [if_neg (by omega), if_neg (by omega)]
      obtain ⟨d, hd⟩ : ∃ d, 5 + d = c := ⟨c - 5, by omega⟩
      have e2 : (-((5 : Int) - c)).toNat = d := by omega
      rw [e2]
      have e3 : 10 ^ c * U = 10 ^ 5 * (U * 10 ^ d) := by
        rw [← hd, Nat.pow_add, Nat.mul_assoc, Nat.mul_comm (10 ^ d)]
      have e4 : 10 ^ (c + 1) * U = 10 ^ 6 * (U * 10 ^ d) := by
        rw [show c + 1 = 6 + d by omega, Nat.pow_add 10 6, Nat.mul_assoc, Nat.mul_comm (10 ^ d)]
      omega
  · rename_i h
    have hfuel : 2 ^ f.unit ≤ k * 10 ^ (0 + f.unit) := by
      rw [Nat.zero_add]
      have h1 : 2 ^ f.unit ≤ 10 ^ f.unit := Nat.pow_le_pow_left (by decide) _
      exact Nat.le_trans h1 (Nat.le_mul_of_pos_left _ (by omega))
    obtain ⟨h1, h2⟩ := scaleLoop_ok (f := f) (k := k) f.unit 0 (fun i hi => absurd hi (by omega)) hfuel
    generalize scaleLoop f k f.unit 0 = j at *
    have hj : j ≠ 0 := by
      rintro rfl
      rw [Nat.pow_zero, Nat.mul_one] at h1
      omega
    obtain ⟨c, rfl⟩ : ∃ c, j = c + 1 := ⟨j - 1, by omega⟩
    have h3 := h2 c (by omega)
    unfold scaleNum scaleDen
    rw [if_pos (by omega), if_pos (by omega)]
    have e2 : ((5 : Int) - -((c + 1 : Nat) : Int)).toNat = 5 + (c + 1) := by omega
    have e3 : ((5 : Int) - -((c + 1 : Nat) : Int)).toNat = 6 + c := by omega
    generalize 2 ^ f.unit = U at *
    refine ⟨?_, ?_⟩
    · rw [e2, Nat.pow_add, Nat.mul_left_comm]
      exact Nat.mul_le_mul_left _ h1
    · rw [e3, Nat.pow_add, Nat.mul_left_comm]
      exact Nat.mul_lt_mul_of_pos_left h3 (by decide)

theorem scaleDen_pos (f : Fmt) (s : Int) : 0 < scaleDen f s := by
  unfold scaleDen
  split
  · exact Nat.two_pow_pos _
  · exact Nat.mul_pos (Nat.two_pow_pos _) (Nat.pow_pos (by decide))

/-- The text of a value other than zero: six digits, rounded. -/
theorem shortText_six {f : Fmt} {k : Nat} (neg : Bool) (hk : k ≠ 0) :
    ∃ x v y u, shortText f (.fin neg k) = sixText neg v x ∧ 10 ^ 5 ≤ v ∧ v < 10 ^ 6 ∧
      u = divEven (scaleNum k (5 - y)) (scaleDen f (5 - y)) ∧
      ((v = u ∧ x = y) ∨ (u = 10 ^ 6 ∧ v = 10 ^ 5 ∧ x = y + 1)) ∧
      10 ^ 5 * scaleDen f (5 - y) ≤ scaleNum k (5 - y) ∧
      scaleNum k (5 - y) < 10 ^ 6 * scaleDen f (5 - y) := by
  obtain ⟨h1, h2⟩ := exponent10_ok (f := f) hk
  have hs := scaled_eq f k (5 - exponent10 f k)
  have hD := scaleDen_pos f (5 - exponent10 f k)
  have h3 := le_divEven hD h1
  have h4 : divEven (scaleNum k (5 - exponent10 f k)) (scaleDen f (5 - exponent10 f k)) ≤ 10 ^ 6 :=
    divEven_le hD (by rw [Nat.add_mul, Nat.one_mul, Nat.mul_assoc]; omega)
  simp only [shortText]
  rw [if_neg hk]
  generalize exponent10 f k = y at *
  rw [hs]
  generalize hu : divEven (scaleNum k (5 - y)) (scaleDen f (5 - y)) = u at *
  by_cases h6 : u = 10 ^ 6
  · exact ⟨y + 1, 10 ^ 5, y, u, by rw [if_pos h6, if_pos h6]; rfl, Nat.le_refl _, by decide, hu.symm,
      .inr ⟨h6, rfl, rfl⟩, h1, h2⟩
  · exact ⟨y, u, y, u, by rw [if_neg h6, if_neg h6]; rfl, h3, by omega, hu.symm, .inl ⟨rfl, rfl⟩, h1, h2⟩

end Verif.FloatText
