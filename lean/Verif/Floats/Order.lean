import Verif.Floats.Ieee
/-!
# Lemmas on values, their keys and the functions of `Math`
-/
namespace Verif.Floats

theorem fits_of {f : Fmt} (hf : f = f64 ∨ f = f32) : f.Fits := by
  rcases hf with rfl | rfl
  · exact f64_fits
  · exact f32_fits

theorem mag_zero {f : Fmt} {e m : Nat} : mag f e m = 0 ↔ e * 2 ^ f.p + m = 0 := by
  have hP := Nat.two_pow_pos f.p
  unfold mag
  by_cases h : e = 0
  · rw [if_pos h, h]; omega
  · rw [if_neg h]
    have h1 := Nat.mul_pos (show 0 < 2 ^ f.p + m by omega) (Nat.two_pow_pos (e - 1))
    have h2 := Nat.mul_pos (Nat.pos_of_ne_zero h) hP
    omega

/-- The kinds of patterns. -/
theorem ieee_cases {f : Fmt} {b : Nat} (hb : b < 2 ^ (f.p + f.w + 1)) :
    ∃ a e m, e < 2 ^ f.w ∧ m < 2 ^ f.p ∧ b / 2 ^ f.p % 2 ^ f.w = e ∧ b % 2 ^ f.p = m ∧
      b = (if a then 2 ^ f.last else 0) + (e * 2 ^ f.p + m) ∧
      ieee f b = if e = 2 ^ f.w - 1 then (if m = 0 then .inf a else .nan) else .fin a (mag f e m) := by
  have hl : f.last = f.p + f.w := rfl
  have hP := Nat.two_pow_pos f.p
  have hpow : 2 ^ (f.p + f.w + 1) = 2 ^ f.last * 2 := by rw [hl]; exact Nat.pow_succ ..
  have hfac : 2 ^ f.last = 2 ^ f.p * 2 ^ f.w := by rw [hl]; exact Nat.pow_add ..
  have key : ∀ b', b' < 2 ^ f.last → ∃ e m, e < 2 ^ f.w ∧ m < 2 ^ f.p ∧ b' / 2 ^ f.p % 2 ^ f.w = e ∧
      b' % 2 ^ f.p = m ∧ b' = e * 2 ^ f.p + m := by
    intro b' h
    obtain ⟨e, m, h1, he, hm⟩ := parts h
    refine ⟨e, m, he, hm, ?_, ?_, h1⟩
    · rw [h1, Nat.add_comm, Nat.add_mul_div_right _ _ hP, Nat.div_eq_of_lt hm, Nat.zero_add,
        Nat.mod_eq_of_lt he]
    · rw [h1, Nat.add_comm, Nat.add_mul_mod_self_right, Nat.mod_eq_of_lt hm]
  by_cases h : b < 2 ^ f.last
  · obtain ⟨e, m, he, hm, h1, h2, h3⟩ := key b h
    refine ⟨false, e, m, he, hm, h1, h2, by simp [h3], ?_⟩
    rw [h3, ieee_pos he hm]
  · obtain ⟨b', rfl⟩ : ∃ b', b = b' + 2 ^ f.last := ⟨b - 2 ^ f.last, by omega⟩
    obtain ⟨e, m, he, hm, h1, h2, h3⟩ := key b' (by omega)
    refine ⟨true, e, m, he, hm, ?_, ?_, by simp [h3]; omega, ?_⟩
    · rw [hfac, Nat.add_mul_div_left _ _ hP, Nat.add_mod_right]; exact h1
    · rw [hfac, Nat.add_mul_mod_self_left]; exact h2
    · rw [ieee_opp (by omega), h3, ieee_pos he hm]
      split
      · split <;> rfl
      · rfl

theorem value_cases {f : Fmt} {x : Flt} (h : IsValue f x) :
    x = .nan ∨ (∃ a, x = .inf a) ∨
      ∃ a e m, e < 2 ^ f.w - 1 ∧ m < 2 ^ f.p ∧ x = .fin a (mag f e m) := by
  obtain ⟨b, hb, hx⟩ := h
  obtain ⟨a, e, m, he, hm, _, _, _, h4⟩ := ieee_cases hb
  rw [hx] at h4
  split at h4
  · split at h4
    · exact .inr (.inl ⟨a, h4⟩)
    · exact .inl h4
  · exact .inr (.inr ⟨a, e, m, by omega, hm, h4⟩)

/-- The number of a value that compares like it. -/
def key (f : Fmt) (a : Bool) (e m : Nat) : Int :=
  if a then -((e * 2 ^ f.p + m : Nat) : Int) else ((e * 2 ^ f.p + m : Nat) : Int)

/-- The keys of finite values are between those of the infinities. -/
theorem key_inf {f : Fmt} {e m : Nat} (he : e < 2 ^ f.w - 1) (hm : m < 2 ^ f.p) :
    e * 2 ^ f.p + m < (2 ^ f.w - 1) * 2 ^ f.p := by
  have := Nat.mul_le_mul_right (2 ^ f.p) (show e + 1 ≤ 2 ^ f.w - 1 by omega)
  rw [Nat.add_mul, Nat.one_mul] at this
  omega

/-- And that of NaN is above. -/
theorem inf_nan {f : Fmt} (F : f.Fits) : (2 ^ f.w - 1) * 2 ^ f.p < 2 ^ f.last - 1 := by
  have hp := F.hp
  have e : 2 ^ f.last = 2 ^ f.w * 2 ^ f.p := by
    rw [← Nat.pow_add]; congr 1; unfold Fmt.last; omega
  have h2 : 2 ^ 2 ≤ 2 ^ f.p := Nat.pow_le_pow_right (by decide) hp
  have hw := Nat.two_pow_pos f.w
  rw [e, Nat.sub_mul, Nat.one_mul]
  have := Nat.le_mul_of_pos_left (2 ^ f.p) hw
  omega

theorem two_w_ge {f : Fmt} (F : f.Fits) : 1 ≤ 2 ^ f.w - 1 := by
  have := F.hw
  omega

/-- The order of finite values is that of their keys, but for minus zero. -/
theorem num_lt {f : Fmt} {a a' : Bool} {e e' m m' : Nat} (hm : m < 2 ^ f.p) (hm' : m' < 2 ^ f.p)
    (hz : ¬ (a = true ∧ mag f e m = 0)) :
    num a (mag f e m) < num a' (mag f e' m') ↔ key f a e m < key f a' e' m' := by
  have h1 := mag_lt_iff (f := f) (e := e) (e' := e') hm hm'
  have h2 := mag_lt_iff (f := f) (e := e') (e' := e) hm' hm
  have h3 := mag_zero (f := f) (e := e) (m := m)
  have h4 := mag_zero (f := f) (e := e') (m := m')
  unfold num key
  generalize e * 2 ^ f.p + m = B at *
  generalize e' * 2 ^ f.p + m' = B' at *
  generalize mag f e m = k at *
  generalize mag f e' m' = k' at *
  cases a <;> cases a' <;> simp only [if_true, if_false, Bool.false_eq_true, true_and, false_and,
    not_false_iff] at * <;> constructor <;> intro h <;> omega

/-- The number `compare` uses of a fine value. -/
theorem fine_key {f : Fmt} (F : f.Fits) {x : Flt} (h : FineValue f x) :
    (x = .nan ∧ rawBits f x = .ok ((2 ^ f.last - 1 : Nat) : Int)) ∨
    (∃ a, x = .inf a ∧ rawBits f x = .ok (if a then -(((2 ^ f.w - 1) * 2 ^ f.p : Nat) : Int)
        else (((2 ^ f.w - 1) * 2 ^ f.p : Nat) : Int))) ∨
    ∃ a e m, e < 2 ^ f.w - 1 ∧ m < 2 ^ f.p ∧ x = .fin a (mag f e m) ∧
      ¬ (a = true ∧ mag f e m = 0) ∧ rawBits f x = .ok (key f a e m) := by
  obtain ⟨hv, hx⟩ := h
  rcases value_cases hv with rfl | ⟨a, rfl⟩ | ⟨a, e, m, he, hm, rfl⟩
  · exact .inl ⟨rfl, rawBits_nan F⟩
  · exact .inr (.inl ⟨a, rfl, rawBits_inf F a⟩)
  · exact .inr (.inr ⟨a, e, m, he, hm, rfl, hx.2, rawBits_fine F a hm hx.1⟩)

/-- `Before` on fine values is the order of the numbers `compare` uses. -/
theorem before_iff {f : Fmt} (F : f.Fits) {x y : Flt} (hx : FineValue f x) (hy : FineValue f y)
    {c d : Int} (hc : rawBits f x = .ok c) (hd : rawBits f y = .ok d) : Before x y ↔ c < d := by
  have hn := inf_nan F
  have h1w := two_w_ge F
  have hpos : 0 < (2 ^ f.w - 1) * 2 ^ f.p := Nat.mul_pos (by omega) (Nat.two_pow_pos _)
  rcases fine_key F hx with ⟨rfl, h1⟩ | ⟨a, rfl, h1⟩ | ⟨a, e, m, he, hm, rfl, hz, h1⟩ <;>
  rcases fine_key F hy with ⟨rfl, h2⟩ | ⟨a', rfl, h2⟩ | ⟨a', e', m', he', hm', rfl, hz', h2⟩ <;>
  rw [hc] at h1 <;> rw [hd] at h2 <;> have h1 := Outcome.ok.inj h1 <;> have h2 := Outcome.ok.inj h2
  · subst h1; subst h2; simp [Before]
  · subst h1; subst h2
    show False ↔ _
    cases a' <;> simp only [if_true, if_false, Bool.false_eq_true] <;>
      exact ⟨fun h => h.elim, fun h => by omega⟩
  · have hk := key_inf he' hm'
    subst h1; subst h2
    show False ↔ _
    unfold key
    cases a' <;> simp only [if_true, if_false, Bool.false_eq_true] <;>
      exact ⟨fun h => h.elim, fun h => by omega⟩
  · subst h1; subst h2
    show True ↔ _
    cases a <;> simp only [if_true, if_false, Bool.false_eq_true] <;>
      exact ⟨fun _ => by omega, fun _ => trivial⟩
  · subst h1; subst h2
    show (a = true ∧ a' = false) ↔ _
    cases a <;> cases a' <;> simp only [if_true, if_false, Bool.false_eq_true, true_and, and_true,
      false_and, and_false] <;> constructor <;> intro h <;> (try omega) <;> (try exact absurd h (by decide)) <;> trivial
  · have hk := key_inf he' hm'
    subst h1; subst h2
    show a = true ↔ _
    unfold key
    cases a <;> cases a' <;> simp only [if_true, if_false, Bool.false_eq_true] <;> constructor <;>
      intro h <;> (try omega) <;> trivial
  · have hk := key_inf he hm
    subst h1; subst h2
    show True ↔ _
    unfold key
    cases a <;> simp only [if_true, if_false, Bool.false_eq_true] <;>
      exact ⟨fun _ => by omega, fun _ => trivial⟩
  · have hk := key_inf he hm
    subst h1; subst h2
    show a' = false ↔ _
    unfold key
    cases a <;> cases a' <;> simp only [if_true, if_false, Bool.true_eq_false, Bool.false_eq_true] <;> constructor <;>
      intro h <;> (try omega) <;> trivial
  · subst h1; subst h2
    show (num a (mag f e m) < num a' (mag f e' m') ∨
      (mag f e m = 0 ∧ mag f e' m' = 0 ∧ a = true ∧ a' = false)) ↔ _
    rw [num_lt hm hm' hz]
    constructor
    · rintro (h | ⟨h, _, h', _⟩)
      · exact h
      · exact absurd ⟨h', h⟩ hz
    · exact .inl

theorem fine_rawBits {f : Fmt} (F : f.Fits) {x : Flt} (h : FineValue f x) :
    ∃ c, rawBits f x = .ok c := by
  rcases fine_key F h with ⟨_, h⟩ | ⟨_, _, h⟩ | ⟨_, _, _, _, _, _, _, h⟩ <;> exact ⟨_, h⟩

theorem small_rawBits {f : Fmt} (F : f.Fits) {x : Flt} (h : Small f x) : ∃ c, rawBits f x = .ok c := by
  cases x with
  | nan => exact ⟨_, rawBits_nan F⟩
  | inf a => exact ⟨_, rawBits_inf F a⟩
  | fin a k =>
    by_cases hk : k = 0
    · rw [hk]; exact ⟨_, rawBits_zero F a⟩
    · exact ⟨_, rawBits_fin F hk h⟩

/-- What is seen of `n + 1/2 + r` is `n + r`. -/
theorem seen_half {f : Fmt} (F : f.Fits) {k : Nat} (h1 : 2 ^ f.unit ≤ k)
    (h2 : k % 2 ^ f.unit < 2 ^ (f.unit - 1)) : seen f (k + 2 ^ (f.unit - 1)) = seen f k := by
  have hu := unit_le F
  have hD := Nat.two_pow_pos (f.unit - (f.p + 1))
  have hP := Nat.two_pow_pos f.p
  have e0 : 2 ^ (f.unit - 1) = 2 ^ f.p * 2 ^ (f.unit - (f.p + 1)) := by
    rw [← Nat.pow_add]; congr 1; omega
  have hv : k / 2 ^ (f.unit - (f.p + 1)) / 2 ^ f.p % 2 = 0 := by
    rw [Nat.div_div_eq_div_mul, ← Nat.pow_add]
    have e1 : f.unit - (f.p + 1) + f.p = f.unit - 1 := by omega
    rw [e1]
    have e2 : 2 ^ f.unit = 2 ^ (f.unit - 1) * 2 := by rw [← Nat.pow_succ]; congr 1; omega
    rw [e2, Nat.mod_mul] at h2
    have hp := Nat.two_pow_pos (f.unit - 1)
    generalize hq : k / 2 ^ (f.unit - 1) % 2 = q at h2
    rcases Nat.eq_zero_or_pos q with h | h
    · exact h
    · have := Nat.mul_le_mul_left (2 ^ (f.unit - 1)) h
      omega
  have hdiv : (k + 2 ^ (f.unit - 1)) / 2 ^ (f.unit - (f.p + 1)) =
      k / 2 ^ (f.unit - (f.p + 1)) + 2 ^ f.p := by
    rw [e0, Nat.add_mul_div_right _ _ hD]
  unfold seen
  simp only [if_neg (show ¬ k < 2 ^ f.unit by omega),
    if_neg (show ¬ k + 2 ^ (f.unit - 1) < 2 ^ f.unit by omega), hdiv]
  have h3 : (k / 2 ^ (f.unit - (f.p + 1)) + 2 ^ f.p) / 2 ^ f.p % 2 = 1 := by
    rw [Nat.add_div_right _ hP]
    generalize k / 2 ^ (f.unit - (f.p + 1)) / 2 ^ f.p = q at hv
    omega
  rw [h3, hv]
  omega

theorem rawBits_half {f : Fmt} (F : f.Fits) {k : Nat} (neg : Bool) (h1 : 2 ^ f.unit ≤ k)
    (h2 : k % 2 ^ f.unit < 2 ^ (f.unit - 1)) (h3 : k < 2 ^ 30 * 2 ^ f.unit) :
    rawBits f (.fin neg (k + 2 ^ (f.unit - 1))) = rawBits f (.fin neg k) := by
  have hU := Nat.two_pow_pos f.unit
  have hH := Nat.two_pow_pos (f.unit - 1)
  have hu := unit_le F
  have e2 : 2 ^ f.unit = 2 * 2 ^ (f.unit - 1) := by
    rw [Nat.mul_comm, ← Nat.pow_succ]; congr 1; omega
  have h4 : k + 2 ^ (f.unit - 1) < 2 ^ 30 * 2 ^ f.unit := by
    have h5 := Nat.div_add_mod k (2 ^ f.unit)
    have h6 : k / 2 ^ f.unit < 2 ^ 30 := by rw [Nat.div_lt_iff_lt_mul hU]; exact h3
    have h7 := Nat.mul_le_mul_left (2 ^ f.unit) (show k / 2 ^ f.unit + 1 ≤ 2 ^ 30 from h6)
    rw [Nat.mul_add, Nat.mul_one, Nat.mul_comm (2 ^ f.unit) (2 ^ 30)] at h7
    omega
  rw [rawBits_fin F (by omega) h4, rawBits_fin F (by omega) h3, seen_half F h1 h2]

theorem seen_tiny {f : Fmt} (F : f.Fits) {k : Nat} (h : k < 2 ^ (f.unit - (f.p + 1))) :
    seen f k = 0 := by
  have hle : 2 ^ (f.unit - (f.p + 1)) ≤ 2 ^ f.unit := Nat.pow_le_pow_right (by decide) (by omega)
  unfold seen
  simp only [if_pos (show k < 2 ^ f.unit by omega)]
  exact Nat.div_eq_of_lt h

theorem rawBits_tiny {f : Fmt} (F : f.Fits) {k : Nat} (neg : Bool) (h0 : k ≠ 0)
    (h : k < 2 ^ (f.unit - (f.p + 1))) :
    rawBits f (.fin neg k) = .ok (if neg then -((f.bias * 2 ^ f.p : Nat) : Int)
      else ((f.bias * 2 ^ f.p : Nat) : Int)) := by
  have hle : 2 ^ (f.unit - (f.p + 1)) ≤ 2 ^ f.unit := Nat.pow_le_pow_right (by decide) (by omega)
  have := Nat.two_pow_pos f.unit
  rw [rawBits_fin F h0 (by omega), seen_tiny F h]
  unfold enc
  rw [if_pos rfl]

end Verif.Floats
