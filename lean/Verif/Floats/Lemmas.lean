import Verif.Floats.Model
/-!
# What the loops of `doubleToBinary64StringType` compute
-/
namespace Verif.Floats

/-- What the proofs need of the numbers of a class. -/
structure Fmt.Fits (f : Fmt) : Prop where
  hp : 2 ≤ f.p
  hb : f.p + 2 ≤ f.bias
  hw : f.bias + 31 < 2 ^ f.w
  hw' : f.w ≤ 60
  ints : 31 ≤ f.ints ∧ f.p + 2 ≤ f.ints
  form : f.p + 40 ≤ f.form ∧ f.last + 2 ≤ f.form

theorem f64_fits : f64.Fits := ⟨by decide, by decide, by decide, by decide, by decide, by decide⟩
theorem f32_fits : f32.Fits := ⟨by decide, by decide, by decide, by decide, by decide, by decide⟩

/-! ### Memory -/

/-- `g` with place `i` changed. -/
def put (g : Nat → Option Char) (i : Nat) (c : Char) : Nat → Option Char :=
  fun j => if j = i then some c else g j

theorem put_same (g : Nat → Option Char) (i : Nat) (c : Char) : put g i c i = some c := by
  simp [put]

theorem put_ne (g : Nat → Option Char) {i j : Nat} (c : Char) (h : j ≠ i) : put g i c j = g j := by
  simp [put, h]

theorem wr_nat {n : Nat} {g : Nat → Option Char} {i : Nat} (c : Char) (h : i < n) :
    Mem.wr ⟨n, g⟩ (i : Int) c = .ok ⟨n, put g i c⟩ := by
  unfold Mem.wr
  rw [if_pos ⟨by omega, by show (i : Int) < (n : Int); omega⟩]
  congr 2
  funext j
  unfold put
  by_cases hj : j = i
  · rw [if_pos hj, if_pos (by omega)]
  · rw [if_neg hj, if_neg (by omega)]

theorem rd_nat {n : Nat} {g : Nat → Option Char} {i : Nat} {c : Char} (h : i < n)
    (hc : g i = some c) : Mem.rd ⟨n, g⟩ (i : Int) = .ok c := by
  unfold Mem.rd
  rw [if_pos ⟨by omega, by show (i : Int) < (n : Int); omega⟩]
  show (match g (i : Int).toNat with | some c => Outcome.ok c | none => .ub) = _
  rw [Int.toNat_natCast, hc]

theorem fill_ok {n : Nat} {g : Nat → Option Char} : ∀ k, k ≤ n →
    Mem.fill ⟨n, g⟩ k = .ok ⟨n, fun j => if j < k then some '0' else g j⟩
  | 0, _ => by simp [Mem.fill]
  | k + 1, h => by
    rw [Mem.fill, fill_ok k (by omega), Outcome.bind_ok, wr_nat _ (by omega)]
    congr 2
    funext j
    unfold put
    by_cases hj : j = k
    · rw [if_pos hj, if_pos (by omega)]
    · rw [if_neg hj]
      show (if j < k then some '0' else g j) = _
      by_cases h2 : j < k
      · rw [if_pos h2, if_pos (by omega)]
      · rw [if_neg h2, if_neg (by omega)]

theorem cstr_ok {n : Nat} {g : Nat → Option Char} : ∀ (k i : Nat), i + k < n →
    (∀ j, i ≤ j → j < i + k → ∃ c, g j = some c ∧ c ≠ '\x00') → g (i + k) = some '\x00' →
    ∃ t, Mem.cstr ⟨n, g⟩ i (k + 1) = .ok t ∧ t.length = k ∧ ∀ j, j < k → t[j]? = g (i + j)
  | 0, i, h, _, h2 => by
    refine ⟨[], ?_, rfl, fun j hj => absurd hj (by omega)⟩
    rw [Mem.cstr, rd_nat (i := i) (by omega) (by simpa using h2)]
    rfl
  | k + 1, i, h, h1, h2 => by
    obtain ⟨c, hc, hn⟩ := h1 i (Nat.le_refl i) (by omega)
    obtain ⟨t, ht, hl, hj⟩ := cstr_ok (n := n) k (i + 1) (by omega)
      (fun j a b => h1 j (by omega) (by omega)) ((congrArg g (by omega)).trans h2)
    refine ⟨c :: t, ?_, by simp [hl], ?_⟩
    · rw [Mem.cstr, rd_nat (by omega) hc, Outcome.bind_ok, if_neg hn, ht]
      rfl
    · intro j hj'
      cases j with
      | zero => rw [Nat.add_zero, hc]; rfl
      | succ j =>
        rw [List.getElem?_cons_succ, hj j (by omega)]
        congr 1
        omega

theorem strcpy_ok {n : Nat} : ∀ (l : List Char) (g : Nat → Option Char) (i : Nat),
    i + l.length < n →
    ∃ g', Mem.strcpy ⟨n, g⟩ i l = .ok ⟨n, g'⟩ ∧ (∀ j, j < i → g' j = g j) ∧
      (∀ j, j < l.length → g' (i + j) = l[j]?) ∧ g' (i + l.length) = some '\x00'
  | [], g, i, h => by
    refine ⟨_, wr_nat _ (by simpa using h), fun j hj => put_ne _ _ (by omega),
      fun j hj => absurd hj (by simp), put_same _ _ _⟩
  | c :: l, g, i, h => by
    simp only [List.length_cons] at h
    obtain ⟨g', e, h1, h2, h3⟩ := strcpy_ok (n := n) l (put g i c) (i + 1) (by omega)
    refine ⟨g', ?_, ?_, ?_, ?_⟩
    · rw [Mem.strcpy, wr_nat _ (by omega), Outcome.bind_ok, e]
    · intro j hj
      rw [h1 j (by omega), put_ne _ _ (by omega)]
    · intro j hj
      cases j with
      | zero => rw [Nat.add_zero, h1 i (by omega), put_same]; rfl
      | succ j =>
        rw [List.getElem?_cons_succ, ← h2 j (by simpa using hj)]
        congr 1
        omega
    · rw [← h3]; congr 1; simp only [List.length_cons]; omega

/-! ### Digits of numbers -/

/-- The number of binary digits; none for 0. -/
def len (n : Nat) : Nat := if n = 0 then 0 else n.log2 + 1

theorem len_half {n : Nat} (h : n ≠ 0) : len n = len (n / 2) + 1 := by
  unfold len
  rw [if_neg h]
  by_cases h2 : n / 2 = 0
  · rw [if_pos h2]
    have : n = 1 := by omega
    subst this
    rfl
  · rw [if_neg h2]
    have h1 := (Nat.log2_eq_iff h).1 rfl
    have h3 : (n / 2).log2 = n.log2 - 1 := by
      have h4 : 1 ≤ n.log2 := by rw [Nat.le_log2 h]; omega
      obtain ⟨l, hl⟩ : ∃ l, n.log2 = l + 1 := ⟨n.log2 - 1, by omega⟩
      rw [hl] at h1 ⊢
      rw [Nat.log2_eq_iff h2, Nat.add_sub_cancel]
      rw [Nat.pow_succ 2 (l + 1), Nat.pow_succ 2 l] at h1
      rw [Nat.pow_succ 2 l]
      omega
    have h4 : 1 ≤ n.log2 := by rw [Nat.le_log2 h]; omega
    omega

theorem lt_len (n : Nat) : n < 2 ^ len n := by
  unfold len
  by_cases h : n = 0
  · rw [if_pos h, h]; decide
  · rw [if_neg h]; exact Nat.lt_log2_self

theorem len_le {n k : Nat} (h : n < 2 ^ k) : len n ≤ k := by
  unfold len
  by_cases h0 : n = 0
  · rw [if_pos h0]; omega
  · rw [if_neg h0]
    have := (Nat.log2_lt h0).2 h
    omega

theorem pow_le_of_len {n : Nat} (h : n ≠ 0) : 2 ^ (len n - 1) ≤ n := by
  unfold len
  rw [if_neg h]
  exact Nat.log2_self_le h

theorem sizeLoop_ok : ∀ (fuel n s : Nat), len n < fuel → sizeLoop fuel n s = .ok (s + len n)
  | 0, _, _, h => absurd h (by omega)
  | fuel + 1, n, s, h => by
    unfold sizeLoop
    by_cases hn : n = 0
    · rw [if_pos hn, hn]; rfl
    · rw [if_neg hn]
      have := len_half hn
      rw [sizeLoop_ok fuel (n / 2) (s + 1) (by omega)]
      congr 1
      omega

theorem bitChar_cases (n : Nat) : bitChar n = '0' ∨ bitChar n = '1' := by
  unfold bitChar
  by_cases h : n % 2 = 1
  · rw [if_pos h]; exact .inr rfl
  · rw [if_neg h]; exact .inl rfl

theorem bitChar_zero {n : Nat} (h : n % 2 = 0) : bitChar n = '0' := by
  unfold bitChar; rw [if_neg (by omega)]

theorem bitChar_one {n : Nat} (h : n % 2 = 1) : bitChar n = '1' := by
  unfold bitChar; rw [if_pos h]

theorem div_two_pow (n k : Nat) : n / 2 / 2 ^ k = n / 2 ^ (k + 1) := by
  rw [Nat.div_div_eq_div_mul, Nat.pow_succ, Nat.mul_comm]

theorem lt_half {n s : Nat} (h : n < 2 ^ (s + 1)) : n / 2 < 2 ^ s := by
  rw [Nat.pow_succ] at h; omega

/-- The integer loop writes the digits of `n`, the last one in place `s - 1`. -/
theorem intLoop_ok {z : Nat} : ∀ (fuel n s : Nat) (g : Nat → Option Char), len n < fuel →
    n < 2 ^ s → s ≤ z →
    ∃ g', intLoop fuel n ((s : Int) - 1) ⟨z, g⟩ = .ok ⟨z, g'⟩ ∧ (∀ j, s ≤ j → g' j = g j) ∧
      (∀ j, j < s → 2 ^ (s - 1 - j) ≤ n → g' j = some (bitChar (n / 2 ^ (s - 1 - j)))) ∧
      (∀ j, j < s → n < 2 ^ (s - 1 - j) → g' j = g j)
  | 0, _, _, _, h, _, _ => absurd h (by omega)
  | fuel + 1, n, s, g, h, hs, hz => by
    unfold intLoop
    by_cases hn : n = 0
    · rw [if_pos hn]
      refine ⟨g, rfl, fun _ _ => rfl, ?_, fun _ _ _ => rfl⟩
      intro j _ h2
      have := Nat.two_pow_pos (s - 1 - j)
      omega
    · rw [if_neg hn]
      obtain ⟨s, rfl⟩ : ∃ t, s = t + 1 := by
        cases s with
        | zero => rw [Nat.pow_zero] at hs; omega
        | succ t => exact ⟨t, rfl⟩
      have e : ((s + 1 : Nat) : Int) - 1 = (s : Int) := by omega
      rw [e, wr_nat _ (by omega), Outcome.bind_ok]
      have h1 := len_half hn
      obtain ⟨g', h2, h3, h4, h5⟩ := intLoop_ok (z := z) fuel (n / 2) s (put g s (bitChar n))
        (by omega) (lt_half hs) (by omega)
      refine ⟨g', h2, ?_, ?_, ?_⟩
      · intro j hj
        rw [h3 j (by omega), put_ne _ _ (by omega)]
      · intro j hj hle
        by_cases hjs : j = s
        · subst hjs
          rw [h3 j (Nat.le_refl _), put_same]
          simp
        · have e2 : s + 1 - 1 - j = s - 1 - j + 1 := by omega
          rw [e2] at hle ⊢
          rw [h4 j (by omega) (by rw [Nat.pow_succ] at hle; omega), div_two_pow]
      · intro j hj hlt
        by_cases hjs : j = s
        · subst hjs
          simp at hlt
          omega
        · have e2 : s + 1 - 1 - j = s - 1 - j + 1 := by omega
          rw [e2, Nat.pow_succ] at hlt
          rw [h5 j (by omega) (by omega), put_ne _ _ hjs]

/-- The same for the exponent. -/
theorem expLoop_ok {z : Nat} : ∀ (fuel n s : Nat) (g : Nat → Option Char), len n < fuel →
    n < 2 ^ s → s ≤ z →
    expLoop fuel (n : Int) ((s : Int) - 1) ⟨z, g⟩ = intLoop fuel n ((s : Int) - 1) ⟨z, g⟩
  | 0, _, _, _, h, _, _ => absurd h (by omega)
  | fuel + 1, n, s, g, h, hs, hz => by
    unfold expLoop intLoop
    by_cases hn : n = 0
    · rw [if_pos hn, if_pos (by omega)]
    · rw [if_neg hn, if_neg (by omega)]
      obtain ⟨s, rfl⟩ : ∃ t, s = t + 1 := by
        cases s with
        | zero => rw [Nat.pow_zero] at hs; omega
        | succ t => exact ⟨t, rfl⟩
      have e : ((s + 1 : Nat) : Int) - 1 = (s : Int) := by omega
      have eb : (if (n : Int) % 2 = 1 then '1' else '0') = bitChar n := by
        unfold bitChar
        by_cases hb : n % 2 = 1
        · rw [if_pos hb, if_pos (by omega)]
        · rw [if_neg hb, if_neg (by omega)]
      rw [e, eb, wr_nat _ (by omega), Outcome.bind_ok, Outcome.bind_ok]
      have h1 := len_half hn
      have e2 : (n : Int) / 2 = ((n / 2 : Nat) : Int) := by omega
      rw [e2]
      exact expLoop_ok fuel (n / 2) s _ (by omega) (lt_half hs) (by omega)

/-! ### The fraction -/

/-- The loop over the fraction, for what is below 1. -/
theorem fracLoop_ok {f : Fmt} {z : Nat} : ∀ (todo g idx : Nat) (c : Nat → Option Char),
    g < 2 ^ f.unit → idx + todo ≤ z → (∀ j, idx ≤ j → j < idx + todo → c j = some '0') →
    ∃ c' n, fracLoop f todo g idx ⟨z, c⟩ = .ok (⟨z, c'⟩, n) ∧ idx ≤ n ∧ n ≤ idx + todo ∧
      (∀ j, j < idx ∨ idx + todo ≤ j → c' j = c j) ∧
      (∀ j, j < todo → c' (idx + j) = some (bitChar (g * 2 ^ (j + 1) / 2 ^ f.unit))) ∧
      (∀ j, n ≤ j → j < idx + todo → c' j = some '0') ∧ (g ≠ 0 → 0 < todo → idx < n)
  | 0, g, idx, c, _, _, _ =>
    ⟨c, idx, rfl, Nat.le_refl _, Nat.le_refl _, fun _ _ => rfl, fun j hj => absurd hj (by omega),
      fun j h1 h2 => absurd h2 (by omega), fun _ h => absurd h (by omega)⟩
  | todo + 1, g, idx, c, hg, hz, hc => by
    unfold fracLoop
    by_cases h0 : g = 0
    · rw [if_pos h0]
      refine ⟨c, idx, rfl, Nat.le_refl _, by omega, fun _ _ => rfl, ?_, hc, fun h => absurd h0 h⟩
      intro j hj
      rw [hc _ (by omega) (by omega), h0, Nat.zero_mul, Nat.zero_div]
      rfl
    · rw [if_neg h0]
      have hP := Nat.two_pow_pos f.unit
      have hd : 2 * g / 2 ^ f.unit < 2 := by
        rw [Nat.div_lt_iff_lt_mul hP]; omega
      unfold floorInt
      rw [if_pos (by omega), Outcome.bind_ok]
      -- one digit
      have hstep : (if 2 * g / 2 ^ f.unit = 1 then Mem.wr ⟨z, c⟩ (idx : Int) '1'
          else if 2 * g / 2 ^ f.unit = 0 then Mem.wr ⟨z, c⟩ (idx : Int) '0' else .ok ⟨z, c⟩) =
          .ok ⟨z, put c idx (bitChar (2 * g / 2 ^ f.unit))⟩ := by
        by_cases h1 : 2 * g / 2 ^ f.unit = 1
        · rw [if_pos h1, wr_nat _ (by omega), h1]; rfl
        · have h2 : 2 * g / 2 ^ f.unit = 0 := by
            generalize 2 * g / 2 ^ f.unit = q at hd h1
            omega
          rw [if_neg h1, if_pos h2, wr_nat _ (by omega), h2]; rfl
      rw [hstep, Outcome.bind_ok]
      have hmod : 2 * g - 2 * g / 2 ^ f.unit * 2 ^ f.unit = 2 * g % 2 ^ f.unit := by
        have := Nat.div_add_mod (2 * g) (2 ^ f.unit)
        rw [Nat.mul_comm] at this
        omega
      rw [hmod]
      obtain ⟨c', n, e, h1, h2, h3, h4, h5, _⟩ := fracLoop_ok (f := f) (z := z) todo
        (2 * g % 2 ^ f.unit) (idx + 1) (put c idx (bitChar (2 * g / 2 ^ f.unit)))
        (Nat.mod_lt _ hP) (by omega) (fun j a b => by
          rw [put_ne _ _ (by omega)]; exact hc j (by omega) (by omega))
      refine ⟨c', n, e, by omega, by omega, ?_, ?_, fun j a b => h5 j a (by omega), fun _ _ => by omega⟩
      · intro j hj
        rw [h3 j (by omega), put_ne _ _ (by omega)]
      · intro j hj
        cases j with
        | zero =>
          rw [Nat.add_zero, h3 idx (by omega), put_same]
          congr 3
          rw [Nat.zero_add, Nat.pow_one, Nat.mul_comm]
        | succ j =>
          have e1 : idx + (j + 1) = idx + 1 + j := by omega
          rw [e1, h4 j (by omega)]
          congr 1
          -- the digits of the rest
          have key : g * 2 ^ (j + 1 + 1) =
              2 * g % 2 ^ f.unit * 2 ^ (j + 1) + 2 ^ f.unit * (2 * g / 2 ^ f.unit * 2 ^ (j + 1)) := by
            have := Nat.div_add_mod (2 * g) (2 ^ f.unit)
            calc g * 2 ^ (j + 1 + 1) = 2 * g * 2 ^ (j + 1) := by
                  rw [Nat.pow_succ 2 (j + 1), Nat.mul_comm (2 ^ (j + 1)) 2, ← Nat.mul_assoc,
                    Nat.mul_comm g 2]
              _ = (2 ^ f.unit * (2 * g / 2 ^ f.unit) + 2 * g % 2 ^ f.unit) * 2 ^ (j + 1) := by rw [this]
              _ = _ := by rw [Nat.add_mul, Nat.add_comm, Nat.mul_assoc]
          rw [key, Nat.add_mul_div_left _ _ hP]
          unfold bitChar
          have e2 : 2 * g / 2 ^ f.unit * 2 ^ (j + 1) % 2 = 0 := by
            rw [Nat.pow_succ, ← Nat.mul_assoc, Nat.mul_mod_left]
          have e3 : (2 * g % 2 ^ f.unit * 2 ^ (j + 1) / 2 ^ f.unit +
              2 * g / 2 ^ f.unit * 2 ^ (j + 1)) % 2 =
              2 * g % 2 ^ f.unit * 2 ^ (j + 1) / 2 ^ f.unit % 2 := by omega
          rw [e3]

/-- The value as the loops see it, in units of `2 ^ -(p + 1)`: cut off there, and without its
first binary place when it is 1 or more. -/
def seen (f : Fmt) (k : Nat) : Nat :=
  let v := k / 2 ^ (f.unit - (f.p + 1))
  if k < 2 ^ f.unit then v else v - v / 2 ^ f.p % 2 * 2 ^ f.p

theorem unit_le {f : Fmt} (F : f.Fits) : f.p + 1 + 1 ≤ f.unit := by
  have := F.hb; have := F.hp; unfold Fmt.unit; omega

/-- Shifting. -/
theorem shift {f : Fmt} (F : f.Fits) (k : Nat) {j : Nat} (hj : j ≤ f.p) :
    k * 2 ^ (j + 1) / 2 ^ f.unit = k / 2 ^ (f.unit - (f.p + 1)) / 2 ^ (f.p - j) := by
  have h := unit_le F
  rw [Nat.div_div_eq_div_mul, ← Nat.pow_add]
  have e : 2 ^ f.unit = 2 ^ (f.unit - (f.p + 1) + (f.p - j)) * 2 ^ (j + 1) := by
    rw [← Nat.pow_add]; congr 1; omega
  rw [e, Nat.mul_div_mul_right _ _ (Nat.two_pow_pos _)]

theorem seen_top {f : Fmt} (k j : Nat) :
    seen f k / 2 ^ (f.p + 1 + j) = k / 2 ^ (f.unit - (f.p + 1)) / 2 ^ (f.p + 1 + j) := by
  unfold seen
  simp only
  by_cases h : k < 2 ^ f.unit
  · rw [if_pos h]
  · rw [if_neg h]
    rw [Nat.pow_add 2 (f.p + 1), ← Nat.div_div_eq_div_mul, ← Nat.div_div_eq_div_mul]
    congr 1
    rw [Nat.pow_succ 2 f.p, ← Nat.div_div_eq_div_mul, ← Nat.div_div_eq_div_mul]
    generalize k / 2 ^ (f.unit - (f.p + 1)) = v
    have hP := Nat.two_pow_pos f.p
    have h1 : v - v / 2 ^ f.p % 2 * 2 ^ f.p = v % 2 ^ f.p + 2 ^ f.p * (v / 2 ^ f.p - v / 2 ^ f.p % 2) := by
      have := Nat.div_add_mod v (2 ^ f.p)
      rw [Nat.mul_sub]
      have h2 : 2 ^ f.p * (v / 2 ^ f.p % 2) ≤ 2 ^ f.p * (v / 2 ^ f.p) :=
        Nat.mul_le_mul_left _ (Nat.mod_le _ _)
      rw [Nat.mul_comm (v / 2 ^ f.p % 2)]
      omega
    rw [h1, Nat.add_mul_div_left _ _ hP, Nat.div_eq_of_lt (Nat.mod_lt v hP)]
    generalize v / 2 ^ f.p = q
    omega

theorem seen_low {f : Fmt} (k : Nat) {i : Nat} (hi : i < f.p) :
    seen f k / 2 ^ i % 2 = k / 2 ^ (f.unit - (f.p + 1)) / 2 ^ i % 2 := by
  unfold seen
  simp only
  by_cases h : k < 2 ^ f.unit
  · rw [if_pos h]
  · rw [if_neg h]
    generalize k / 2 ^ (f.unit - (f.p + 1)) = v
    have e : v / 2 ^ f.p % 2 * 2 ^ f.p = 2 ^ i * (v / 2 ^ f.p % 2 * 2 ^ (f.p - i - 1) * 2) := by
      have e1 : 2 ^ f.p = 2 ^ i * 2 ^ (f.p - i - 1) * 2 := by
        rw [Nat.mul_assoc, ← Nat.pow_succ, ← Nat.pow_add]; congr 1; omega
      calc v / 2 ^ f.p % 2 * 2 ^ f.p = v / 2 ^ f.p % 2 * (2 ^ i * 2 ^ (f.p - i - 1) * 2) := by rw [← e1]
        _ = _ := by
          generalize v / 2 ^ f.p % 2 = x
          generalize 2 ^ i = a
          generalize 2 ^ (f.p - i - 1) = b
          rw [Nat.mul_assoc a b 2, Nat.mul_left_comm, Nat.mul_assoc x b 2]
    have hle : v / 2 ^ f.p % 2 * 2 ^ f.p ≤ v := by
      have := Nat.div_mul_le_self v (2 ^ f.p)
      have h2 := Nat.mul_le_mul_right (2 ^ f.p) (Nat.mod_le (v / 2 ^ f.p) 2)
      omega
    rw [e] at hle ⊢
    generalize v / 2 ^ f.p % 2 * 2 ^ (f.p - i - 1) = y at hle ⊢
    obtain ⟨u, rfl⟩ : ∃ u, v = u + 2 ^ i * (y * 2) := ⟨v - 2 ^ i * (y * 2), by omega⟩
    rw [Nat.add_sub_cancel, Nat.add_mul_div_left _ _ (Nat.two_pow_pos i)]
    omega

theorem seen_first {f : Fmt} {k : Nat} (h : 2 ^ f.unit ≤ k) : seen f k / 2 ^ f.p % 2 = 0 := by
  unfold seen
  simp only
  rw [if_neg (by omega)]
  generalize k / 2 ^ (f.unit - (f.p + 1)) = v
  have hP := Nat.two_pow_pos f.p
  have h1 : v - v / 2 ^ f.p % 2 * 2 ^ f.p = v % 2 ^ f.p + 2 ^ f.p * (v / 2 ^ f.p - v / 2 ^ f.p % 2) := by
    have := Nat.div_add_mod v (2 ^ f.p)
    rw [Nat.mul_sub]
    have h2 : 2 ^ f.p * (v / 2 ^ f.p % 2) ≤ 2 ^ f.p * (v / 2 ^ f.p) :=
      Nat.mul_le_mul_left _ (Nat.mod_le _ _)
    rw [Nat.mul_comm (v / 2 ^ f.p % 2)]
    omega
  rw [h1, Nat.add_mul_div_left _ _ hP, Nat.div_eq_of_lt (Nat.mod_lt v hP)]
  generalize v / 2 ^ f.p = q
  omega

/-- The integer part. -/
theorem seen_int {f : Fmt} (F : f.Fits) (k : Nat) : seen f k / 2 ^ (f.p + 1) = k / 2 ^ f.unit := by
  have h := seen_top (f := f) k 0
  rw [Nat.add_zero] at h
  rw [h, Nat.div_div_eq_div_mul, ← Nat.pow_add]
  congr 2
  have := unit_le F
  omega

/-- The whole fraction loop: places `0` to `p` hold the digits of `seen` below the point. -/
theorem frac_ok {f : Fmt} (F : f.Fits) {k : Nat} (hk : k ≠ 0) (hlt : k < 2 ^ 30 * 2 ^ f.unit)
    {c : Nat → Option Char} (hc : ∀ j, j < f.p + 1 → c j = some '0') :
    ∃ c' n, fracLoop f (f.p + 1) k 0 ⟨f.p + 2, c⟩ = .ok (⟨f.p + 2, c'⟩, n) ∧ 1 ≤ n ∧ n ≤ f.p + 1 ∧
      (∀ j, j ≤ f.p → c' j = some (bitChar (seen f k / 2 ^ (f.p - j)))) ∧
      (∀ j, n ≤ j → j < f.p + 1 → c' j = some '0') ∧ c' (f.p + 1) = c (f.p + 1) := by
  have hP := Nat.two_pow_pos f.unit
  by_cases h1 : k < 2 ^ f.unit
  · obtain ⟨c', n, e, h2, h3, h4, h5, h6, h7⟩ := fracLoop_ok (f := f) (z := f.p + 2) (f.p + 1) k 0 c h1
      (by omega) (fun j _ b => hc j (by omega))
    refine ⟨c', n, e, h7 hk (by omega), by omega, ?_, fun j a b => h6 j a (by omega), h4 _ (by omega)⟩
    intro j hj
    have := h5 j (by omega)
    rw [Nat.zero_add] at this
    rw [this, shift F k hj]
    unfold seen
    simp only [if_pos h1]
  · unfold fracLoop
    rw [if_neg hk]
    unfold floorInt
    have hd : 2 * k / 2 ^ f.unit < 2 ^ 31 := by
      rw [Nat.div_lt_iff_lt_mul hP]; omega
    have hd2 : 2 ≤ 2 * k / 2 ^ f.unit := by
      rw [Nat.le_div_iff_mul_le hP]; omega
    rw [if_pos hd, Outcome.bind_ok, if_neg (by omega), if_neg (by omega), Outcome.bind_ok]
    have hmod : 2 * k - 2 * k / 2 ^ f.unit * 2 ^ f.unit = 2 * k % 2 ^ f.unit := by
      have := Nat.div_add_mod (2 * k) (2 ^ f.unit)
      rw [Nat.mul_comm] at this
      omega
    rw [hmod]
    obtain ⟨c', n, e, h2, h3, h4, h5, h6, h7⟩ := fracLoop_ok (f := f) (z := f.p + 2) f.p
      (2 * k % 2 ^ f.unit) 1 c (Nat.mod_lt _ hP) (by omega) (fun j _ b => hc j (by omega))
    refine ⟨c', n, e, by omega, by omega, ?_, fun j a b => h6 j a (by omega), h4 _ (by omega)⟩
    intro j hj
    cases j with
    | zero =>
      rw [h4 0 (by omega), hc 0 (by omega), Nat.sub_zero, bitChar_zero (seen_first (by omega))]
    | succ j =>
      have e1 : j + 1 = 1 + j := by omega
      rw [e1, h5 j (by omega)]
      congr 1
      have key : k * 2 ^ (j + 1 + 1) =
          2 * k % 2 ^ f.unit * 2 ^ (j + 1) + 2 ^ f.unit * (2 * k / 2 ^ f.unit * 2 ^ (j + 1)) := by
        have := Nat.div_add_mod (2 * k) (2 ^ f.unit)
        calc k * 2 ^ (j + 1 + 1) = 2 * k * 2 ^ (j + 1) := by
              rw [Nat.pow_succ 2 (j + 1), Nat.mul_comm (2 ^ (j + 1)) 2, ← Nat.mul_assoc,
                Nat.mul_comm k 2]
          _ = (2 ^ f.unit * (2 * k / 2 ^ f.unit) + 2 * k % 2 ^ f.unit) * 2 ^ (j + 1) := by rw [this]
          _ = _ := by rw [Nat.add_mul, Nat.add_comm, Nat.mul_assoc]
      have h8 := shift F k (j := j + 1) hj
      rw [key, Nat.add_mul_div_left _ _ hP] at h8
      have h9 := seen_low (f := f) k (i := f.p - (j + 1)) (by omega)
      have e2 : 2 * k / 2 ^ f.unit * 2 ^ (j + 1) % 2 = 0 := by
        rw [Nat.pow_succ, ← Nat.mul_assoc, Nat.mul_mod_left]
      unfold bitChar
      have e3 : f.p - (1 + j) = f.p - (j + 1) := by omega
      rw [e3, h9, ← h8]
      have e4 : (2 * k % 2 ^ f.unit * 2 ^ (j + 1) / 2 ^ f.unit +
          2 * k / 2 ^ f.unit * 2 ^ (j + 1)) % 2 =
          2 * k % 2 ^ f.unit * 2 ^ (j + 1) / 2 ^ f.unit % 2 := by omega
      rw [e4]

/-! ### Copies and searches -/

theorem copyLoop_ok {a b : Nat} {src : Nat → Option Char} {s : Nat} : ∀ (n : Nat)
    (g : Nat → Option Char), n ≤ a → s + n ≤ b → (∀ j, j < n → ∃ c, src j = some c) →
    ∃ g', copyLoop ⟨a, src⟩ s n ⟨b, g⟩ = .ok ⟨b, g'⟩ ∧ (∀ j, j < n → g' (s + j) = src j) ∧
      (∀ j, j < s ∨ s + n ≤ j → g' j = g j)
  | 0, g, _, _, _ => ⟨g, rfl, fun j h => absurd h (by omega), fun _ _ => rfl⟩
  | n + 1, g, h1, h2, h3 => by
    obtain ⟨g', e, h4, h5⟩ := copyLoop_ok (a := a) (b := b) (src := src) (s := s) n g (by omega)
      (by omega) (fun j hj => h3 j (by omega))
    obtain ⟨c, hc⟩ := h3 n (by omega)
    refine ⟨put g' (s + n) c, ?_, ?_, ?_⟩
    · unfold copyLoop
      rw [e, Outcome.bind_ok, rd_nat (by omega) hc, Outcome.bind_ok, wr_nat _ (by omega)]
    · intro j hj
      by_cases hjn : j = n
      · rw [hjn, put_same, hc]
      · rw [put_ne _ _ (by omega), h4 j (by omega)]
    · intro j hj
      rw [put_ne _ _ (by omega), h5 j (by omega)]

theorem findOne_hit {z : Nat} {g : Nat → Option Char} : ∀ (n i t : Nat), i ≤ t → t < i + n →
    i + n ≤ z → (∀ j, i ≤ j → j < t → ∃ c, g j = some c ∧ c ≠ '1') → g t = some '1' →
    findOne ⟨z, g⟩ n i = .ok t
  | 0, _, _, _, _, _, _, _ => by omega
  | n + 1, i, t, h1, h2, h3, h4, h5 => by
    unfold findOne
    by_cases h : i = t
    · rw [h, rd_nat (by omega) h5]; rfl
    · obtain ⟨c, hc, hn⟩ := h4 i (Nat.le_refl _) (by omega)
      rw [rd_nat (by omega) hc, Outcome.bind_ok, if_neg hn]
      exact findOne_hit n (i + 1) t (by omega) (by omega) (by omega)
        (fun j a b => h4 j (by omega) b) h5

theorem findOne_miss {z : Nat} {g : Nat → Option Char} : ∀ (n i : Nat), i + n ≤ z →
    (∀ j, i ≤ j → j < i + n → ∃ c, g j = some c ∧ c ≠ '1') → findOne ⟨z, g⟩ n i = .ok 1
  | 0, _, _, _ => rfl
  | n + 1, i, h3, h4 => by
    unfold findOne
    obtain ⟨c, hc, hn⟩ := h4 i (Nat.le_refl _) (by omega)
    rw [rd_nat (by omega) hc, Outcome.bind_ok, if_neg hn]
    exact findOne_miss n (i + 1) (by omega) (fun j a b => h4 j (by omega) (by omega))

/-- The place in the form with the point of digit `t`. -/
def at_ (s t : Nat) : Nat := if t < s then t else t + 1

/-- The last loop copies the digits from `t` on, as many as there are. -/
theorem mantLoop_ok {z y : Nat} {g : Nat → Option Char} {s F : Nat} {X : Nat → Char}
    (hF : 1 ≤ F) (hz : s + 1 + F ≤ z) (hX : ∀ t, t < s + F → g (at_ s t) = some (X t)) :
    ∀ (n idx i t : Nat) (r : Nat → Option Char), (i = at_ s t ∨ (t = s ∧ i = s)) → t ≤ s + F →
      idx + n ≤ y →
      ∃ r', mantLoop ⟨z, g⟩ (s + 1 + F) s n idx i ⟨y, r⟩ = .ok ⟨y, r'⟩ ∧
        (∀ j, j < idx ∨ idx + n ≤ j → r' j = r j) ∧
        (∀ c, c < n → t + c < s + F → r' (idx + c) = some (X (t + c))) ∧
        (∀ c, c < n → s + F ≤ t + c → r' (idx + c) = r (idx + c))
  | 0, _, _, _, r, _, _, _ => ⟨r, rfl, fun _ _ => rfl, fun c h => absurd h (by omega),
      fun c h => absurd h (by omega)⟩
  | n + 1, idx, i, t, r, hi, ht, hy => by
    unfold mantLoop
    by_cases hend : t = s + F
    · have hi' : i = s + 1 + F := by
        rcases hi with hi | hi
        · unfold at_ at hi; rw [if_neg (by omega)] at hi; omega
        · omega
      rw [if_pos hi']
      refine ⟨r, rfl, fun _ _ => rfl, fun c h1 h2 => by omega, fun _ _ _ => rfl⟩
    · have hi' : i ≠ s + 1 + F := by
        rcases hi with hi | hi
        · unfold at_ at hi
          by_cases h2 : t < s
          · rw [if_pos h2] at hi; omega
          · rw [if_neg h2] at hi; omega
        · omega
      rw [if_neg hi']
      have hskip : (if i = s then i + 1 else i) = at_ s t := by
        unfold at_ at hi ⊢
        by_cases h2 : t < s
        · rw [if_pos h2] at hi ⊢
          rw [if_neg (by omega)]
          omega
        · rw [if_neg h2] at hi ⊢
          by_cases h3 : i = s
          · rw [if_pos h3]; omega
          · rw [if_neg h3]; omega
      simp only [hskip]
      have hlt : at_ s t < z := by
        unfold at_
        by_cases h2 : t < s
        · rw [if_pos h2]; omega
        · rw [if_neg h2]; omega
      rw [rd_nat hlt (hX t (by omega)), Outcome.bind_ok, wr_nat _ (by omega), Outcome.bind_ok]
      have hnext : at_ s t + 1 = at_ s (t + 1) ∨ (t + 1 = s ∧ at_ s t + 1 = s) := by
        unfold at_
        by_cases h2 : t < s
        · rw [if_pos h2]
          by_cases h3 : t + 1 < s
          · rw [if_pos h3]; exact .inl rfl
          · exact .inr (by omega)
        · rw [if_neg h2, if_neg (by omega)]; exact .inl rfl
      obtain ⟨r', e, h1, h2, h3⟩ := mantLoop_ok (y := y) hF hz hX n (idx + 1) (at_ s t + 1) (t + 1)
        (put r idx (X t)) hnext (by omega) (by omega)
      refine ⟨r', e, ?_, ?_, ?_⟩
      · intro j hj
        rw [h1 j (by omega), put_ne _ _ (by omega)]
      · intro c hc hlt
        cases c with
        | zero => rw [Nat.add_zero, Nat.add_zero, h1 idx (by omega), put_same]
        | succ c =>
          have e1 : idx + (c + 1) = idx + 1 + c := by omega
          have e2 : t + (c + 1) = t + 1 + c := by omega
          rw [e1, e2, h2 c (by omega) (by omega)]
      · intro c hc hge
        cases c with
        | zero => omega
        | succ c =>
          have e1 : idx + (c + 1) = idx + 1 + c := by omega
          rw [e1, h3 c (by omega) (by omega), put_ne _ _ (by omega)]

end Verif.Floats
