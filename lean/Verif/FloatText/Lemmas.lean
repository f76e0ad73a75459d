import Verif.FloatText.Model
import Verif.FloatText.Spec
import Verif.Floats.Order
/-!
# Rounding, digits and reading digits
-/
namespace Verif.FloatText
open Verif.Floats

/-! ### Rounding -/

theorem divEven_range {a b : Nat} (hb : 0 < b) :
    2 * a ≤ (2 * divEven a b + 1) * b ∧ 2 * divEven a b * b ≤ 2 * a + b := by
  have h := Nat.div_add_mod a b
  have hr := Nat.mod_lt a hb
  unfold divEven
  rw [Nat.mul_comm] at h
  have e1 : ∀ q : Nat, (2 * q + 1) * b = 2 * (q * b) + b := by intro q; grind
  have e2 : ∀ q : Nat, 2 * q * b = 2 * (q * b) := by intro q; grind
  have e3 : (a / b + 1) * b = a / b * b + b := by grind
  rw [e1, e2]
  split
  · omega
  · split
    · rw [e3]; omega
    · split
      · omega
      · rw [e3]; omega

theorem divEven_eq {a b q : Nat} (h1 : 2 * a < (2 * q + 1) * b) (h2 : 2 * q * b < 2 * a + b) :
    divEven a b = q := by
  have hb : 0 < b := by
    rcases Nat.eq_zero_or_pos b with h | h
    · subst h; omega
    · exact h
  obtain ⟨h3, h4⟩ := divEven_range (a := a) hb
  generalize divEven a b = r at *
  rcases Nat.lt_trichotomy r q with h | h | h
  · have : (2 * r + 1) * b ≤ (2 * q - 1) * b := Nat.mul_le_mul_right _ (by omega)
    have e : (2 * q - 1) * b + b = 2 * q * b := by
      obtain ⟨q', rfl⟩ : ∃ q', q = q' + 1 := ⟨q - 1, by omega⟩
      rw [show 2 * (q' + 1) - 1 = 2 * q' + 1 by omega]; grind
    omega
  · exact h
  · have : (2 * q + 1 + 1) * b ≤ 2 * r * b := Nat.mul_le_mul_right _ (by omega)
    rw [Nat.add_mul (2 * q + 1), Nat.one_mul] at this
    omega

theorem divEven_exact {b q : Nat} (hb : 0 < b) : divEven (q * b) b = q :=
  divEven_eq (by rw [Nat.add_mul, Nat.mul_assoc]; omega) (by rw [Nat.mul_assoc]; omega)

theorem divEven_le {a b m : Nat} (hb : 0 < b) (h : 2 * a < (2 * m + 1) * b) : divEven a b ≤ m := by
  obtain ⟨h3, h4⟩ := divEven_range (a := a) hb
  generalize divEven a b = r at *
  rcases Nat.lt_or_ge m r with h' | h'
  · have : (2 * m + 1 + 1) * b ≤ 2 * r * b := Nat.mul_le_mul_right _ (by omega)
    rw [Nat.add_mul (2 * m + 1), Nat.one_mul] at this
    omega
  · exact h'

theorem le_divEven {a b m : Nat} (hb : 0 < b) (h : m * b ≤ a) : m ≤ divEven a b := by
  have : m ≤ a / b := (Nat.le_div_iff_mul_le hb).2 h
  unfold divEven
  split
  · exact this
  · split
    · omega
    · split <;> omega

/-- Ties above an odd number go up. -/
theorem divEven_odd {a b m : Nat} (hb : 0 < b) (hm : m % 2 = 1) (h : (2 * m + 1) * b ≤ 2 * a) :
    m + 1 ≤ divEven a b := by
  have hd := Nat.div_add_mod a b
  rw [Nat.mul_comm] at hd
  have e : (2 * m + 1) * b = 2 * (m * b) + b := by grind
  have hr := Nat.mod_lt a hb
  have h1 : m ≤ a / b := by
    refine (Nat.le_div_iff_mul_le hb).2 ?_
    omega
  rcases Nat.lt_or_ge m (a / b) with h2 | h2
  · unfold divEven
    split
    · exact h2
    · split
      · omega
      · split <;> omega
  · have h3 : a / b = m := by omega
    rw [h3] at hd
    unfold divEven
    rw [h3, if_neg (by omega)]
    split
    · omega
    · rw [if_neg (by omega)]; omega

/-- An odd quotient is nearer than all others. -/
theorem divEven_tie {a b m : Nat} (hb : 0 < b) (hm : m ≠ divEven a b) (ho : divEven a b % 2 = 1) :
    ((a : Int) - (divEven a b * b : Nat)).natAbs < ((a : Int) - (m * b : Nat)).natAbs := by
  have hd := Nat.div_add_mod a b
  have hr := Nat.mod_lt a hb
  rw [Nat.mul_comm] at hd
  have hlt : 2 * ((a : Int) - (divEven a b * b : Nat)).natAbs < b := by
    unfold divEven at ho ⊢
    split
    · omega
    · rename_i h1
      rw [if_neg h1] at ho
      split
      · rw [Nat.add_mul, Nat.one_mul]; omega
      · rename_i h2
        rw [if_neg h2] at ho
        split at ho
        · omega
        · rename_i h3
          omega
  generalize divEven a b = r at *
  rcases Nat.lt_or_gt_of_ne hm with h | h
  · have : (m + 1) * b ≤ r * b := Nat.mul_le_mul_right _ h
    rw [Nat.add_mul, Nat.one_mul] at this
    omega
  · have : (r + 1) * b ≤ m * b := Nat.mul_le_mul_right _ h
    rw [Nat.add_mul, Nat.one_mul] at this
    omega

theorem divEven_best {a b : Nat} (hb : 0 < b) (m : Nat) :
    ((a : Int) - (divEven a b * b : Nat)).natAbs ≤ ((a : Int) - (m * b : Nat)).natAbs := by
  obtain ⟨h3, h4⟩ := divEven_range (a := a) hb
  generalize divEven a b = r at *
  have e1 : (2 * r + 1) * b = 2 * (r * b) + b := by grind
  have e2 : 2 * r * b = 2 * (r * b) := by grind
  rcases Nat.lt_trichotomy m r with h | h | h
  · have : (m + 1) * b ≤ r * b := Nat.mul_le_mul_right _ h
    rw [Nat.add_mul, Nat.one_mul] at this
    generalize m * b = x at *
    generalize r * b = y at *
    omega
  · rw [h]; exact Nat.le_refl _
  · have : (r + 1) * b ≤ m * b := Nat.mul_le_mul_right _ h
    rw [Nat.add_mul, Nat.one_mul] at this
    generalize m * b = x at *
    generalize r * b = y at *
    omega

/-! ### Digits -/

theorem digit_val (v : Nat) : (digit v).toNat = 48 + v % 10 := by
  have : ∀ n < 10, (Char.ofNat (48 + n)).toNat = 48 + n := by decide
  exact this _ (Nat.mod_lt _ (by decide))

theorem digits_nil : Digits [] := by intro c h; cases h

theorem digits_append {l r : List Char} (h1 : Digits l) (h2 : Digits r) : Digits (l ++ r) := by
  intro c h
  rcases List.mem_append.1 h with h | h
  · exact h1 c h
  · exact h2 c h

theorem digits_one (v : Nat) : Digits [digit v] := by
  intro c h
  rw [List.mem_singleton.1 h, digit_val]
  have := Nat.mod_lt v (show 0 < 10 by decide)
  omega

theorem natOf_go (l : List Char) : ∀ a, l.foldl (fun a c => a * 10 + (c.toNat - 48)) a =
    a * 10 ^ l.length + natOf l := by
  induction l with
  | nil => intro a; simp [natOf]
  | cons c l ih =>
    intro a
    show l.foldl (fun a c => a * 10 + (c.toNat - 48)) _ = _
    unfold natOf
    rw [List.foldl_cons, ih, ih (0 * 10 + _), List.length_cons, Nat.pow_succ]
    grind

theorem natOf_append (l r : List Char) : natOf (l ++ r) = natOf l * 10 ^ r.length + natOf r := by
  show (l ++ r).foldl (fun a c => a * 10 + (c.toNat - 48)) 0 = _
  rw [List.foldl_append, natOf_go]
  rfl

theorem natOf_digit (v : Nat) : natOf [digit v] = v % 10 := by
  unfold natOf
  rw [List.foldl_cons, List.foldl_nil, digit_val]
  omega

theorem padded_length (n v : Nat) : (padded n v).length = n := by
  induction n generalizing v with
  | zero => rfl
  | succ n ih => unfold padded; rw [List.length_append, ih]; rfl

theorem padded_digits (n v : Nat) : Digits (padded n v) := by
  induction n generalizing v with
  | zero => exact digits_nil
  | succ n ih => exact digits_append (ih _) (digits_one v)

theorem padded_val (n v : Nat) : natOf (padded n v) = v % 10 ^ n := by
  induction n generalizing v with
  | zero => rw [Nat.pow_zero, Nat.mod_one]; rfl
  | succ n ih =>
    unfold padded
    rw [natOf_append, ih, natOf_digit, Nat.pow_succ, List.length_singleton, Nat.pow_one,
      Nat.mul_comm (10 ^ n), Nat.mod_mul]
    omega

theorem decLoop_ok (fuel v : Nat) (h : v < 2 ^ fuel) (hf : fuel ≠ 0) :
    Digits (decLoop fuel v) ∧ decLoop fuel v ≠ [] ∧ natOf (decLoop fuel v) = v ∧
      ∀ n, 0 < n → v < 10 ^ n → (decLoop fuel v).length ≤ n := by
  induction fuel generalizing v with
  | zero => exact absurd rfl hf
  | succ fuel ih =>
    unfold decLoop
    by_cases hv : v < 10
    · rw [if_pos hv]
      refine ⟨digits_one v, by simp, ?_, ?_⟩
      · rw [natOf_digit, Nat.mod_eq_of_lt hv]
      · intro n hn _; exact hn
    · rw [if_neg hv]
      have h2 : v / 10 < 2 ^ fuel := by rw [Nat.pow_succ] at h; omega
      have hf2 : fuel ≠ 0 := by intro e; subst e; rw [Nat.pow_zero] at h2; omega
      obtain ⟨h3, h4, h5, h6⟩ := ih (v / 10) h2 hf2
      refine ⟨digits_append h3 (digits_one v), by simp, ?_, ?_⟩
      · rw [natOf_append, h5, natOf_digit, List.length_singleton]; omega
      · intro n hn hlt
        obtain ⟨n', rfl⟩ : ∃ n', n = n' + 1 := ⟨n - 1, by omega⟩
        rw [Nat.pow_succ] at hlt
        have h7 : 0 < n' := by
          rcases Nat.eq_zero_or_pos n' with e | e
          · subst e; rw [Nat.pow_zero] at hlt; omega
          · exact e
        have := h6 n' h7 (by omega)
        rw [List.length_append, List.length_singleton]
        omega

theorem decimal_ok (v : Nat) :
    Digits (decimal v) ∧ decimal v ≠ [] ∧ natOf (decimal v) = v ∧
      ∀ n, 0 < n → v < 10 ^ n → (decimal v).length ≤ n :=
  decLoop_ok _ _ Nat.lt_log2_self (Nat.succ_ne_zero _)

/-! ### The text of `%.nf` -/

/-- The text is that of the rounded number. -/
theorem fixedText_denotes (f : Fmt) {n : Nat} (neg : Bool) (k : Nat) :
    Denotes (fixedText f n (.fin neg k)) neg (divEven (k * 10 ^ n) (2 ^ f.unit)) (-(n : Int)) := by
  simp only [fixedText]
  generalize divEven (k * 10 ^ n) (2 ^ f.unit) = v
  obtain ⟨h1, h2, h3, _⟩ := decimal_ok (v / 10 ^ n)
  refine ⟨signText neg, decimal (v / 10 ^ n), padded n v, '.' :: padded n v, [], 0, ?_, h1, h2,
    padded_digits n v, .inl rfl, .inl ⟨rfl, rfl⟩, ?_, ?_, ?_⟩
  · unfold signText SignOf
    cases neg <;> simp
  · simp
  · rw [natOf_append, h3, padded_val, padded_length, Nat.mul_comm]
    exact (Nat.div_add_mod v (10 ^ n)).symm
  · rw [padded_length]; omega

theorem fixedText_length (f : Fmt) {n m : Nat} (neg : Bool) (k : Nat)
    (h : divEven (k * 10 ^ n) (2 ^ f.unit) / 10 ^ n < 10 ^ m) (hm : 0 < m) :
    (fixedText f n (.fin neg k)).length ≤ m + n + 2 := by
  have hl := (decimal_ok _).2.2.2 m hm h
  have hs : (signText neg).length ≤ 1 := by unfold signText; cases neg <;> simp
  unfold fixedText
  simp only [List.length_append, List.length_cons, padded_length]
  omega

/-! ### Reading digits -/

/-- The text goes on with something that is no digit. -/
def Stops (r : List Char) : Prop := ∀ c l, r = c :: l → isDigit c = false

theorem isDigit_of {c : Char} (h : 48 ≤ c.toNat ∧ c.toNat ≤ 57) : isDigit c = true :=
  decide_eq_true h

theorem readDigits_ok {l r : List Char} (hl : Digits l) (hr : Stops r) (a n : Nat) :
    readDigits a n (l ++ r) = (a * 10 ^ l.length + natOf l, n + l.length, r) := by
  induction l generalizing a n with
  | nil =>
    simp only [List.nil_append, List.length_nil, Nat.pow_zero, Nat.mul_one, Nat.add_zero]
    have : natOf [] = 0 := rfl
    rw [this, Nat.add_zero]
    cases r with
    | nil => rfl
    | cons c r => unfold readDigits; rw [if_neg (by rw [hr c r rfl]; decide)]
  | cons c l ih =>
    have hc := isDigit_of (hl c (List.mem_cons_self ..))
    rw [List.cons_append]
    unfold readDigits
    rw [if_pos hc, ih (fun x hx => hl x (List.mem_cons_of_mem _ hx))]
    have e : natOf (c :: l) = (c.toNat - 48) * 10 ^ l.length + natOf l := by
      show l.foldl (fun a c => a * 10 + (c.toNat - 48)) (0 * 10 + (c.toNat - 48)) = _
      rw [natOf_go]; simp
    rw [e, List.length_cons, Nat.pow_succ]
    congr 1
    · grind
    · congr 1; omega

theorem stops_nil : Stops [] := by intro c l h; cases h

theorem sign_cases {s : List Char} {neg : Bool} (h : SignOf s neg) :
    (s = ['-'] ∧ neg = true) ∨ (s = ['+'] ∧ neg = false) ∨ (s = [] ∧ neg = false) := by
  rcases h with h | ⟨h | h, h2⟩
  · exact .inl h
  · exact .inr (.inr ⟨h, h2⟩)
  · exact .inr (.inl ⟨h, h2⟩)

theorem not_sign {c : Char} (h : 48 ≤ c.toNat ∧ c.toNat ≤ 57) : c ≠ '-' ∧ c ≠ '+' ∧ c ≠ '.' := by
  refine ⟨?_, ?_, ?_⟩ <;> (rintro rfl; revert h; decide)

theorem readExponent_ok {t : List Char} {e : Int} (h : ExponentOf t e) : readExponent t = e := by
  rcases h with ⟨rfl, rfl⟩ | ⟨c, s, d, neg, hc, hs, hd, hd0, rfl, rfl⟩
  · rfl
  · have hr := readDigits_ok hd stops_nil 0 0
    rw [List.append_nil, Nat.zero_mul, Nat.zero_add] at hr
    unfold readExponent
    simp only [if_pos hc]
    rcases sign_cases hs with ⟨rfl, rfl⟩ | ⟨rfl, rfl⟩ | ⟨rfl, rfl⟩
    · simp [hr]
    · simp [hr]
    · cases d with
      | nil => exact absurd rfl hd0
      | cons x d =>
        have := not_sign (hd x (List.mem_cons_self ..))
        rw [List.nil_append]
        split
        · rename_i h; injection h with h; exact absurd h this.1
        · rename_i h; injection h with h; exact absurd h this.2.1
        · simp [hr]

theorem exponent_stops {t : List Char} {e : Int} (h : ExponentOf t e) :
    Stops t ∧ ∀ c l, t = c :: l → c ≠ '.' := by
  rcases h with ⟨rfl, _⟩ | ⟨c, s, d, neg, hc, _, _, _, rfl, _⟩
  · exact ⟨stops_nil, fun c l h => by cases h⟩
  · refine ⟨?_, ?_⟩
    · intro x l h
      injection h with h _
      subst h
      rcases hc with rfl | rfl <;> decide
    · intro x l h
      injection h with h _
      subst h
      rcases hc with rfl | rfl <;> decide

theorem lower_digit {c : Char} (h : 48 ≤ c.toNat ∧ c.toNat ≤ 57) :
    c.toLower ≠ 'i' ∧ c.toLower ≠ 'n' := by
  have hc : c.toLower = c := by
    unfold Char.toLower
    rw [dif_neg]
    intro h2
    have h3 : (65 : Nat) ≤ c.toNat := h2.1
    omega
  rw [hc]
  constructor <;> (rintro rfl; revert h; decide)

theorem readUnsigned_ok {i fr pt ex : List Char} {e : Int} (neg : Bool) (hi : Digits i)
    (hi0 : i ≠ []) (hf : Digits fr) (hpt : pt = '.' :: fr ∨ (pt = [] ∧ fr = []))
    (hex : ExponentOf ex e) :
    readUnsigned neg (i ++ (pt ++ ex)) = some (.dec neg (natOf (i ++ fr)) (e - fr.length)) := by
  obtain ⟨hs, hs2⟩ := exponent_stops hex
  have hE := readExponent_ok hex
  have hlow : ∀ a b : Char, ∀ x, x = 'i' ∨ x = 'n' →
      ((i ++ (pt ++ ex)).map Char.toLower).take 3 ≠ [x, a, b] := by
    intro a b x hx h
    cases i with
    | nil => exact hi0 rfl
    | cons c i =>
      have := lower_digit (hi c (List.mem_cons_self ..))
      rw [List.cons_append, List.map_cons, List.take_succ_cons] at h
      injection h with h _
      rcases hx with rfl | rfl
      · exact this.1 h
      · exact this.2 h
  unfold readUnsigned
  simp only [if_neg (hlow 'n' 'f' 'i' (.inl rfl)), if_neg (hlow 'a' 'n' 'n' (.inr rfl))]
  have hlen : 0 < i.length := List.length_pos_iff.2 hi0
  rcases hpt with rfl | ⟨rfl, rfl⟩
  · have h1 := readDigits_ok (l := i) (r := '.' :: fr ++ ex) hi
      (by intro c l h; injection h with h _; subst h; decide) 0 0
    rw [Nat.zero_mul, Nat.zero_add, Nat.zero_add] at h1
    have h2 := readDigits_ok (l := fr) (r := ex) hf hs (natOf i) 0
    rw [Nat.zero_add] at h2
    rw [h1]
    simp only [List.cons_append, h2]
    rw [if_neg (by omega), natOf_append, hE]
  · have h1 := readDigits_ok (l := i) (r := ex) hi hs 0 0
    rw [Nat.zero_mul, Nat.zero_add, Nat.zero_add] at h1
    rw [List.nil_append, h1, List.append_nil]
    cases ex with
    | nil =>
      simp only
      rw [if_neg (by omega), hE]
      simp
    | cons c l =>
      have := hs2 c l rfl
      split
      · rename_i h; injection h with _ h; injection h with _ h; injection h with h; exact absurd h this
      · rename_i h
        injection h with h1 h; injection h with h2 h3
        subst h1 h2 h3
        rw [if_neg (by omega), hE]
        simp

theorem takeWhile_all {t : List Char} (h : ∀ c ∈ t, c ≠ '\x00') :
    t.takeWhile (· ≠ '\x00') = t := by
  induction t with
  | nil => rfl
  | cons c t ih =>
    rw [List.takeWhile_cons_of_pos (by simpa using h c (List.mem_cons_self ..)),
      ih (fun x hx => h x (List.mem_cons_of_mem _ hx))]

/-- What is read from the text of a number. -/
theorem readNum_ok {t : List Char} {neg : Bool} {n : Nat} {x : Int} (h : Denotes t neg n x) :
    readNum t = some (.dec neg n x) := by
  obtain ⟨s, i, fr, pt, ex, e, hs, hi, hi0, hf, hpt, hex, rfl, rfl, rfl⟩ := h
  have hnul : ∀ l, Digits l → ∀ c ∈ l, c ≠ '\x00' := by
    intro l hl c hc h0; have := hl c hc; rw [h0] at this; revert this; decide
  have hz : ∀ c ∈ s ++ (i ++ (pt ++ ex)), c ≠ '\x00' := by
    intro c hc
    simp only [List.mem_append] at hc
    have hsign : ∀ s' neg', SignOf s' neg' → c ∈ s' → c ≠ '\x00' := by
      intro s' neg' hs' hc
      rcases sign_cases hs' with ⟨rfl, _⟩ | ⟨rfl, _⟩ | ⟨rfl, _⟩
      · rw [List.mem_singleton.1 hc]; decide
      · rw [List.mem_singleton.1 hc]; decide
      · cases hc
    rcases hc with hc | hc | hc | hc
    · exact hsign s neg hs hc
    · exact hnul i hi c hc
    · rcases hpt with rfl | ⟨rfl, _⟩
      · rcases List.mem_cons.1 hc with rfl | hc
        · decide
        · exact hnul fr hf c hc
      · cases hc
    · rcases hex with ⟨rfl, _⟩ | ⟨x, s', d, neg', hx, hs', hd, _, rfl, _⟩
      · cases hc
      · rcases List.mem_cons.1 hc with rfl | hc
        · rcases hx with rfl | rfl <;> decide
        · rcases List.mem_append.1 hc with hc | hc
          · exact hsign s' neg' hs' hc
          · exact hnul d hd c hc
  have hR := readUnsigned_ok neg hi hi0 hf hpt hex
  unfold readNum
  rw [takeWhile_all hz]
  rcases sign_cases hs with ⟨rfl, rfl⟩ | ⟨rfl, rfl⟩ | ⟨rfl, rfl⟩
  · rw [List.singleton_append, List.dropWhile_cons_of_neg (by decide)]
    exact hR
  · rw [List.singleton_append, List.dropWhile_cons_of_neg (by decide)]
    exact hR
  · rw [List.nil_append]
    cases i with
    | nil => exact absurd rfl hi0
    | cons c i =>
      have hc := hi c (List.mem_cons_self ..)
      have hn := not_sign hc
      have hsp : isSpace c = false := by
        unfold isSpace
        have : ∀ d : Char, d.toNat < 48 → c ≠ d := by
          rintro d hd rfl; omega
        simp [this ' ' (by decide), this '\t' (by decide), this '\n' (by decide),
          this '\x0b' (by decide), this '\x0c' (by decide), this '\r' (by decide)]
      rw [List.cons_append] at hR ⊢
      rw [List.dropWhile_cons_of_neg (by rw [hsp]; decide)]
      split
      · rename_i h; injection h with h _; exact absurd h hn.1
      · rename_i h; injection h with h _; exact absurd h hn.2.1
      · exact hR

end Verif.FloatText
