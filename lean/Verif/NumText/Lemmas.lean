import Verif.NumText.Model
import Verif.NumText.Spec
import Verif.JString.Lemmas
import Verif.Bits.Props
namespace Verif.NumText
open Verif.JString Verif.CInt Verif.Bits

/-! ## Digits -/

theorem strtoulDigit_eq (c : Byte) : strtoulDigit c = digitVal c := by
  revert c; refine byte_all ?_; decide +kernel

theorem digit_facts (c : Byte) : (digitVal c).isSome = true →
    c ≠ 0 ∧ isSpace c = false ∧ c ≠ chr '-' ∧ c ≠ chr '+' ∧ c ≠ chr '#' := by
  revert c; refine byte_all ?_; decide +kernel

theorem digit_not_x (c : Byte) : (match digitVal c with | some d => decide (d < 33) | none => false) = true →
    toLowerB c ≠ chr 'x' := by
  revert c; refine byte_all ?_; decide +kernel

theorem digitChar_facts' : ∀ d : Fin 36, digitVal (digitChar d) = some d.val ∧ isUpper (digitChar d) = false ∧
    (digitChar d = chr '0' → d.val = 0) := by decide +kernel

theorem digitChar_val {d : Nat} (h : d < 36) : digitVal (digitChar d) = some d := (digitChar_facts' ⟨d, h⟩).1
theorem digitChar_lower {d : Nat} (h : d < 36) : isUpper (digitChar d) = false := (digitChar_facts' ⟨d, h⟩).2.1
theorem digitChar_zero {d : Nat} (h : d < 36) (e : digitChar d = chr '0') : d = 0 := (digitChar_facts' ⟨d, h⟩).2.2 e

theorem IsDigit.facts {b : Nat} {c : Byte} {d : Nat} (h : IsDigit b c d) :
    c ≠ 0 ∧ isSpace c = false ∧ c ≠ chr '-' ∧ c ≠ chr '+' ∧ c ≠ chr '#' := digit_facts c (by simp [h.1])

theorem IsDigit.not_x {b : Nat} {c : Byte} {d : Nat} (h : IsDigit b c d) (hb : b ≤ 32) : toLowerB c ≠ chr 'x' := by
  apply digit_not_x
  have := h.2
  simp only [h.1, decide_eq_true_eq]; omega

/-! ## Numerals -/

theorem Numeral.ne_nil {b : Nat} {t : Str} {n : Nat} (h : Numeral b t n) : t ≠ [] := by
  cases h <;> simp

theorem Numeral.mem {b : Nat} {t : Str} {n : Nat} (h : Numeral b t n) : ∀ c ∈ t, ∃ d, IsDigit b c d := by
  induction h with
  | one h => simp; exact ⟨_, h⟩
  | snoc _ h ih =>
    intro c hc
    rcases List.mem_append.mp hc with hc | hc
    · exact ih c hc
    · simp at hc; subst hc; exact ⟨_, h⟩

theorem Numeral.cons {b : Nat} {t : Str} {n : Nat} (h : Numeral b t n) :
    ∃ c d s, t = c :: s ∧ IsDigit b c d := by
  obtain ⟨c, s, rfl⟩ := List.exists_cons_of_ne_nil h.ne_nil
  obtain ⟨d, hd⟩ := h.mem c (by simp)
  exact ⟨c, d, s, rfl, hd⟩

theorem Numeral.nul {b : Nat} {t : Str} {n : Nat} (h : Numeral b t n) : (0 : Byte) ∉ t := by
  intro h0
  obtain ⟨d, hd⟩ := h.mem 0 h0
  exact hd.facts.1 rfl

theorem Numeral.unique {b : Nat} {t : Str} {n : Nat} (h : Numeral b t n) : ∀ m, Numeral b t m → m = n := by
  induction h with
  | @one c d h =>
    intro m hm
    generalize ht : [c] = t at hm
    cases hm with
    | one h' => simp at ht; subst ht; have := h.1.symm.trans h'.1; simpa using this.symm
    | snoc h' _ =>
      have := congrArg List.length ht
      have h2 := List.length_pos_iff.mpr h'.ne_nil
      simp only [List.length_append, List.length_singleton] at this; omega
  | @snoc t n c d h1 h2 ih =>
    intro m hm
    generalize ht : t ++ [c] = t' at hm
    cases hm with
    | one h' =>
      have := congrArg List.length ht
      have h2 := List.length_pos_iff.mpr h1.ne_nil
      simp only [List.length_append, List.length_singleton] at this; omega
    | snoc h3 h4 =>
      have := List.append_inj' ht rfl
      obtain ⟨rfl, e⟩ := this
      simp at e; subst e
      have e1 := ih _ h3
      have e2 := h2.1.symm.trans h4.1
      simp at e2
      rw [e1, e2]

theorem scan_digit {b : Nat} {c : Byte} {d : Nat} (h : IsDigit b c d) (acc : Nat) (s : Str) :
    scan b acc (c :: s) = scan b (acc * b + d) s := by
  rw [scan, strtoulDigit_eq, h.1]; simp [h.2]

theorem scan_append {b : Nat} {t : Str} {n : Nat} (h : Numeral b t n) : ∀ acc u,
    scan b acc (t ++ u) = scan b (acc * b ^ t.length + n) u := by
  induction h with
  | one h => intro acc u; simp [scan_digit h]
  | @snoc t n c d _ h ih =>
    intro acc u
    rw [List.append_assoc, ih]
    simp only [List.singleton_append, scan_digit h, List.length_append, List.length_singleton]
    congr 1
    rw [Nat.pow_succ, Nat.add_mul, Nat.mul_assoc]; omega

theorem scan_stop {b acc : Nat} {u : Str} (h : startsDigit b u = false) : scan b acc u = acc := by
  cases u with
  | nil => rfl
  | cons c u =>
    unfold startsDigit at h
    unfold scan
    cases hd : strtoulDigit c with
    | none => rfl
    | some d => simp [hd] at h; simp [show ¬ d < b by omega]

theorem startsDigit_cons {b : Nat} {c : Byte} {d : Nat} (h : IsDigit b c d) (s : Str) : startsDigit b (c :: s) = true := by
  simp [startsDigit, strtoulDigit_eq, h.1, h.2]

theorem stripHex_numeral {b : Nat} {t : Str} {n : Nat} (h : Numeral b t n) (hb : b ≤ 32) (rest : Str)
    (hx : ∀ x s, rest = x :: s → toLowerB x ≠ chr 'x') : stripHex b (t ++ rest) = t ++ rest := by
  obtain ⟨c, d, s, rfl, hd⟩ := h.cons
  have key : ∀ x s', s ++ rest = x :: s' → toLowerB x ≠ chr 'x' := by
    intro x s' he
    cases s with
    | nil => exact hx x s' he
    | cons y s =>
      simp at he
      obtain ⟨d', hd'⟩ := h.mem y (by simp)
      rw [← he.1]
      exact hd'.not_x hb
  show stripHex b (c :: (s ++ rest)) = _
  cases hs : s ++ rest with
  | nil => simp [stripHex, hs]
  | cons x s' =>
    have := key x s' hs
    simp [stripHex, this, hs]

theorem cstr_append {t u : Str} (h : (0 : Byte) ∉ t) : cstr (t ++ u) = t ++ cstr u := by
  unfold cstr
  rw [List.takeWhile_append_of_pos]
  intro a ha
  simp; rintro rfl; exact h ha

/-- The rest of `strtoul` on a text whose digits are exactly `t`. -/
def Follows (b : Nat) (rest : Str) : Prop :=
  startsDigit b (cstr rest) = false ∧ ∀ x s, cstr rest = x :: s → toLowerB x ≠ chr 'x'

theorem follows_nil (b : Nat) : Follows b [] := ⟨rfl, by simp [cstr]⟩

theorem stoul_plain {b : Nat} {t : Str} {n : Nat} (h : Numeral b t n) (hb : b ≤ 32) {rest : Str} (hr : Follows b rest) :
    stoul (t ++ rest) b = if n < 2 ^ 64 then .ok (BitVec.ofNat 64 n) else .throw .outOfRange := by
  obtain ⟨c, d, s, rfl, hd⟩ := h.cons
  obtain ⟨_, f2, f3, f4, _⟩ := hd.facts
  unfold stoul
  rw [cstr_append h.nul]
  have e1 : List.dropWhile isSpace (c :: s ++ cstr rest) = c :: s ++ cstr rest := by
    simp [List.dropWhile, f2]
  have e2 : stripSign (c :: s ++ cstr rest) = (false, c :: s ++ cstr rest) := by simp [stripSign, f3, f4]
  have e3 := stripHex_numeral h hb _ hr.2
  simp only [e1, e2, e3, scan_append h, scan_stop hr.1]
  rw [if_pos (by exact startsDigit_cons hd _)]
  simp

theorem stoul_minus {b : Nat} {t : Str} {n : Nat} (h : Numeral b t n) (hb : b ≤ 32) {rest : Str} (hr : Follows b rest) :
    stoul (chr '-' :: t ++ rest) b = if n < 2 ^ 64 then .ok (- BitVec.ofNat 64 n) else .throw .outOfRange := by
  obtain ⟨c, d, s, rfl, hd⟩ := h.cons
  unfold stoul
  have e0 : cstr (chr '-' :: (c :: s) ++ rest) = chr '-' :: (c :: s ++ cstr rest) := by
    show cstr ((chr '-' :: c :: s) ++ rest) = _
    rw [cstr_append]; · rfl
    intro h0
    rcases List.mem_cons.mp h0 with h0 | h0
    · exact absurd h0 (by decide)
    · exact h.nul h0
  rw [e0]
  have e1 : List.dropWhile isSpace (chr '-' :: (c :: s ++ cstr rest)) = chr '-' :: (c :: s ++ cstr rest) := by
    simp [List.dropWhile, show isSpace (chr '-') = false by decide]
  have e2 : stripSign (chr '-' :: (c :: s ++ cstr rest)) = (true, c :: s ++ cstr rest) := by simp [stripSign]
  have e3 := stripHex_numeral h hb _ hr.2
  simp only [e1, e2, e3, scan_append h, scan_stop hr.1]
  rw [if_pos (by exact startsDigit_cons hd _)]
  simp

theorem stoul_plus {b : Nat} {t : Str} {n : Nat} (h : Numeral b t n) (hb : b ≤ 32) {rest : Str} (hr : Follows b rest) :
    stoul (chr '+' :: t ++ rest) b = if n < 2 ^ 64 then .ok (BitVec.ofNat 64 n) else .throw .outOfRange := by
  obtain ⟨c, d, s, rfl, hd⟩ := h.cons
  unfold stoul
  have e0 : cstr (chr '+' :: (c :: s) ++ rest) = chr '+' :: (c :: s ++ cstr rest) := by
    show cstr ((chr '+' :: c :: s) ++ rest) = _
    rw [cstr_append]; · rfl
    intro h0
    rcases List.mem_cons.mp h0 with h0 | h0
    · exact absurd h0 (by decide)
    · exact h.nul h0
  rw [e0]
  have e1 : List.dropWhile isSpace (chr '+' :: (c :: s ++ cstr rest)) = chr '+' :: (c :: s ++ cstr rest) := by
    simp [List.dropWhile, show isSpace (chr '+') = false by decide]
  have e2 : stripSign (chr '+' :: (c :: s ++ cstr rest)) = (false, c :: s ++ cstr rest) := by
    simp [stripSign, show ¬ chr '+' = chr '-' by decide]
  have e3 := stripHex_numeral h hb _ hr.2
  simp only [e1, e2, e3, scan_append h, scan_stop hr.1]
  rw [if_pos (by exact startsDigit_cons hd _)]
  simp

/-! ## Rendering -/

theorem digits_numeral {b : Nat} (h2 : 2 ≤ b) (h36 : b ≤ 36) : ∀ fuel n, n < 2 ^ fuel → 0 < fuel →
    Numeral b (digits b fuel n) n := by
  intro fuel
  induction fuel with
  | zero => intro n _ h; omega
  | succ f ih =>
    intro n hn _
    unfold digits
    by_cases h : n < b
    · rw [if_pos h]; exact .one ⟨digitChar_val (by omega), h⟩
    · rw [if_neg h]
      have hlt : n % b < b := Nat.mod_lt _ (by omega)
      have hdiv : n / b < 2 ^ f := by
        have h1 : n / b ≤ n / 2 := Nat.div_le_div_left h2 (by omega)
        rw [Nat.pow_succ] at hn; omega
      have hf : 0 < f := by
        rcases Nat.eq_zero_or_pos f with h0 | h0
        · subst h0; simp at hn; omega
        · exact h0
      have e : n = n / b * b + n % b := by rw [Nat.mul_comm]; exact (Nat.div_add_mod n b).symm
      have := Numeral.snoc (ih (n / b) hdiv hf) (c := digitChar (n % b)) ⟨digitChar_val (by omega), hlt⟩
      rwa [← e] at this

theorem digits_lower {b : Nat} (h2 : 2 ≤ b) (h36 : b ≤ 36) : ∀ fuel n, ∀ c ∈ digits b fuel n, isUpper c = false := by
  intro fuel
  induction fuel with
  | zero => intro n c hc; simp [digits] at hc
  | succ f ih =>
    intro n c hc
    unfold digits at hc
    by_cases h : n < b
    · rw [if_pos h] at hc; simp at hc; subst hc; exact digitChar_lower (by omega)
    · rw [if_neg h] at hc
      rcases List.mem_append.mp hc with hc | hc
      · exact ih _ _ hc
      · simp at hc; subst hc
        have hlt : n % b < b := Nat.mod_lt _ (by omega)
        exact digitChar_lower (by omega)

theorem digits_head {b : Nat} (h2 : 2 ≤ b) (h36 : b ≤ 36) : ∀ fuel n, n < 2 ^ fuel → 0 < n →
    (digits b fuel n).head? ≠ some (chr '0') := by
  intro fuel
  induction fuel with
  | zero => intro n hn h; simp [digits]
  | succ f ih =>
    intro n hn h0
    unfold digits
    by_cases h : n < b
    · rw [if_pos h]; simp; intro e
      have := digitChar_zero (by omega) e; omega
    · rw [if_neg h]
      have hdiv : n / b < 2 ^ f := by
        have h1 : n / b ≤ n / 2 := Nat.div_le_div_left h2 (by omega)
        rw [Nat.pow_succ] at hn; omega
      have hpos : 0 < n / b := Nat.div_pos (by omega) (by omega)
      have := ih _ hdiv hpos
      have hf : 0 < f := by
        rcases Nat.eq_zero_or_pos f with h0 | h0
        · subst h0; simp at hn; omega
        · exact h0
      have hne := (digits_numeral h2 h36 f (n / b) hdiv hf).ne_nil
      rw [List.head?_append, List.head?_eq_some_head hne]
      rw [List.head?_eq_some_head hne] at this; simpa using this

theorem digits_canonical {b : Nat} (h2 : 2 ≤ b) (h36 : b ≤ 36) {fuel n : Nat} (hn : n < 2 ^ fuel) (hf : 0 < fuel) :
    Canonical b (digits b fuel n) n := by
  refine ⟨digits_numeral h2 h36 fuel n hn hf, ?_, digits_lower h2 h36 fuel n⟩
  intro h
  rcases Nat.eq_zero_or_pos n with h0 | h0
  · subst h0
    obtain ⟨f, rfl⟩ : ∃ f, fuel = f + 1 := ⟨fuel - 1, by omega⟩
    unfold digits
    rw [if_pos (by omega)]; rfl
  · exact absurd h (digits_head h2 h36 fuel n hn h0)

/-! ## Binary strings -/

theorem Numeral.zero_zero {b : Nat} {n : Nat} (h : Numeral b [chr '0'] n) : n = 0 := by
  obtain ⟨d', hd'⟩ := h.mem _ (List.mem_singleton.mpr rfl)
  have h0 : IsDigit b (chr '0') 0 := ⟨by decide, by have := hd'.2; omega⟩
  exact (h.unique _ (.one h0)).symm

theorem Numeral.drop_zero {b : Nat} {t : Str} {n : Nat} (h : Numeral b t n) : ∀ u, t = chr '0' :: u → u ≠ [] → Numeral b u n := by
  induction h with
  | one h => intro u hu hne; simp only [List.cons.injEq] at hu; exact absurd hu.2.symm hne
  | @snoc t n c d h1 h2 ih =>
    intro u hu hne
    obtain ⟨a, s, rfl⟩ := List.exists_cons_of_ne_nil h1.ne_nil
    simp at hu
    obtain ⟨rfl, rfl⟩ := hu
    by_cases hs : s = []
    · subst hs
      have e := h1.zero_zero
      subst e
      simpa using Numeral.one h2
    · exact .snoc (ih s rfl hs) h2

theorem Numeral.drop_zeros {b : Nat} {t : Str} {n : Nat} (h : Numeral b t n) : ∀ i, i < t.length →
    (∀ j, j < i → t[j]? = some (chr '0')) → Numeral b (t.drop i) n := by
  intro i
  induction i with
  | zero => intro _ _; exact h
  | succ i ih =>
    intro hi hz
    have h1 := ih (by omega) (fun j hj => hz j (by omega))
    have h2 := hz i (by omega)
    have e : t.drop i = chr '0' :: t.drop (i + 1) := by
      rw [List.drop_eq_getElem_cons (by omega)]
      rw [List.getElem?_eq_getElem (by omega)] at h2
      simp at h2; rw [h2]
    exact h1.drop_zero _ e (by simp; omega)

theorem bit_val (x : BitVec w) (i : Nat) : (if x.getLsbD i then 1 else 0) = x.toNat / 2 ^ i % 2 := by
  rw [BitVec.getLsbD, Nat.testBit_eq_decide_div_mod_eq]
  by_cases h : x.toNat / 2 ^ i % 2 = 1
  · simp [h]
  · simp [h]; omega

def bitChar (x : BitVec 32) (k : Nat) : Byte := if x.getLsbD (31 - k) then chr '1' else chr '0'

theorem bitString_eq (x : BitVec 32) : bitString x = (List.range 32).map (bitChar x) := rfl

theorem bitChar_digit (x : BitVec 32) (k : Nat) : IsDigit 2 (bitChar x k) (x.toNat / 2 ^ (31 - k) % 2) := by
  rw [← bit_val]
  unfold bitChar
  split
  · exact ⟨by decide, by omega⟩
  · exact ⟨by decide, by omega⟩

theorem bitString_prefix (x : BitVec 32) : ∀ k, k < 32 →
    Numeral 2 ((List.range (k + 1)).map (bitChar x)) (x.toNat / 2 ^ (31 - k)) := by
  intro k
  induction k with
  | zero =>
    intro _
    have := bitChar_digit x 0
    have e : x.toNat / 2 ^ (31 - 0) % 2 = x.toNat / 2 ^ (31 - 0) := by
      have := x.isLt; omega
    rw [e] at this
    exact .one this
  | succ k ih =>
    intro hk
    rw [List.range_succ, List.map_append]
    have h1 := ih (by omega)
    have h2 := Numeral.snoc h1 (bitChar_digit x (k + 1))
    have e : x.toNat / 2 ^ (31 - k) * 2 + x.toNat / 2 ^ (31 - (k + 1)) % 2 = x.toNat / 2 ^ (31 - (k + 1)) := by
      have : 31 - k = (31 - (k + 1)) + 1 := by omega
      rw [this, Nat.pow_succ, ← Nat.div_div_eq_div_mul]
      omega
    rwa [e] at h2

theorem bitString_numeral (x : BitVec 32) : Numeral 2 (bitString x) x.toNat := by
  have := bitString_prefix x 31 (by omega)
  rw [bitString_eq]; simpa using this

theorem bitString_length (x : BitVec 32) : (bitString x).length = 32 := by simp [bitString]

theorem bitString_get (x : BitVec 32) (k : Nat) (h : k < 32) : (bitString x)[k]? = some (bitChar x k) := by
  rw [bitString_eq]; simp [h]

theorem bitChar_one (x : BitVec 32) (k : Nat) : bitChar x k = chr '1' ↔ x.getLsbD (31 - k) = true := by
  unfold bitChar
  split
  · simp [*]
  · simp [*]; decide

theorem bitChar_zero (x : BitVec 32) (k : Nat) (h : x.getLsbD (31 - k) = false) : bitChar x k = chr '0' := by
  unfold bitChar; simp [h]

/-- The string of the binary rendering. -/
theorem toBinaryString_spec (x : BitVec 32) (hx : x ≠ 0) : ∃ i, i < 32 ∧
    toBinaryString x = .ok ((bitString x).drop i) ∧ x.getLsbD (31 - i) = true ∧
    ∀ j, j < i → x.getLsbD (31 - j) = false := by
  obtain ⟨h, hh, hw⟩ := exists_highest hx
  have hf := posOrNeg_find (bitString x) [chr '1'] 0
  have e : indexOfChar (bitString x) 49 = posOrNeg (find (bitString x) [chr '1'] 0) := by
    unfold indexOfChar
    rfl
  rw [← e] at hf
  rcases hf with ⟨i, hi, _, hocc, hlt⟩ | ⟨_, hn⟩
  · have hi32 : i < 32 := by
      have := hocc.le; rw [bitString_length] at this; simp at this; omega
    refine ⟨i, hi32, ?_, ?_, ?_⟩
    · unfold toBinaryString toUnsignedString
      rw [if_neg hx]
      simp only [show ¬ ((2 : Int) > 32 ∨ (2 : Int) < 2) by omega, if_false, if_true]
      rw [hi]
      unfold getStringFromIndex
      rw [if_neg]
      · simp [substr, bitString_length, show i ≤ 32 by omega]
        rw [List.take_of_length_le]; simp [bitString_length]
      · simp [pastEnd, bitString_length]; omega
    · rw [occursAt_single, bitString_get _ _ hi32] at hocc
      simp at hocc
      exact (bitChar_one x i).mp hocc
    · intro j hj
      have := hlt j (by omega) hj
      rw [occursAt_single, bitString_get _ _ (by omega)] at this
      simp [bitChar_one] at this
      exact this
  · exfalso
    apply hn (31 - h) (by omega)
    rw [occursAt_single, bitString_get _ _ (by omega)]
    have e : 31 - (31 - h) = h := by omega
    simp [bitChar_one, e, hh.1]

end Verif.NumText
