import Verif.LibUuid.Model
import Verif.LibUuid.Spec
import Verif.Uuid.Props
/-! # Lemmas about libuuid -/
namespace Verif.LibUuid
open Verif.NumText Verif.JString

/-! ## Bytes -/

theorem shiftIn_toNat (x : BitVec 32) (b : Byte) (h : x.toNat < 2 ^ 24) : (shiftIn x b).toNat = x.toNat * 256 + b.toNat := by
  unfold shiftIn
  have hb := b.isLt
  rw [BitVec.toNat_or, BitVec.toNat_shiftLeft, BitVec.toNat_setWidth, Nat.shiftLeft_eq, Nat.mod_eq_of_lt (by omega), Nat.mod_eq_of_lt (by omega),
    Nat.mul_comm x.toNat, ← Nat.two_pow_add_eq_or_of_lt hb]

theorem byteOf_toNat (x : BitVec 32) (k : Nat) : (byteOf x k).toNat = x.toNat / 2 ^ (8 * k) % 256 := by
  unfold byteOf
  rw [BitVec.toNat_setWidth, BitVec.toNat_ushiftRight, Nat.shiftRight_eq_div_pow]

theorem widen (b : Byte) : (b.setWidth 32).toNat = b.toNat := by
  have := b.isLt
  rw [BitVec.toNat_setWidth]; exact Nat.mod_eq_of_lt (by omega)

theorem widen16 (x : BitVec 16) : (x.setWidth 32).toNat = x.toNat := by
  have := x.isLt
  rw [BitVec.toNat_setWidth]; exact Nat.mod_eq_of_lt (by omega)

theorem pair_toNat (a b : Byte) : (((shiftIn (a.setWidth 32) b)).setWidth 16).toNat = a.toNat * 256 + b.toNat := by
  have h1 := a.isLt
  have h2 := b.isLt
  rw [BitVec.toNat_setWidth, shiftIn_toNat _ _ (by rw [widen]; omega), widen]
  exact Nat.mod_eq_of_lt (by omega)

theorem quad_toNat (a b c d : Byte) : (shiftIn (shiftIn (shiftIn (a.setWidth 32) b) c) d).toNat =
    ((a.toNat * 256 + b.toNat) * 256 + c.toNat) * 256 + d.toNat := by
  have h1 := a.isLt
  have h2 := b.isLt
  have h3 := c.isLt
  have e1 := shiftIn_toNat (a.setWidth 32) b (by rw [widen]; omega)
  rw [widen] at e1
  have e2 := shiftIn_toNat (shiftIn (a.setWidth 32) b) c (by omega)
  have e3 := shiftIn_toNat (shiftIn (shiftIn (a.setWidth 32) b) c) d (by omega)
  rw [e3, e2, e1]

/-- A list of 16 bytes, element by element. -/
theorem sixteen {p : List Byte} (h : p.length = 16) : ∃ b0 b1 b2 b3 b4 b5 b6 b7 b8 b9 n0 n1 n2 n3 n4 n5,
    p = [b0, b1, b2, b3, b4, b5, b6, b7, b8, b9, n0, n1, n2, n3, n4, n5] := by
  match p, h with
  | [b0, b1, b2, b3, b4, b5, b6, b7, b8, b9, n0, n1, n2, n3, n4, n5], _ => exact ⟨_, _, _, _, _, _, _, _, _, _, _, _, _, _, _, _, rfl⟩

/-- The number of the fields. -/
def fieldsNumber (u : Fields) : Nat :=
  (((u.timeLow.toNat * 2 ^ 16 + u.timeMid.toNat) * 2 ^ 16 + u.timeHi.toNat) * 2 ^ 16 + u.clockSeq.toNat) * 2 ^ 48 + numberOf u.node

theorem unpack_ok {p : List Byte} (h : p.length = 16) : ∃ u, unpack p = .ok u ∧ u.node.length = 6 ∧ fieldsNumber u = numberOf p ∧ pack u = .ok p := by
  obtain ⟨b0, b1, b2, b3, b4, b5, b6, b7, b8, b9, n0, n1, n2, n3, n4, n5, rfl⟩ := sixteen h
  refine ⟨_, rfl, rfl, ?_, ?_⟩
  · unfold fieldsNumber numberOf
    simp only [List.foldl_cons, List.foldl_nil, quad_toNat, pair_toNat, Nat.zero_mul, Nat.zero_add]
    omega
  · unfold pack
    have l0 := b0.isLt
    have l1 := b1.isLt
    have l2 := b2.isLt
    have l3 := b3.isLt
    have l4 := b4.isLt
    have l5 := b5.isLt
    have l6 := b6.isLt
    have l7 := b7.isLt
    have l8 := b8.isLt
    have l9 := b9.isLt
    simp only
    congr 1
    simp only [List.cons.injEq, and_true]
    refine ⟨?_, ?_, ?_, ?_, ?_, ?_, ?_, ?_, ?_, ?_⟩ <;> apply BitVec.eq_of_toNat_eq <;> rw [byteOf_toNat]
    all_goals first
      | (rw [widen16, pair_toNat]; simp only [Nat.reduceMul, Nat.reducePow]; omega)
      | (rw [quad_toNat]; simp only [Nat.reduceMul, Nat.reducePow]; omega)

theorem pack_ok {u : Fields} (h : u.node.length = 6) : ∃ p, pack u = .ok p ∧ p.length = 16 ∧ numberOf p = fieldsNumber u ∧ unpack p = .ok u := by
  obtain ⟨low, mid, hi, seq, node⟩ := u
  match node, h with
  | [a, b, c, d, e, f], _ =>
    have l1 := low.isLt
    have l2 := mid.isLt
    have l3 := hi.isLt
    have l4 := seq.isLt
    refine ⟨_, rfl, rfl, ?_, ?_⟩
    · unfold fieldsNumber numberOf
      simp only [List.foldl_cons, List.foldl_nil, byteOf_toNat, widen16, Nat.zero_mul, Nat.zero_add, Nat.reduceMul, Nat.reducePow]
      omega
    · unfold unpack
      simp only
      congr 1
      simp only [Fields.mk.injEq, and_true]
      refine ⟨?_, ?_, ?_, ?_⟩ <;> apply BitVec.eq_of_toNat_eq
      · rw [quad_toNat]; simp only [byteOf_toNat, Nat.reduceMul, Nat.reducePow]; omega
      · rw [pair_toNat]; simp only [byteOf_toNat, widen16, Nat.reduceMul, Nat.reducePow]; omega
      · rw [pair_toNat]; simp only [byteOf_toNat, widen16, Nat.reduceMul, Nat.reducePow]; omega
      · rw [pair_toNat]; simp only [byteOf_toNat, widen16, Nat.reduceMul, Nat.reducePow]; omega

theorem numberOf_lt (p : List Byte) : numberOf p < 256 ^ p.length := by
  have key : ∀ (p : List Byte) (a k : Nat), a < 256 ^ k → p.foldl (fun a b => a * 256 + b.toNat) a < 256 ^ (k + p.length) := by
    intro p
    induction p with
    | nil => intro a k h; exact h
    | cons b p ih =>
      intro a k h
      have hb := b.isLt
      have := ih (a * 256 + b.toNat) (k + 1) (by rw [Nat.pow_succ]; omega)
      rw [List.length_cons, show k + (p.length + 1) = k + 1 + p.length by omega]
      exact this
  have := key p 0 0 (by decide)
  rwa [Nat.zero_add] at this

theorem numberOf_inj : ∀ (p q : List Byte), p.length = q.length → numberOf p = numberOf q → p = q := by
  have key : ∀ (p q : List Byte) (a b : Nat), p.length = q.length →
      p.foldl (fun a b => a * 256 + b.toNat) a = q.foldl (fun a b => a * 256 + b.toNat) b → a = b ∧ p = q := by
    intro p
    induction p with
    | nil => intro q a b hl h; cases q with
      | nil => exact ⟨h, rfl⟩
      | cons _ _ => cases hl
    | cons x p ih =>
      intro q a b hl h
      cases q with
      | nil => cases hl
      | cons y q =>
        obtain ⟨h1, h2⟩ := ih q _ _ (by simpa using hl) h
        simp only at h1
        have hx := x.isLt
        have hy := y.isLt
        exact ⟨by omega, by rw [h2, BitVec.eq_of_toNat_eq (by omega : x.toNat = y.toNat)]⟩
  exact fun p q hl h => (key p q 0 0 hl h).2

/-! ## Digits -/

theorem Numeral.append {b : Nat} {t u : List Byte} {n k : Nat} (h : Numeral b t n) (h' : Numeral b u k) :
    Numeral b (t ++ u) (n * b ^ u.length + k) := by
  induction h' with
  | one hd => simpa using Numeral.snoc h hd
  | @snoc u k c d _ hd ih =>
    have := Numeral.snoc ih hd
    rw [List.append_assoc] at this
    rw [List.length_append, List.length_singleton, Nat.pow_succ]
    have e : (n * b ^ u.length + k) * b + d = n * (b ^ u.length * b) + (k * b + d) := by
      rw [Nat.add_mul, Nat.mul_assoc, Nat.add_assoc]
    rwa [e] at this

theorem xdigit_iff : ∀ c : Byte, isXDigit c = (match digitVal c with | some d => decide (d < 16) | none => false) := by decide +kernel

theorem xdigit_of {c : Byte} {d : Nat} (h : IsDigit 16 c d) : isXDigit c = true := by
  rw [xdigit_iff, h.1]; simpa using h.2

theorem digit_of_x {c : Byte} (h : isXDigit c = true) : ∃ d, IsDigit 16 c d := by
  rw [xdigit_iff] at h
  cases hd : digitVal c with
  | none => rw [hd] at h; cases h
  | some d => rw [hd] at h; exact ⟨d, hd, by simpa using h⟩

theorem numeral_of_hex : ∀ (t : List Byte), t ≠ [] → (∀ c ∈ t, isXDigit c = true) → ∃ v, Numeral 16 t v := by
  intro t
  refine snoc_cases (P := fun t => t ≠ [] → (∀ c ∈ t, isXDigit c = true) → ∃ v, Numeral 16 t v) (fun h => absurd rfl h) ?_ t
  intro t c ih _ hx
  obtain ⟨d, hd⟩ := digit_of_x (hx c (by simp))
  by_cases ht : t = []
  · subst ht; exact ⟨d, .one hd⟩
  · obtain ⟨v, hv⟩ := ih ht (fun x hm => hx x (by simp [hm]))
    exact ⟨_, .snoc hv hd⟩

theorem hex_all {t : List Byte} {v : Nat} (h : Numeral 16 t v) : ∀ c ∈ t, isXDigit c = true := by
  intro c hc
  obtain ⟨d, hd⟩ := h.mem c hc
  exact xdigit_of hd

theorem follows_dash (r : List Byte) : Follows 16 (chr '-' :: r) := by
  have e : cstr (chr '-' :: r) = chr '-' :: cstr r := rfl
  refine ⟨by rw [e]; rfl, ?_⟩
  intro x s h
  rw [e] at h
  cases h
  decide

theorem strtoul16_numeral {t : List Byte} {n : Nat} (h : Numeral 16 t n) {rest : List Byte} (hr : Follows 16 rest) (hn : n < 2 ^ 64) :
    strtoul16 (t ++ rest) = .ok (BitVec.ofNat 64 n) := by
  unfold strtoul16
  rw [stoul_plain h (by omega) hr, if_pos hn]

/-! ## The scan -/

/-- Positions of the dashes. -/
def dashAt (i : Nat) : Bool := i = 8 ∨ i = 13 ∨ i = 18 ∨ i = 23

def goodFrom : Nat → List Byte → Bool
  | _, [] => true
  | i, c :: s => (if dashAt i then decide (c = chr '-') else isXDigit c) && goodFrom (i + 1) s

theorem goodFrom_append : ∀ (s t : List Byte) (i : Nat), goodFrom i (s ++ t) = (goodFrom i s && goodFrom (i + s.length) t) := by
  intro s
  induction s with
  | nil => intro t i; simp [goodFrom]
  | cons c s ih =>
    intro t i
    show (_ && goodFrom (i + 1) (s ++ t)) = _
    rw [ih, goodFrom, Bool.and_assoc, List.length_cons, show i + 1 + s.length = i + (s.length + 1) by omega]

theorem goodFrom_digits : ∀ (s : List Byte) (i : Nat), (∀ j, i ≤ j → j < i + s.length → dashAt j = false) →
    (goodFrom i s = true ↔ ∀ c ∈ s, isXDigit c = true) := by
  intro s
  induction s with
  | nil => intro i _; simp [goodFrom]
  | cons c s ih =>
    intro i h
    have h1 := h i (by omega) (by simp)
    have h2 := ih (i + 1) (fun j a b => h j (by omega) (by simp; omega))
    unfold goodFrom
    rw [h1]
    simp only [Bool.false_eq_true, if_false, Bool.and_eq_true, h2, List.mem_cons, forall_eq_or_imp]

theorem scanText_eq (s : List Byte) (hs : s.length = 36) : ∀ (n i : Nat), i + n = 36 → scanText s i (n + 1) = .ok (goodFrom i (s.drop i)) := by
  intro n
  induction n with
  | zero =>
    intro i hi
    have e : i = s.length := by omega
    subst e
    rw [List.drop_length]
    unfold scanText
    rw [Str.at_end, Outcome.bind_eq, Outcome.bind_ok, hs]
    rfl
  | succ n ih =>
    intro i hi
    have hlt : i < s.length := by omega
    rw [List.drop_eq_getElem_cons hlt]
    unfold scanText goodFrom
    rw [Str.at_lt (List.getElem?_eq_getElem hlt), Outcome.bind_eq, Outcome.bind_ok, ih (i + 1) (by omega)]
    by_cases hd : i = 8 ∨ i = 13 ∨ i = 18 ∨ i = 23
    · have : dashAt i = true := by simpa [dashAt] using hd
      rw [if_pos hd, this]
      by_cases hc : s[i] = chr '-' <;> simp [hc]
    · have : dashAt i = false := by simpa [dashAt] using hd
      rw [if_neg hd, if_neg (by omega), this]
      by_cases hc : isXDigit s[i] = true <;> simp [hc]

end Verif.LibUuid
