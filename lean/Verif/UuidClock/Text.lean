import Verif.LibUuid.Props
import Verif.UuidClock.Spec
/-! # Reading what was written -/
namespace Verif.UuidClock

open Verif.JString (Str)
open Verif.NumText (digits isSpace digitVal Numeral IsDigit)
open Verif.LibUuid (TimeVal Clock)

theorem digitRun_digit {b : Nat} {c : Byte} {d : Nat} (h : IsDigit b c d) (w acc : Nat) (u : Str) :
    digitRun b (w + 1) acc (c :: u) = digitRun b w (acc * b + d) u := by
  rw [digitRun]
  simp only [h.1, h.2, if_true]

theorem digitRun_numeral {b : Nat} {t : Str} {n : Nat} (h : Numeral b t n) : ∀ (w acc : Nat) (u : Str),
    digitRun b (t.length + w) acc (t ++ u) = digitRun b w (acc * b ^ t.length + n) u := by
  induction h with
  | @one c d h =>
    intro w acc u
    rw [List.length_singleton, Nat.add_comm, List.singleton_append, digitRun_digit h, Nat.pow_one]
  | @snoc t n c d _ h ih =>
    intro w acc u
    rw [List.append_assoc, List.singleton_append, List.length_append, List.length_singleton,
      show t.length + 1 + w = t.length + (w + 1) by omega, ih, digitRun_digit h, Nat.pow_succ, ← Nat.mul_assoc, Nat.add_mul, Nat.add_assoc]

theorem digitRun_stop {b w acc : Nat} {u : Str} (h : startsDigit b u = false) : digitRun b w acc u = (acc, u) := by
  cases w with
  | zero => rfl
  | succ w =>
    cases u with
    | nil => rfl
    | cons c u =>
      unfold digitRun
      unfold startsDigit at h
      cases hd : digitVal c with
      | none => rfl
      | some d =>
        simp only [hd, decide_eq_false_iff_not] at h
        simp only [h, if_false]

theorem digitRun_all {b w : Nat} {t u : Str} {n : Nat} (h : Numeral b t n) (hw : t.length ≤ w) (hu : startsDigit b u = false) :
    digitRun b w 0 (t ++ u) = (n, u) := by
  obtain ⟨k, rfl⟩ : ∃ k, w = t.length + k := ⟨w - t.length, by omega⟩
  rw [digitRun_numeral h, digitRun_stop hu, Nat.zero_mul, Nat.zero_add]

theorem number_numeral {b w : Nat} {t u : Str} {n : Nat} (h : Numeral b t n) (hw : t.length ≤ w) (hu : startsDigit b u = false) :
    number b w (chr ' ' :: (t ++ u)) = some ((n : Int), u) := by
  obtain ⟨c, t', d, rfl, hd⟩ : ∃ c t' d, t = c :: t' ∧ IsDigit b c d := by
    cases t with
    | nil => exact (h.ne_nil rfl).elim
    | cons c t' => obtain ⟨d, hd⟩ := h.mem c List.mem_cons_self; exact ⟨c, t', d, rfl, hd⟩
  obtain ⟨_, f1, f2, f3, _⟩ := hd.facts
  have hs : skip (chr ' ' :: (c :: t' ++ u)) = c :: (t' ++ u) := by
    unfold skip
    rw [if_pos (by decide)]
    simp only [List.cons_append]
    unfold skip
    rw [f1]
    rfl
  unfold number
  rw [hs]
  simp only [if_neg f2, if_neg f3]
  have hm : magnitude b w (c :: (t' ++ u)) = some (n, u) := by
    unfold magnitude
    have hst : startsDigit b (c :: (t' ++ u)) = true := by
      unfold startsDigit
      simp only [hd.1, hd.2, decide_true]
    rw [if_pos ⟨by simp only [List.length_cons] at hw; omega, hst⟩]
    exact congrArg some (digitRun_all h hw hu)
  rw [hm]
  rfl

theorem literal_append (f s : Str) : literal f (f ++ s) = some s := by
  induction f with
  | nil => rfl
  | cons c f ih =>
    rw [List.cons_append]
    unfold literal
    rw [if_pos rfl, ih]

theorem zeros_numeral {b : Nat} (hb : 0 < b) {t : Str} {n : Nat} (h : Numeral b t n) : ∀ k, Numeral b (List.replicate k (chr '0') ++ t) n := by
  intro k
  induction k with
  | zero => exact h
  | succ k ih => rw [List.replicate_succ, List.cons_append]; exact NumText.Numeral.zero_cons hb ih

theorem padded_numeral {b : Nat} (h2 : 2 ≤ b) (h36 : b ≤ 36) (w n : Nat) (hn : n < 2 ^ 64) : Numeral b (padded b w n) n :=
  zeros_numeral (by omega) (NumText.digits_numeral h2 h36 64 n hn (by omega)) _

theorem padded_hex {n : Nat} (hn : n < 2 ^ 14) : (padded 16 4 n).length = 4 := by
  have hl := LibUuid.digits_length 64 n 4 (by omega) (by have : (16 : Nat) ^ 4 = 65536 := by decide
                                                         omega) (by omega)
  unfold padded
  rw [List.length_append, List.length_replicate]
  omega

theorem and_mask (x : BitVec 16) (h : x.toNat < 2 ^ 14) : x &&& 0x3FFF#16 = x := by
  apply BitVec.eq_of_toNat_eq
  rw [BitVec.toNat_and, show (0x3FFF#16).toNat = 2 ^ 14 - 1 from rfl, Nat.and_two_pow_sub_one_eq_mod, Nat.mod_eq_of_lt h]

/-- States whose text can be read again. -/
def Readable (c : Clock) : Prop :=
  0 ≤ c.last.sec ∧ c.last.sec < 2 ^ 36 ∧ 0 ≤ c.last.usec ∧ c.last.usec < 1000000 ∧ 0 ≤ c.adjustment ∧ c.adjustment ≤ 10 ∧ c.seq.toNat < 2 ^ 14

theorem toInt_nat {n : Nat} (h : n < 2 ^ 40) : (BitVec.ofInt 64 (toULong (n : Int))).toInt = n := by
  have h2 : toULong (n : Int) = n := by
    unfold toULong
    rw [if_neg (by omega)]
    omega
  rw [h2, BitVec.toInt_ofInt]
  rw [Int.bmod_def]
  omega

/-- What is written is read, whatever follows it in the file. -/
theorem scan_text {c : Clock} (h : Readable c) (rest : Str) : scan (text c ++ rest) = some c := by
  obtain ⟨adj, ⟨sec, usec⟩, seq⟩ := c
  obtain ⟨h1, h2, h3, h4, h5, h6, h7⟩ := h
  simp only at h1 h2 h3 h4 h5 h6 h7
  obtain ⟨S, rfl⟩ : ∃ S : Nat, sec = S := ⟨sec.toNat, by omega⟩
  obtain ⟨U, rfl⟩ : ∃ U : Nat, usec = U := ⟨usec.toNat, by omega⟩
  obtain ⟨A, rfl⟩ : ∃ A : Nat, adj = A := ⟨adj.toNat, by omega⟩
  have e1 : text ⟨A, ⟨S, U⟩, seq⟩ ++ rest = txt "clock:" ++ (chr ' ' :: (padded 16 4 seq.toNat ++ (chr ' ' :: (txt "tv:" ++ (chr ' ' ::
      (padded 10 16 S ++ (chr ' ' :: (padded 10 8 U ++ (chr ' ' :: (txt "adj:" ++ (chr ' ' :: (padded 10 8 A ++ (chr '\n' :: rest))))))))))))) := by
    have a1 : txt "clock: " = txt "clock:" ++ [chr ' '] := rfl
    have a2 : txt " tv: " = chr ' ' :: (txt "tv:" ++ [chr ' ']) := rfl
    have a3 : txt " adj: " = chr ' ' :: (txt "adj:" ++ [chr ' ']) := rfl
    have a4 : (((S : Int)) % 2 ^ 64).toNat = S := by omega
    have a5 : txt "\n" = [chr '\n'] := rfl
    have a6 : txt " " = [chr ' '] := rfl
    have a7 : paddedInt 8 U = padded 10 8 U := by
      unfold paddedInt
      rw [if_neg (by omega), Int.natAbs_natCast]
    have a8 : paddedInt 8 A = padded 10 8 A := by
      unfold paddedInt
      rw [if_neg (by omega), Int.natAbs_natCast]
    unfold text
    simp only
    rw [a1, a2, a3, a4, a5, a6, a7, a8]
    simp only [List.append_assoc, List.cons_append, List.nil_append]
  have sp : ∀ b u, startsDigit b (chr ' ' :: u) = false := fun b u => rfl
  have nl : ∀ b u, startsDigit b (chr '\n' :: u) = false := fun b u => rfl
  have sk : ∀ (f u : Str) (c : Byte), isSpace c = false → skip (chr ' ' :: (c :: f ++ u)) = c :: f ++ u := by
    intro f u c hc
    unfold skip
    rw [if_pos (by decide), List.cons_append]
    unfold skip
    rw [hc]
    rfl
  unfold scan
  rw [e1, literal_append]
  simp only
  rw [number_numeral (padded_numeral (by omega) (by omega) 4 _ (by omega)) (by rw [padded_hex h7]; omega) (sp _ _)]
  simp only
  rw [show txt "tv:" = chr 't' :: txt "v:" from rfl, sk _ _ _ (by decide), literal_append]
  simp only
  rw [number_numeral (padded_numeral (by omega) (by omega) 16 S (by omega)) (by simp only [List.length_cons, List.length_append]; omega) (sp _ _)]
  simp only
  rw [number_numeral (padded_numeral (by omega) (by omega) 8 U (by omega)) (by simp only [List.length_cons, List.length_append]; omega) (sp _ _)]
  simp only
  rw [show txt "adj:" = chr 'a' :: txt "dj:" from rfl, sk _ _ _ (by decide), literal_append]
  simp only
  rw [number_numeral (padded_numeral (by omega) (by omega) 8 A (by omega)) (by simp only [List.length_cons, List.length_append]; omega) (nl _ _)]
  simp only [Option.some.injEq, Clock.mk.injEq, TimeVal.mk.injEq]
  refine ⟨?_, ⟨toInt_nat (by omega), toInt_nat (by omega)⟩, ?_⟩
  · rw [BitVec.toInt_ofInt, Int.bmod_def]
    omega
  · have : BitVec.ofInt 16 (seq.toNat : Int) = seq := by
      rw [BitVec.ofInt_natCast]
      simp
    rw [this, and_mask seq h7]

theorem writeAt_zero (t f : Str) : ∃ r, writeAt 0 t f = t ++ r := by
  refine ⟨f.drop (0 + t.length), ?_⟩
  unfold writeAt
  simp

/-- Writing behind a text keeps it. -/
theorem writeAt_behind (t x r : Str) : ∃ r', writeAt t.length x (t ++ r) = t ++ r' := by
  refine ⟨x ++ (t ++ r).drop (t.length + x.length), ?_⟩
  unfold writeAt
  rw [List.take_left', List.length_append, show t.length - (t.length + r.length) = 0 by omega]
  · simp
  · rfl

theorem take_text (t r : Str) : (t ++ r).take t.length = t ++ [] := by simp

end Verif.UuidClock
