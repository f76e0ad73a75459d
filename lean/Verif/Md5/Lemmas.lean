import Verif.Md5.Model
import Verif.Md5.Spec
/-! # Lemmas about MD5 -/
namespace Verif.Md5
open Verif.Hash Verif.Bits

/-! ## One block -/

theorem set_eq (f : Word → Word → Word → Word) (a b c d x : Word) (s : Nat) (t : Word) (hs : s < 32) :
    set f a b c d x s t = b + (a + f b c d + x + t).rotateLeft s := by
  unfold set rotateLeft
  rw [BitVec.rotateLeft_def, Nat.mod_eq_of_lt hs, BitVec.add_comm]

section
variable (X : Nat → Word) {i : Nat} {f : Word → Word → Word → Word} {k s : Nat} {t : Word}
  (hf : RFC.f i = f) (hg : RFC.g i = k) (hs : RFC.shift i = s) (ht : RFC.T i = t) (hlt : s < 32) (r : Regs)
include hf hg hs ht hlt

theorem opA : RFC.operation X (r.a, r.b, r.c, r.d) i = ((setA f X k s t r).d, (setA f X k s t r).a, (setA f X k s t r).b, (setA f X k s t r).c) := by
  subst hf hg hs ht
  show (r.d, r.b + _, r.b, r.c) = (r.d, set _ r.a r.b r.c r.d _ _ _, r.b, r.c)
  rw [set_eq _ _ _ _ _ _ _ _ hlt]
theorem opD : RFC.operation X (r.d, r.a, r.b, r.c) i = ((setD f X k s t r).c, (setD f X k s t r).d, (setD f X k s t r).a, (setD f X k s t r).b) := by
  subst hf hg hs ht
  show (r.c, r.a + _, r.a, r.b) = (r.c, set _ r.d r.a r.b r.c _ _ _, r.a, r.b)
  rw [set_eq _ _ _ _ _ _ _ _ hlt]
theorem opC : RFC.operation X (r.c, r.d, r.a, r.b) i = ((setC f X k s t r).b, (setC f X k s t r).c, (setC f X k s t r).d, (setC f X k s t r).a) := by
  subst hf hg hs ht
  show (r.b, r.d + _, r.d, r.a) = (r.b, set _ r.c r.d r.a r.b _ _ _, r.d, r.a)
  rw [set_eq _ _ _ _ _ _ _ _ hlt]
theorem opB : RFC.operation X (r.b, r.c, r.d, r.a) i = ((setB f X k s t r).a, (setB f X k s t r).b, (setB f X k s t r).c, (setB f X k s t r).d) := by
  subst hf hg hs ht
  show (r.a, r.c + _, r.c, r.d) = (r.a, set _ r.b r.c r.d r.a _ _ _, r.c, r.d)
  rw [set_eq _ _ _ _ _ _ _ _ hlt]
end

theorem round1_eq (X : Nat → Word) (r : Regs) : [0, 1, 2, 3, 4, 5, 6, 7, 8, 9, 10, 11, 12, 13, 14, 15].foldl (RFC.operation X) (r.a, r.b, r.c, r.d) =
    ((round1 X r).a, (round1 X r).b, (round1 X r).c, (round1 X r).d) := by
  simp only [List.foldl_cons, List.foldl_nil]
  rw [opA X (f := fF) (k := 0) (s := 7) (t := T1) rfl rfl rfl (by decide) (by decide)]
  rw [opD X (f := fF) (k := 1) (s := 12) (t := T2) rfl rfl rfl (by decide) (by decide)]
  rw [opC X (f := fF) (k := 2) (s := 17) (t := T3) rfl rfl rfl (by decide) (by decide)]
  rw [opB X (f := fF) (k := 3) (s := 22) (t := T4) rfl rfl rfl (by decide) (by decide)]
  rw [opA X (f := fF) (k := 4) (s := 7) (t := T5) rfl rfl rfl (by decide) (by decide)]
  rw [opD X (f := fF) (k := 5) (s := 12) (t := T6) rfl rfl rfl (by decide) (by decide)]
  rw [opC X (f := fF) (k := 6) (s := 17) (t := T7) rfl rfl rfl (by decide) (by decide)]
  rw [opB X (f := fF) (k := 7) (s := 22) (t := T8) rfl rfl rfl (by decide) (by decide)]
  rw [opA X (f := fF) (k := 8) (s := 7) (t := T9) rfl rfl rfl (by decide) (by decide)]
  rw [opD X (f := fF) (k := 9) (s := 12) (t := T10) rfl rfl rfl (by decide) (by decide)]
  rw [opC X (f := fF) (k := 10) (s := 17) (t := T11) rfl rfl rfl (by decide) (by decide)]
  rw [opB X (f := fF) (k := 11) (s := 22) (t := T12) rfl rfl rfl (by decide) (by decide)]
  rw [opA X (f := fF) (k := 12) (s := 7) (t := T13) rfl rfl rfl (by decide) (by decide)]
  rw [opD X (f := fF) (k := 13) (s := 12) (t := T14) rfl rfl rfl (by decide) (by decide)]
  rw [opC X (f := fF) (k := 14) (s := 17) (t := T15) rfl rfl rfl (by decide) (by decide)]
  rw [opB X (f := fF) (k := 15) (s := 22) (t := T16) rfl rfl rfl (by decide) (by decide)]
  rfl

theorem round2_eq (X : Nat → Word) (r : Regs) : [16, 17, 18, 19, 20, 21, 22, 23, 24, 25, 26, 27, 28, 29, 30, 31].foldl (RFC.operation X) (r.a, r.b, r.c, r.d) =
    ((round2 X r).a, (round2 X r).b, (round2 X r).c, (round2 X r).d) := by
  simp only [List.foldl_cons, List.foldl_nil]
  rw [opA X (f := fG) (k := 1) (s := 5) (t := T17) rfl rfl rfl (by decide) (by decide)]
  rw [opD X (f := fG) (k := 6) (s := 9) (t := T18) rfl rfl rfl (by decide) (by decide)]
  rw [opC X (f := fG) (k := 11) (s := 14) (t := T19) rfl rfl rfl (by decide) (by decide)]
  rw [opB X (f := fG) (k := 0) (s := 20) (t := T20) rfl rfl rfl (by decide) (by decide)]
  rw [opA X (f := fG) (k := 5) (s := 5) (t := T21) rfl rfl rfl (by decide) (by decide)]
  rw [opD X (f := fG) (k := 10) (s := 9) (t := T22) rfl rfl rfl (by decide) (by decide)]
  rw [opC X (f := fG) (k := 15) (s := 14) (t := T23) rfl rfl rfl (by decide) (by decide)]
  rw [opB X (f := fG) (k := 4) (s := 20) (t := T24) rfl rfl rfl (by decide) (by decide)]
  rw [opA X (f := fG) (k := 9) (s := 5) (t := T25) rfl rfl rfl (by decide) (by decide)]
  rw [opD X (f := fG) (k := 14) (s := 9) (t := T26) rfl rfl rfl (by decide) (by decide)]
  rw [opC X (f := fG) (k := 3) (s := 14) (t := T27) rfl rfl rfl (by decide) (by decide)]
  rw [opB X (f := fG) (k := 8) (s := 20) (t := T28) rfl rfl rfl (by decide) (by decide)]
  rw [opA X (f := fG) (k := 13) (s := 5) (t := T29) rfl rfl rfl (by decide) (by decide)]
  rw [opD X (f := fG) (k := 2) (s := 9) (t := T30) rfl rfl rfl (by decide) (by decide)]
  rw [opC X (f := fG) (k := 7) (s := 14) (t := T31) rfl rfl rfl (by decide) (by decide)]
  rw [opB X (f := fG) (k := 12) (s := 20) (t := T32) rfl rfl rfl (by decide) (by decide)]
  rfl

theorem round3_eq (X : Nat → Word) (r : Regs) : [32, 33, 34, 35, 36, 37, 38, 39, 40, 41, 42, 43, 44, 45, 46, 47].foldl (RFC.operation X) (r.a, r.b, r.c, r.d) =
    ((round3 X r).a, (round3 X r).b, (round3 X r).c, (round3 X r).d) := by
  simp only [List.foldl_cons, List.foldl_nil]
  rw [opA X (f := fH) (k := 5) (s := 4) (t := T33) rfl rfl rfl (by decide) (by decide)]
  rw [opD X (f := fH) (k := 8) (s := 11) (t := T34) rfl rfl rfl (by decide) (by decide)]
  rw [opC X (f := fH) (k := 11) (s := 16) (t := T35) rfl rfl rfl (by decide) (by decide)]
  rw [opB X (f := fH) (k := 14) (s := 23) (t := T36) rfl rfl rfl (by decide) (by decide)]
  rw [opA X (f := fH) (k := 1) (s := 4) (t := T37) rfl rfl rfl (by decide) (by decide)]
  rw [opD X (f := fH) (k := 4) (s := 11) (t := T38) rfl rfl rfl (by decide) (by decide)]
  rw [opC X (f := fH) (k := 7) (s := 16) (t := T39) rfl rfl rfl (by decide) (by decide)]
  rw [opB X (f := fH) (k := 10) (s := 23) (t := T40) rfl rfl rfl (by decide) (by decide)]
  rw [opA X (f := fH) (k := 13) (s := 4) (t := T41) rfl rfl rfl (by decide) (by decide)]
  rw [opD X (f := fH) (k := 0) (s := 11) (t := T42) rfl rfl rfl (by decide) (by decide)]
  rw [opC X (f := fH) (k := 3) (s := 16) (t := T43) rfl rfl rfl (by decide) (by decide)]
  rw [opB X (f := fH) (k := 6) (s := 23) (t := T44) rfl rfl rfl (by decide) (by decide)]
  rw [opA X (f := fH) (k := 9) (s := 4) (t := T45) rfl rfl rfl (by decide) (by decide)]
  rw [opD X (f := fH) (k := 12) (s := 11) (t := T46) rfl rfl rfl (by decide) (by decide)]
  rw [opC X (f := fH) (k := 15) (s := 16) (t := T47) rfl rfl rfl (by decide) (by decide)]
  rw [opB X (f := fH) (k := 2) (s := 23) (t := T48) rfl rfl rfl (by decide) (by decide)]
  rfl

theorem round4_eq (X : Nat → Word) (r : Regs) : [48, 49, 50, 51, 52, 53, 54, 55, 56, 57, 58, 59, 60, 61, 62, 63].foldl (RFC.operation X) (r.a, r.b, r.c, r.d) =
    ((round4 X r).a, (round4 X r).b, (round4 X r).c, (round4 X r).d) := by
  simp only [List.foldl_cons, List.foldl_nil]
  rw [opA X (f := fI) (k := 0) (s := 6) (t := T49) rfl rfl rfl (by decide) (by decide)]
  rw [opD X (f := fI) (k := 7) (s := 10) (t := T50) rfl rfl rfl (by decide) (by decide)]
  rw [opC X (f := fI) (k := 14) (s := 15) (t := T51) rfl rfl rfl (by decide) (by decide)]
  rw [opB X (f := fI) (k := 5) (s := 21) (t := T52) rfl rfl rfl (by decide) (by decide)]
  rw [opA X (f := fI) (k := 12) (s := 6) (t := T53) rfl rfl rfl (by decide) (by decide)]
  rw [opD X (f := fI) (k := 3) (s := 10) (t := T54) rfl rfl rfl (by decide) (by decide)]
  rw [opC X (f := fI) (k := 10) (s := 15) (t := T55) rfl rfl rfl (by decide) (by decide)]
  rw [opB X (f := fI) (k := 1) (s := 21) (t := T56) rfl rfl rfl (by decide) (by decide)]
  rw [opA X (f := fI) (k := 8) (s := 6) (t := T57) rfl rfl rfl (by decide) (by decide)]
  rw [opD X (f := fI) (k := 15) (s := 10) (t := T58) rfl rfl rfl (by decide) (by decide)]
  rw [opC X (f := fI) (k := 6) (s := 15) (t := T59) rfl rfl rfl (by decide) (by decide)]
  rw [opB X (f := fI) (k := 13) (s := 21) (t := T60) rfl rfl rfl (by decide) (by decide)]
  rw [opA X (f := fI) (k := 4) (s := 6) (t := T61) rfl rfl rfl (by decide) (by decide)]
  rw [opD X (f := fI) (k := 11) (s := 10) (t := T62) rfl rfl rfl (by decide) (by decide)]
  rw [opC X (f := fI) (k := 2) (s := 15) (t := T63) rfl rfl rfl (by decide) (by decide)]
  rw [opB X (f := fI) (k := 9) (s := 21) (t := T64) rfl rfl rfl (by decide) (by decide)]
  rfl

theorem word_eq (data : List Byte) (k : Nat) : word data k = RFC.word data k := by
  unfold word RFC.word
  apply BitVec.eq_of_toNat_eq
  have h0 := (data.getD (4 * k) 0).isLt
  have h1 := (data.getD (4 * k + 1) 0).isLt
  have h2 := (data.getD (4 * k + 2) 0).isLt
  have h3 := (data.getD (4 * k + 3) 0).isLt
  simp only [BitVec.toNat_append, BitVec.toNat_ofNat, Nat.add_zero]
  generalize data.getD (4 * k) 0 = b0 at *
  generalize data.getD (4 * k + 1) 0 = b1 at *
  generalize data.getD (4 * k + 2) 0 = b2 at *
  generalize data.getD (4 * k + 3) 0 = b3 at *
  simp only [Nat.shiftLeft_eq]
  rw [Nat.mul_comm b3.toNat, ← Nat.two_pow_add_eq_or_of_lt h2, Nat.mul_comm (2 ^ 8 * b3.toNat + b2.toNat), ← Nat.two_pow_add_eq_or_of_lt h1,
    Nat.mul_comm (2 ^ 8 * (2 ^ 8 * b3.toNat + b2.toNat) + b1.toNat), ← Nat.two_pow_add_eq_or_of_lt h0]
  omega

/-- The four words of the state. -/
def abcd (s : State) : RFC.Buffer := (s.a, s.b, s.c, s.d)

/-- `md5_process` is the compression of the RFC. -/
theorem process_eq (s : State) (data : List Byte) (h : data.length = 64) : ∃ s', process s data = .ok s' ∧
    abcd s' = RFC.compress (abcd s) data ∧ s'.count0 = s.count0 ∧ s'.count1 = s.count1 ∧ s'.buf = s.buf := by
  have hX : word data = RFC.word data := funext (word_eq data)
  have r1 : List.foldl (RFC.operation (word data)) (s.a, s.b, s.c, s.d) [0, 1, 2, 3, 4, 5, 6, 7, 8, 9, 10, 11, 12, 13, 14, 15] = _ :=
    round1_eq (word data) ⟨s.a, s.b, s.c, s.d⟩
  have hp : process s data = .ok { s with
      a := s.a + (round4 (word data) (round3 (word data) (round2 (word data) (round1 (word data) ⟨s.a, s.b, s.c, s.d⟩)))).a
      b := s.b + (round4 (word data) (round3 (word data) (round2 (word data) (round1 (word data) ⟨s.a, s.b, s.c, s.d⟩)))).b
      c := s.c + (round4 (word data) (round3 (word data) (round2 (word data) (round1 (word data) ⟨s.a, s.b, s.c, s.d⟩)))).c
      d := s.d + (round4 (word data) (round3 (word data) (round2 (word data) (round1 (word data) ⟨s.a, s.b, s.c, s.d⟩)))).d } := by
    unfold process
    rw [if_neg (by omega), List.take_of_length_le (by omega)]
  refine ⟨_, hp, ?_, rfl, rfl, rfl⟩
  unfold RFC.compress abcd
  have hr : List.range 64 = [0, 1, 2, 3, 4, 5, 6, 7, 8, 9, 10, 11, 12, 13, 14, 15] ++ [16, 17, 18, 19, 20, 21, 22, 23, 24, 25, 26, 27, 28, 29, 30, 31] ++
      [32, 33, 34, 35, 36, 37, 38, 39, 40, 41, 42, 43, 44, 45, 46, 47] ++ [48, 49, 50, 51, 52, 53, 54, 55, 56, 57, 58, 59, 60, 61, 62, 63] := by decide
  rw [hr, ← hX, List.foldl_append, List.foldl_append, List.foldl_append, r1, round2_eq, round3_eq, round4_eq]

theorem process_long (s : State) (data : List Byte) (h : 64 ≤ data.length) : process s data = process s (data.take 64) := by
  have hl : (data.take 64).length = 64 := by rw [List.length_take]; omega
  unfold process
  rw [if_neg (by omega), if_neg (by omega), List.take_take, Nat.min_self]

/-! ## Many blocks -/

theorem fill_ok (s : State) (o n : Nat) (p : List Byte) (h : o + n ≤ 64) (hp : n ≤ p.length) :
    fill s o p n = .ok { s with buf := s.buf.take o ++ p.take n ++ s.buf.drop (o + n) } := by
  unfold fill
  rw [if_neg (by omega)]
  rfl

/-- The part of a state that a message determines. -/
structure Holds (s : State) (msg : List Byte) : Prop where
  len : s.buf.length = 64
  hash : abcd s = foldBlocks RFC.compress RFC.initial msg
  rest : s.buf.take (msg.length % 64) = msg.drop (64 * (msg.length / 64))

theorem blocks_ok : ∀ (fuel : Nat) (s : State) (msg p : List Byte) (n : Nat), msg.length % 64 = 0 → s.buf.length = 64 →
    abcd s = foldBlocks RFC.compress RFC.initial msg → n ≤ p.length → n < fuel →
    ∃ s', blocks fuel s p n = .ok s' ∧ Holds s' (msg ++ p.take n) ∧ s'.count0 = s.count0 ∧ s'.count1 = s.count1 := by
  intro fuel
  induction fuel with
  | zero => intro s msg p n _ _ _ _ h; omega
  | succ fuel ih =>
    intro s msg p n hm hb hs hp hf
    unfold blocks
    by_cases h64 : 64 ≤ n
    · have hlen : (p.take 64).length = 64 := by rw [List.length_take]; omega
      obtain ⟨s1, k1, k2, k3, k4, k5⟩ := process_eq s (p.take 64) hlen
      have hs1 : abcd s1 = foldBlocks RFC.compress RFC.initial (msg ++ p.take 64) := by
        rw [foldBlocks_append _ _ _ _ hm, ← hs, foldBlocks_one _ _ _ hlen, k2]
      obtain ⟨s2, q1, q2, q3, q4⟩ := ih s1 (msg ++ p.take 64) (p.drop 64) (n - 64) (by rw [List.length_append, hlen]; omega) (by rw [k5, hb]) hs1
        (by rw [List.length_drop]; omega) (by omega)
      refine ⟨s2, ?_, ?_, q3.trans k3, q4.trans k4⟩
      · rw [if_pos (by omega), process_long s p (by omega), k1, Outcome.bind_eq, Outcome.bind_ok, show ((n : Int) - 64) = ((n - 64 : Nat) : Int) by omega, q1]
      · have e : (msg ++ p.take 64) ++ (p.drop 64).take (n - 64) = msg ++ p.take n := by
          rw [List.append_assoc, ← List.take_add, show 64 + (n - 64) = n by omega]
        rw [← e]; exact q2
    · rw [if_neg (by omega)]
      have hpl : (p.take n).length = n := by rw [List.length_take]; omega
      have hml : (msg ++ p.take n).length = msg.length + n := by rw [List.length_append, hpl]
      have hhash : foldBlocks RFC.compress RFC.initial (msg ++ p.take n) = foldBlocks RFC.compress RFC.initial msg := by
        rw [foldBlocks_append _ _ _ _ hm, foldBlocks_short _ _ _ (by omega)]
      have hdrop : (msg ++ p.take n).drop (64 * ((msg ++ p.take n).length / 64)) = p.take n := by
        rw [hml, show 64 * ((msg.length + n) / 64) = msg.length by omega, List.drop_left]
      by_cases h0 : n = 0
      · subst h0
        refine ⟨s, by rw [if_neg (by simp)], ⟨hb, by rw [hhash]; exact hs, ?_⟩, rfl, rfl⟩
        rw [hdrop, hml, show (msg.length + 0) % 64 = 0 by omega, List.take_zero, List.take_zero]
      · refine ⟨{ s with buf := s.buf.take 0 ++ p.take n ++ s.buf.drop (0 + n) }, ?_, ⟨?_, ?_, ?_⟩, rfl, rfl⟩
        · rw [if_pos (by omega), fill_ok s 0 n p (by omega) hp]
        · simp only [List.length_append, List.length_drop, hpl, hb, List.take_zero, List.length_nil]; omega
        · rw [hhash]; exact hs
        · rw [hdrop, hml, show (msg.length + n) % 64 = n by omega]
          simp only [List.take_zero, List.nil_append]
          rw [List.take_left' hpl]

theorem appendData_ok (s : State) (msg data : List Byte) (n : Nat) (hs : Holds s msg) (h0 : 0 < n) (hn : n ≤ data.length)
    (hmax : msg.length % 64 + n ≤ 2147483647 ∨ msg.length % 64 = 0) :
    ∃ s', appendData s (msg.length % 64) data n = .ok s' ∧ Holds s' (msg ++ data.take n) ∧ s'.count0 = s.count0 ∧ s'.count1 = s.count1 := by
  obtain ⟨hb, hh, hr⟩ := hs
  have hr64 : msg.length % 64 < 64 := Nat.mod_lt _ (by omega)
  have hsplit : msg = msg.take (64 * (msg.length / 64)) ++ msg.drop (64 * (msg.length / 64)) := (List.take_append_drop _ _).symm
  have hAl : (msg.take (64 * (msg.length / 64))).length = 64 * (msg.length / 64) := by rw [List.length_take]; omega
  have hRl : (msg.drop (64 * (msg.length / 64))).length = msg.length % 64 := by rw [List.length_drop]; omega
  generalize hA : msg.take (64 * (msg.length / 64)) = A at *
  generalize hR : msg.drop (64 * (msg.length / 64)) = R at *
  generalize ho : msg.length % 64 = o at *
  have hA0 : A.length % 64 = 0 := by omega
  have hhA : abcd s = foldBlocks RFC.compress RFC.initial A := by
    rw [hh, hsplit, foldBlocks_append _ _ _ _ hA0, foldBlocks_short _ _ R (by omega)]
  unfold appendData
  by_cases hz : o = 0
  · rw [if_neg (by omega)]
    have hR0 : R = [] := List.eq_nil_of_length_eq_zero (by omega)
    obtain ⟨s', q1, q2, q3, q4⟩ := blocks_ok (n : Int).toNat.succ s msg data n (by omega) hb hh hn (by omega)
    exact ⟨s', q1, q2, q3, q4⟩
  · have hmax' : o + n ≤ 2147483647 := by omega
    rw [if_pos hz, chk32_ok (by unfold INT_MIN; omega) (by unfold INT_MAX; omega), Outcome.bind_eq, Outcome.bind_ok]
    -- the number of bytes copied
    have hc : ∃ c : Nat, (if (64 : Int) < o + n then (64 : Int) - o else (n : Int)) = c ∧ c ≤ n ∧ o + c ≤ 64 ∧ (o + c < 64 → c = n) := by
      by_cases hgt : (64 : Int) < o + n
      · exact ⟨64 - o, by rw [if_pos hgt]; omega, by omega, by omega, by omega⟩
      · exact ⟨n, by rw [if_neg hgt], by omega, by omega, by omega⟩
    obtain ⟨c, hc1, hc2, hc3, hc4⟩ := hc
    simp only [hc1]
    rw [fill_ok s o c data hc3 (by omega), Outcome.bind_eq, Outcome.bind_ok, hr]
    have hcl : (data.take c).length = c := by rw [List.length_take]; omega
    by_cases hlt : o + c < 64
    · have hcn := hc4 hlt
      subst hcn
      rw [if_pos (by omega)]
      have hml : (msg ++ data.take c).length = msg.length + c := by rw [List.length_append, hcl]
      have hml' : msg.length = A.length + o := by rw [hsplit, List.length_append, hRl]
      refine ⟨_, rfl, ⟨?_, ?_, ?_⟩, rfl, rfl⟩
      · simp only [List.length_append, List.length_drop, hRl, hcl, hb]; omega
      · show abcd s = _
        rw [hhA, hsplit, List.append_assoc, foldBlocks_append _ _ _ _ hA0, foldBlocks_short _ _ (R ++ data.take c) (by rw [List.length_append]; omega)]
      · rw [hml, show (msg.length + c) % 64 = o + c by omega, show 64 * ((msg.length + c) / 64) = A.length by omega]
        simp only
        rw [List.take_left' (by rw [List.length_append, hRl, hcl])]
        conv => rhs; rw [hsplit, List.append_assoc, List.drop_left]
    · have h64 : o + c = 64 := by omega
      rw [if_neg (by omega)]
      simp only [List.drop_eq_nil_of_le (show s.buf.length ≤ o + c by omega), List.append_nil]
      have hbl : (R ++ data.take c).length = 64 := by rw [List.length_append, hRl, hcl, h64]
      obtain ⟨s1, k1, k2, k3, k4, k5⟩ := process_eq { s with buf := R ++ data.take c } (R ++ data.take c) hbl
      have hs1 : abcd s1 = foldBlocks RFC.compress RFC.initial (msg ++ data.take c) := by
        rw [k2, hsplit, List.append_assoc, foldBlocks_append _ _ _ _ hA0, foldBlocks_one _ _ _ hbl, ← hhA]
        rfl
      have hm1 : (msg ++ data.take c).length % 64 = 0 := by rw [hsplit, List.append_assoc, List.length_append, hbl]; omega
      obtain ⟨s2, q1, q2, q3, q4⟩ := blocks_ok (n : Int).toNat.succ s1 (msg ++ data.take c) (data.drop c) (n - c) hm1 (by rw [k5]; exact hbl) hs1
        (by rw [List.length_drop]; omega) (by omega)
      refine ⟨s2, ?_, ?_, q3.trans k3, q4.trans k4⟩
      · rw [k1, Outcome.bind_eq, Outcome.bind_ok, Int.toNat_natCast, show (n : Int) - (c : Int) = ((n - c : Nat) : Int) by omega, ← q1]
        rfl
      · have e : (msg ++ data.take c) ++ (data.drop c).take (n - c) = msg ++ data.take n := by
          rw [List.append_assoc, ← List.take_add, show c + (n - c) = n by omega]
        rw [← e]; exact q2

/-! ## The length -/

theorem offset_eq (c : Word) : ((c >>> 3) &&& 63#32).toNat = c.toNat / 8 % 64 := by
  rw [BitVec.toNat_and, show (63#32).toNat = 2 ^ 6 - 1 from rfl, Nat.and_two_pow_sub_one_eq_mod, BitVec.toNat_ushiftRight, Nat.shiftRight_eq_div_pow]

/-- The state after the message `msg`. -/
structure Inv (s : State) (msg : List Byte) : Prop where
  holds : Holds s msg
  count : s.count1.toNat * 2 ^ 32 + s.count0.toNat = 8 * msg.length % 2 ^ 64

/-- Bytes one call of `md5_append` can take. -/
def limit : Sem → Nat
  | .strict => 2 ^ 29 - 1
  | .wrap => 2 ^ 31 - 64

theorem init_inv (buf : List Byte) (h : buf.length = 64) : Inv (init buf) [] := by
  refine ⟨⟨h, ?_, rfl⟩, by simp [init]⟩
  rw [foldBlocks_short _ _ _ (by decide)]
  rfl

theorem append_ok (m : Sem) (s : State) (msg data : List Byte) (n : Nat) (hs : Inv s msg) (hn : n ≤ data.length) (hlim : n ≤ limit m) :
    ∃ s', append m s data n = .ok s' ∧ Inv s' (msg ++ data.take n) := by
  have hn31 : n < 2 ^ 31 - 63 := by cases m <;> simp only [limit] at hlim <;> omega
  have hnb : (BitVec.ofInt 32 (n : Int)).toNat = n := by
    rw [BitVec.ofInt_natCast, BitVec.toNat_ofNat]; omega
  have hshl : shl m (BitVec.ofInt 32 (n : Int)) 3 = .ok (BitVec.ofInt 32 (n : Int) <<< 3) := by
    unfold shl
    rw [if_neg]
    · rfl
    · rintro ⟨hm, h⟩
      subst hm
      simp only [limit] at hlim
      rcases h with h | h | h | h
      · omega
      · omega
      · rw [BitVec.msb_eq_decide] at h
        simp only [hnb, decide_eq_true_eq] at h
        omega
      · rw [hnb, show (3 : Int).toNat = 3 from rfl] at h
        omega
  unfold append
  rw [hshl, Outcome.bind_eq, Outcome.bind_ok]
  by_cases h0 : n = 0
  · subst h0
    exact ⟨s, by rw [if_pos (by decide)], by simpa using hs⟩
  rw [if_neg (by omega)]
  obtain ⟨hh, hc⟩ := hs
  have hoff : ((s.count0 >>> 3) &&& 63#32).toNat = msg.length % 64 := by
    rw [offset_eq]
    have := s.count0.isLt
    have := s.count1.isLt
    omega
  rw [hoff]
  have hH : Holds { s with count0 := s.count0 + BitVec.ofInt 32 (n : Int) <<< 3, count1 := if s.count0 + BitVec.ofInt 32 (n : Int) <<< 3 < BitVec.ofInt 32 (n : Int) <<< 3
      then s.count1 + (BitVec.ofInt 32 (n : Int)).sshiftRight 29 + 1#32 else s.count1 + (BitVec.ofInt 32 (n : Int)).sshiftRight 29 } msg := ⟨hh.len, hh.hash, hh.rest⟩
  obtain ⟨s', q1, q2, q3, q4⟩ := appendData_ok _ msg data n hH (by omega) hn (by omega)
  refine ⟨s', q1, q2, ?_⟩
  rw [q3, q4, List.length_append, List.length_take, Nat.min_eq_left hn]
  simp only
  have e1 : (BitVec.ofInt 32 (n : Int) <<< 3).toNat = n * 8 % 2 ^ 32 := by rw [BitVec.toNat_shiftLeft, hnb, Nat.shiftLeft_eq]
  have e2 : ((BitVec.ofInt 32 (n : Int)).sshiftRight 29).toNat = n / 2 ^ 29 := by
    rw [BitVec.sshiftRight_eq_of_msb_false (by rw [BitVec.msb_eq_false_iff_two_mul_lt, hnb]; omega), BitVec.toNat_ushiftRight, hnb,
      Nat.shiftRight_eq_div_pow]
  have c0 := s.count0.isLt
  have c1 := s.count1.isLt
  have e3 : (s.count0 + BitVec.ofInt 32 (n : Int) <<< 3).toNat = (s.count0.toNat + n * 8 % 2 ^ 32) % 2 ^ 32 := by rw [BitVec.toNat_add, e1]
  by_cases hlt : s.count0 + BitVec.ofInt 32 (n : Int) <<< 3 < BitVec.ofInt 32 (n : Int) <<< 3
  · rw [if_pos hlt]
    rw [BitVec.lt_def, e3, e1] at hlt
    rw [BitVec.toNat_add, BitVec.toNat_add, e2, e3, show (1#32).toNat = 1 from rfl]
    exact count_carry _ _ _ _ c0 hc hlt
  · rw [if_neg hlt]
    rw [BitVec.lt_def, e3, e1] at hlt
    rw [BitVec.toNat_add, e2, e3]
    exact count_plain _ _ _ _ c0 hc hlt

end Verif.Md5
