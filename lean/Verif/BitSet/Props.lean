import Verif.BitSet.Queries
/-! # Properties of `BitSet` (C17-C21, C62-C64)

`Sem.wrap` theorems say what the compiled code does on x86-64 (shift counts
modulo 64, wrap-around); `Sem.strict` theorems say where ISO C++ leaves the
behaviour undefined. -/
namespace Verif.BitSet
open Verif.CInt Verif.Bits

/-- A set with members in two words, built by the code itself. -/
def sample : Prog := .set (.flip (.set .new 3) 70) 64

theorem members_congr {b : BS} {s t : IdxSet} (h : Members b s) (e : ∀ i, s i = t i) : Members b t :=
  (funext e : s = t) ▸ h

/-! ## C17 -/

theorem C17_new : Members mk0 (fun _ => false) := initWords_WF (by decide) (by decide) false

theorem C17_newSize (n : Int) (h : n ≤ INT_MAX) :
    (n < 0 → mkSize n = .throw .negativeArraySize) ∧
    (0 ≤ n → ∃ b, mkSize n = .ok b ∧ Members b (fun _ => false) ∧ n ≤ size b ∧ size b < n + 64) := by
  unfold mkSize
  constructor
  · intro h0; rw [if_pos h0]
  · intro h0
    rw [if_neg (by omega)]
    refine ⟨_, rfl, initWords_WF h0 h true, ?_, ?_⟩ <;>
      simp only [size, initWords, List.length_replicate] <;> omega

theorem setBit_members {b : BS} {s : IdxSet} (h : Members b s) {i : Int} (hi : Idx i) :
    ∃ r, setBit .wrap b i = .ok r ∧ Members r (fun j => if (j : Int) = i then true else s j) := by
  obtain ⟨n, rfl⟩ := Int.eq_ofNat_of_zero_le hi.1
  rw [members_iff] at h
  obtain ⟨r, r1, r2, r3⟩ := setBitAt_ok h.1 n hi.2
  refine ⟨r, ?_, ?_⟩
  · unfold setBit; rw [if_neg (by omega), Int.toNat_natCast]; exact r1
  · rw [members_iff]
    refine ⟨r2, fun j => ?_⟩
    rw [r3]
    by_cases hj : j = n
    · rw [if_pos hj, if_pos (by omega)]
    · rw [if_neg hj, if_neg (by omega), h.2]

theorem clearBit_members {b : BS} {s : IdxSet} (h : Members b s) {i : Int} (hi : 0 ≤ i) :
    ∃ r, clearBit .wrap b i = .ok r ∧ Members r (fun j => if (j : Int) = i then false else s j) := by
  obtain ⟨n, rfl⟩ := Int.eq_ofNat_of_zero_le hi
  rw [members_iff] at h
  obtain ⟨r, r1, r2, r3⟩ := clearBitAt_ok h.1 n
  refine ⟨r, ?_, ?_⟩
  · unfold clearBit; rw [if_neg (by omega), Int.toNat_natCast]; exact r1
  · rw [members_iff]
    refine ⟨r2, fun j => ?_⟩
    rw [r3]
    by_cases hj : j = n
    · rw [if_pos hj, if_pos (by omega)]
    · rw [if_neg hj, if_neg (by omega), h.2]

theorem flipBit_members {b : BS} {s : IdxSet} (h : Members b s) {i : Int} (hi : Idx i) :
    ∃ r, flipBit .wrap b i = .ok r ∧ Members r (fun j => if (j : Int) = i then !s j else s j) := by
  obtain ⟨n, rfl⟩ := Int.eq_ofNat_of_zero_le hi.1
  rw [members_iff] at h
  obtain ⟨r, r1, r2, r3⟩ := flipBitAt_ok h.1 n hi.2
  refine ⟨r, ?_, ?_⟩
  · unfold flipBit; rw [if_neg (by omega), Int.toNat_natCast]; exact r1
  · rw [members_iff]
    refine ⟨r2, fun j => ?_⟩
    rw [r3]
    by_cases hj : j = n
    · rw [if_pos hj, if_pos (by omega), h.2]
    · rw [if_neg hj, if_neg (by omega), h.2]

/-- One single-bit call. -/
inductive BitOp
  | set (i : Int)
  | setTo (i : Int) (v : Bool)
  | clear (i : Int)
  | flip (i : Int)
  | clearAll

/-- The call on the object; an exception leaves the object as it was, since
the index is tested before anything is written. -/
def BitOp.apply (b : BS) : BitOp → Outcome BS
  | .set i => setBit .wrap b i
  | .setTo i v => setBitTo .wrap b i v
  | .clear i => clearBit .wrap b i
  | .flip i => flipBit .wrap b i
  | .clearAll => BitSet.clearAll b

/-- A client that catches `IndexOutOfBoundsException` and goes on. -/
def history (b : BS) : List BitOp → Outcome BS
  | [] => .ok b
  | op :: ops => match op.apply b with
    | .ok b' => history b' ops
    | .throw .indexOutOfBounds => history b ops
    | .throw e => .throw e
    | .ub => .ub
    | .diverge => .diverge

/-- The same call on a mathematical set; negative indices are ignored. -/
def BitOp.den (s : IdxSet) : BitOp → IdxSet
  | .set i => fun j => if (j : Int) = i then true else s j
  | .setTo i v => fun j => if (j : Int) = i then v else s j
  | .clear i => fun j => if (j : Int) = i then false else s j
  | .flip i => fun j => if (j : Int) = i then !s j else s j
  | .clearAll => fun _ => false

def BitOp.index : BitOp → Int
  | .set i => i
  | .setTo i _ => i
  | .clear i => i
  | .flip i => i
  | .clearAll => 0

theorem neg_ignored (i : Int) (h : i < 0) (s : IdxSet) (f : IdxSet) : (fun j : Nat => if (j : Int) = i then f j else s j) = s := by
  funext j; rw [if_neg (by omega)]

theorem C17_step {b : BS} {s : IdxSet} (h : Members b s) (op : BitOp) (hi : op.index ≤ INT_MAX) :
    (0 ≤ op.index → ∃ r, op.apply b = .ok r ∧ Members r (op.den s)) ∧
    (op.index < 0 → op.apply b = .throw .indexOutOfBounds ∧ op.den s = s) := by
  cases op with
  | set i =>
    refine ⟨fun h0 => setBit_members h ⟨h0, hi⟩, fun h0 => ⟨?_, neg_ignored i h0 s _⟩⟩
    have h0 : i < 0 := h0
    simp [BitOp.apply, setBit, h0]
  | clear i =>
    refine ⟨fun h0 => clearBit_members h h0, fun h0 => ⟨?_, neg_ignored i h0 s _⟩⟩
    have h0 : i < 0 := h0
    simp [BitOp.apply, clearBit, h0]
  | flip i =>
    refine ⟨fun h0 => flipBit_members h ⟨h0, hi⟩, fun h0 => ⟨?_, neg_ignored i h0 s _⟩⟩
    have h0 : i < 0 := h0
    simp [BitOp.apply, flipBit, h0]
  | setTo i v =>
    refine ⟨fun h0 => ?_, fun h0 => ⟨?_, neg_ignored i h0 s _⟩⟩
    · cases v with
      | true => exact setBit_members h ⟨h0, hi⟩
      | false => exact clearBit_members h h0
    · have h0 : i < 0 := h0
      simp only [BitOp.apply, setBitTo, setBit, clearBit, if_pos h0, ite_self]
  | clearAll =>
    refine ⟨fun _ => ?_, fun h0 => absurd h0 (by decide)⟩
    rw [members_iff] at h
    obtain ⟨r, r1, r2, r3⟩ := clearAll_ok h.1
    exact ⟨r, r1, members_iff.mpr ⟨r2, r3⟩⟩

/-- C17. After any history of single-bit calls, with any `int` indices,
`get(i)` answers membership in the set obtained by replaying the history on a
mathematical set; negative indices raise and change nothing. -/
theorem C17_history (ops : List BitOp) (hi : ∀ op ∈ ops, op.index ≤ INT_MAX) {b : BS} {s : IdxSet} (h : Members b s) :
    ∃ r, history b ops = .ok r ∧ WF r ∧ ∀ i : Nat, getBit .wrap r i = .ok (ops.foldl BitOp.den s i) := by
  induction ops generalizing b s with
  | nil => exact ⟨b, rfl, h.1, h.2⟩
  | cons op ops ih =>
    have hs := C17_step h op (hi op (by simp))
    unfold history
    rcases Int.lt_or_le op.index 0 with h0 | h0
    · obtain ⟨e1, e2⟩ := hs.2 h0
      rw [e1, List.foldl_cons, e2]
      exact ih (fun o ho => hi o (List.mem_cons_of_mem _ ho)) h
    · obtain ⟨r, e1, e2⟩ := hs.1 h0
      rw [e1, List.foldl_cons]
      exact ih (fun o ho => hi o (List.mem_cons_of_mem _ ho)) e2

/-- Starting from `BitSet()`. -/
theorem C17_history_new (ops : List BitOp) (hi : ∀ op ∈ ops, op.index ≤ INT_MAX) :
    ∃ r, history mk0 ops = .ok r ∧ ∀ i : Nat, getBit .wrap r i = .ok (ops.foldl BitOp.den (fun _ => false) i) := by
  obtain ⟨r, h1, _, h2⟩ := C17_history ops hi C17_new
  exact ⟨r, h1, h2⟩

example : ∃ r, history mk0 [.set 3, .flip 70, .set (-1), .clear 3, .flip 64] = .ok r ∧ getBit .wrap r 70 = .ok true ∧
    getBit .wrap r 3 = .ok false := by
  obtain ⟨r, h1, h2⟩ := C17_history_new [.set 3, .flip 70, .set (-1), .clear 3, .flip 64] (by
    intro op h; simp only [List.mem_cons, List.not_mem_nil, or_false] at h
    rcases h with rfl | rfl | rfl | rfl | rfl <;> simp [BitOp.index, INT_MAX])
  exact ⟨r, h1, h2 70, h2 3⟩

theorem C17_get_negative (b : BS) (i : Int) (h : i < 0) : getBit .wrap b i = .throw .indexOutOfBounds := by
  simp [getBit, h]

/-- ISO C++ does not define `1L << bitIndex` for indices from 64 on: the
property holds only because x86-64 takes the count modulo 64. -/
theorem C17_strict_undefined (b : BS) (i : Int) (h : 64 ≤ i) :
    setBit .strict b i = .ub ∧ flipBit .strict b i = .ub := by
  have h0 : ¬ i < 0 := by omega
  have h1 : (64 : Int) ≤ (i.toNat : Int) := by omega
  constructor
  · simp only [setBit, if_neg h0, setBitAt, shl, Outcome.bind_eq]
    rw [if_pos ⟨trivial, Or.inr (Or.inl h1)⟩]; rfl
  · simp only [flipBit, if_neg h0, flipBitAt, shl, Outcome.bind_eq]
    rw [if_pos ⟨trivial, Or.inr (Or.inl h1)⟩]; rfl

/-- Below 64 the two readings agree. -/
theorem C17_strict_low (b : BS) (i : Int) (h : 0 ≤ i) (h64 : i < 64) :
    setBit .strict b i = setBit .wrap b i ∧ flipBit .strict b i = flipBit .wrap b i ∧
    clearBit .strict b i = clearBit .wrap b i ∧ getBit .strict b i = getBit .wrap b i := by
  obtain ⟨n, rfl⟩ := Int.eq_ofNat_of_zero_le h
  have hn : n < 64 := by omega
  have e : shl .strict 1#64 (n : Int) = shl .wrap 1#64 (n : Int) := by
    rw [shl_wrap]
    have key : ∀ m : Fin 64, shl .strict 1#64 (m.val : Int) = .ok ((1#64) <<< ((m.val : Int) % (64 : Nat)).toNat) := by
      decide
    exact key ⟨n, hn⟩
  refine ⟨?_, ?_, ?_, ?_⟩
  · simp only [setBit, setBitAt, Int.toNat_natCast, e]
  · simp only [flipBit, flipBitAt, Int.toNat_natCast, e]
  · simp only [clearBit, clearBitAt, Int.toNat_natCast, e]
  · simp only [getBit, Int.toNat_natCast, e]

/-! ## C18 -/

theorem checkRange_ok {f t : Int} (h : 0 ≤ f) (h2 : f ≤ t) : checkRange f t = .ok () := by
  unfold checkRange
  rw [if_neg (by omega), if_neg (by omega), if_neg (by omega)]

theorem checkRange_bad {f t : Int} (h : f < 0 ∨ t < 0 ∨ t < f) : checkRange f t = .throw .indexOutOfBounds := by
  unfold checkRange
  by_cases h1 : f < 0
  · rw [if_pos h1]
  · by_cases h2 : t < 0
    · rw [if_neg h1, if_pos h2]
    · rw [if_neg h1, if_neg h2, if_pos (by omega)]

theorem rng_nat {f t : Int} (h : Rng f t) : ∃ a b : Nat, f = a ∧ t = b ∧ a ≤ b := by
  obtain ⟨a, rfl⟩ := Int.eq_ofNat_of_zero_le h.1
  obtain ⟨b, rfl⟩ := Int.eq_ofNat_of_zero_le (Int.le_trans h.1 h.2.1)
  exact ⟨a, b, rfl, rfl, by have := h.2.1; omega⟩

/-- `set(from, to)` adds exactly the indices of the range. -/
theorem C18_setRange {b : BS} {s : IdxSet} (h : Members b s) {f t : Int} (hr : Rng f t) :
    ∃ r, setRange .wrap b f t = .ok r ∧ Members r (fun j => if f ≤ j ∧ (j : Int) < t then true else s j) := by
  obtain ⟨a, c, rfl, rfl, hac⟩ := rng_nat hr
  rw [members_iff] at h
  obtain ⟨r, r1, r2, r3⟩ := setRangeAt_ok h.1 a c hac hr.2.2
  refine ⟨r, ?_, members_iff.mpr ⟨r2, fun j => ?_⟩⟩
  · simp only [setRange, Outcome.bind_eq, checkRange_ok hr.1 hr.2.1, Outcome.bind_ok, Int.toNat_natCast, r1]
  · rw [r3, h.2]
    by_cases hc : a ≤ j ∧ j < c
    · rw [if_pos hc, if_pos (by omega)]
    · rw [if_neg hc, if_neg (by omega)]

/-- `clear(from, to)` removes exactly the indices of the range. -/
theorem C18_clearRange {b : BS} {s : IdxSet} (h : Members b s) {f t : Int} (hr : Rng f t) :
    ∃ r, clearRange .wrap b f t = .ok r ∧ Members r (fun j => if f ≤ j ∧ (j : Int) < t then false else s j) := by
  obtain ⟨a, c, rfl, rfl, hac⟩ := rng_nat hr
  rw [members_iff] at h
  obtain ⟨r, r1, r2, r3⟩ := clearRangeAt_ok h.1 a c hac hr.2.2
  refine ⟨r, ?_, members_iff.mpr ⟨r2, fun j => ?_⟩⟩
  · simp only [clearRange, Outcome.bind_eq, checkRange_ok hr.1 hr.2.1, Outcome.bind_ok, Int.toNat_natCast, r1]
  · rw [r3, h.2]
    by_cases hc : a ≤ j ∧ j < c
    · rw [if_pos hc, if_pos (by omega)]
    · rw [if_neg hc, if_neg (by omega)]

/-- `set(from, to, value)`. -/
theorem C18_setRangeTo {b : BS} {s : IdxSet} (h : Members b s) {f t : Int} (hr : Rng f t) (v : Bool) :
    ∃ r, setRangeTo .wrap b f t v = .ok r ∧ Members r (fun j => if f ≤ j ∧ (j : Int) < t then v else s j) := by
  cases v with
  | true => exact C18_setRange h hr
  | false => exact C18_clearRange h hr

/-- `flip(from, to)`, every case: a non-empty range whose end is a multiple of
64 is extended by 64. -/
theorem C18_flipRange_exact {b : BS} {s : IdxSet} (h : Members b s) {f t : Int} (hr : Rng f t) :
    ∃ r, flipRange .wrap b f t = .ok r ∧
      Members r (fun j => if f ≤ j ∧ (j : Int) < (if f < t ∧ t % 64 = 0 then t + 64 else t) then !s j else s j) := by
  obtain ⟨a, c, rfl, rfl, hac⟩ := rng_nat hr
  rw [members_iff] at h
  simp only [flipRange, Outcome.bind_eq, checkRange_ok hr.1 hr.2.1, Outcome.bind_ok, Int.toNat_natCast]
  by_cases he : a = c
  · subst he
    refine ⟨b, by simp [flipRangeAt], members_iff.mpr ⟨h.1, fun j => ?_⟩⟩
    rw [if_neg (show ¬ ((a : Int) < a ∧ (a : Int) % 64 = 0) by omega), if_neg (by omega), h.2]
  · obtain ⟨r, r1, r2, r3⟩ := flipRangeAt_ok h.1 a c (by omega) hr.2.2
    refine ⟨r, r1, members_iff.mpr ⟨r2, fun j => ?_⟩⟩
    rw [r3, h.2]
    unfold flipEnd
    by_cases hm : c % 64 = 0
    · rw [if_pos hm, if_pos (show (a : Int) < c ∧ (c : Int) % 64 = 0 by omega)]
      by_cases hc : a ≤ j ∧ j < c + 64
      · rw [if_pos hc, if_pos (by omega)]
      · rw [if_neg hc, if_neg (by omega)]
    · rw [if_neg hm, if_neg (show ¬ ((a : Int) < c ∧ (c : Int) % 64 = 0) by omega)]
      by_cases hc : a ≤ j ∧ j < c
      · rw [if_pos hc, if_pos (by omega)]
      · rw [if_neg hc, if_neg (by omega)]

/-- `flip(from, to)` toggles exactly the range. Missing: a non-empty range
whose end is a multiple of 64. -/
theorem C18_flipRange_partial {b : BS} {s : IdxSet} (h : Members b s) {f t : Int} (hr : Rng f t)
    (ht : f = t ∨ t % 64 ≠ 0) :
    ∃ r, flipRange .wrap b f t = .ok r ∧ Members r (fun j => if f ≤ j ∧ (j : Int) < t then !s j else s j) := by
  obtain ⟨r, r1, r2⟩ := C18_flipRange_exact h hr
  rw [if_neg (show ¬ (f < t ∧ t % 64 = 0) by omega)] at r2
  exact ⟨r, r1, r2⟩

/-- For every set and every non-empty range ending at a multiple of 64,
`flip(from, to)` wrongly toggles the index `to`. -/
theorem C18_flipRange_wrong {b : BS} {s : IdxSet} (h : Members b s) {f t : Int} (hr : Rng f t) (hlt : f < t)
    (ht : t % 64 = 0) : ∃ r, flipRange .wrap b f t = .ok r ∧ getBit .wrap r t = .ok (!s t.toNat) := by
  obtain ⟨r, r1, r2⟩ := C18_flipRange_exact h hr
  refine ⟨r, r1, ?_⟩
  have h0 := hr.1
  have := r2.2 t.toNat
  rw [if_pos (show f < t ∧ t % 64 = 0 from ⟨hlt, ht⟩), Int.toNat_of_nonneg (by omega)] at this
  rw [this]
  exact congrArg _ (if_pos (by omega))

theorem length_members {b : BS} {s : IdxSet} (h : Members b s) :
    ∃ n : Nat, IsLength s n ∧ n ≤ 2 ^ 31 ∧ length b = chk32 (n : Int) ∧ (0 < n → (n - 1) / 64 < b.inUse) := by
  have hs : bt b.words = s := funext (members_iff.mp h).2
  rcases length_ok h.1 with ⟨h0, hl⟩ | ⟨k, hk, j, hj, hh, hl⟩
  · refine ⟨0, ⟨fun i _ => ?_, Or.inl rfl⟩, by omega, by rw [hl]; rfl, fun h => absurd h (by omega)⟩
    rw [← hs]; exact bt_zero h.1.pre (by omega)
  · have hc := h.1.cap
    exact ⟨64 * k + j + 1, by rw [← hs]; exact isLength_of_highest h.1.pre hk hj hh, by omega, hl, fun _ => by omega⟩

/-- `get(from, to)` is the range shifted down by `from`. Missing: sets that
contain the index `INT_MAX` (see `C18_getRange_undefined`). -/
theorem C18_getRange_partial {b : BS} {s : IdxSet} (h : Members b s) {f t : Int} (hr : Rng f t)
    (hmax : s INT_MAX.toNat = false) :
    ∃ r, getRange .wrap b f t = .ok r ∧ Members r (fun j => decide (f + j < t) && s (f.toNat + j)) := by
  obtain ⟨a, c, rfl, rfl, hac⟩ := rng_nat hr
  obtain ⟨n, hn, hn31, hl, hu⟩ := length_members h
  have hm : INT_MAX.toNat = 2147483647 := rfl
  have hlt : n < 2 ^ 31 := by
    rcases hn.2 with h0 | h0
    · omega
    · rcases Nat.lt_or_ge n (2 ^ 31) with h' | h'
      · exact h'
      · rw [show n - 1 = INT_MAX.toNat by omega, hmax] at h0; cases h0
  have hti := hr.2.2
  unfold INT_MAX at hti
  simp only [getRange, Outcome.bind_eq, checkRange_ok hr.1 hr.2.1, Outcome.bind_ok, Int.toNat_natCast, hl, chk32_nat hlt]
  by_cases hc : (n : Int) ≤ a ∨ (a : Int) = c
  · rw [if_pos hc]
    obtain ⟨r, r1, r2, _⟩ := (C17_newSize 0 (by decide)).2 (by decide)
    refine ⟨r, r1, ?_⟩
    refine members_congr r2 fun j => ?_
    rcases hc with hc | hc
    · rw [hn.1 _ (by omega)]; simp
    · have : ¬ (a : Int) + j < c := by omega
      simp [this]
  · rw [if_neg hc]
    have he : (if (n : Int) < (c : Int) then n else c) = min n c := by
      by_cases h' : (n : Int) < c
      · rw [if_pos h']; omega
      · rw [if_neg h']; omega
    rw [he]
    have hw := (members_iff.mp h)
    obtain ⟨r, r1, r2, r3⟩ := getRangeTail_ok hw.1 a (min n c) (by omega) (by have := hu (by omega); omega)
      (by unfold INT_MAX; omega)
    refine ⟨r, r1, members_iff.mpr ⟨r2, fun j => ?_⟩⟩
    rw [r3, hw.2]
    by_cases h1 : a + j < c
    · have h2 : (a : Int) + j < c := by omega
      by_cases h3 : a + j < n
      · have : a + j < min n c := by omega
        simp [this, h2]
      · rw [hn.1 (a + j) (by omega)]; simp
    · have h2 : ¬ (a : Int) + j < c := by omega
      have : ¬ a + j < min n c := by omega
      simp [this, h2]

/-- When the index `INT_MAX` is a member, computing `length()` overflows. -/
theorem C18_getRange_undefined {b : BS} {s : IdxSet} (h : Members b s) {f t : Int} (hr : Rng f t)
    (hmax : s INT_MAX.toNat = true) : length b = .ub ∧ getRange .wrap b f t = .ub := by
  obtain ⟨n, hn, hn31, hl, hu⟩ := length_members h
  have hm : INT_MAX.toNat = 2147483647 := rfl
  have hge : 2 ^ 31 ≤ n := by
    rcases Nat.lt_or_ge n (2 ^ 31) with h' | h'
    · rw [hn.1 INT_MAX.toNat (by omega)] at hmax; cases hmax
    · exact h'
  have hlb : length b = .ub := by
    rw [hl]; unfold chk32; rw [if_neg (by unfold INT_MAX; omega)]
  refine ⟨hlb, ?_⟩
  simp only [getRange, Outcome.bind_eq, checkRange_ok hr.1 hr.2.1, Outcome.bind_ok, hlb, Outcome.bind_ub]

/-- Invalid ranges raise, whatever the operation. -/
theorem C18_invalid (b : BS) (f t : Int) (v : Bool) (h : f < 0 ∨ t < 0 ∨ t < f) :
    setRange .wrap b f t = .throw .indexOutOfBounds ∧ setRangeTo .wrap b f t v = .throw .indexOutOfBounds ∧
    clearRange .wrap b f t = .throw .indexOutOfBounds ∧ flipRange .wrap b f t = .throw .indexOutOfBounds ∧
    getRange .wrap b f t = .throw .indexOutOfBounds := by
  have e := checkRange_bad h
  have h1 : setRange .wrap b f t = .throw .indexOutOfBounds := by
    simp only [setRange, Outcome.bind_eq, e, Outcome.bind_throw]
  have h2 : clearRange .wrap b f t = .throw .indexOutOfBounds := by
    simp only [clearRange, Outcome.bind_eq, e, Outcome.bind_throw]
  refine ⟨h1, ?_, h2, ?_, ?_⟩
  · cases v
    · exact h2
    · exact h1
  · simp only [flipRange, Outcome.bind_eq, e, Outcome.bind_throw]
  · simp only [getRange, Outcome.bind_eq, e, Outcome.bind_throw]

/-- ISO C++: shifting the negative `WORD_MASK` to the left is undefined, so
every non-empty `set(from, to)` and `flip(from, to)` is. -/
theorem C18_strict_undefined (b : BS) (f t : Int) (hr : Rng f t) (hlt : f < t) :
    setRange .strict b f t = .ub ∧ flipRange .strict b f t = .ub := by
  have hm : WORD_MASK.msb = true := by decide
  have hne : ¬ f.toNat = t.toNat := by have := hr.1; omega
  have e : firstMask .strict f.toNat = .ub := by
    unfold firstMask shl; rw [if_pos ⟨rfl, Or.inr (Or.inr (Or.inl hm))⟩]
  constructor
  · simp only [setRange, Outcome.bind_eq, checkRange_ok hr.1 hr.2.1, Outcome.bind_ok, setRangeAt, if_neg hne, e, Outcome.bind_ub]
  · simp only [flipRange, Outcome.bind_eq, checkRange_ok hr.1 hr.2.1, Outcome.bind_ok, flipRangeAt, if_neg hne, e, Outcome.bind_ub]

example : Rng 3 130 ∧ (130 : Int) % 64 ≠ 0 := ⟨⟨by decide, by decide, by decide⟩, by decide⟩
example : ∃ r, flipRange .wrap mk0 0 64 = .ok r ∧ getBit .wrap r 64 = .ok true :=
  C18_flipRange_wrong C17_new ⟨by decide, by decide, by decide⟩ (by decide) (by decide)

/-! ## C19 -/

theorem C19_and {a b : BS} {s t : IdxSet} (ha : Members a s) (hb : Members b t) :
    ∃ r, bitAnd a b = .ok r ∧ Members r (fun i => s i && t i) := by
  rw [members_iff] at ha hb
  obtain ⟨r, r1, r2, r3⟩ := bitAnd_ok ha.1 hb.1
  exact ⟨r, r1, members_iff.mpr ⟨r2, fun i => by rw [r3, ha.2, hb.2]⟩⟩

theorem C19_or {a b : BS} {s t : IdxSet} (ha : Members a s) (hb : Members b t) :
    ∃ r, bitOr a b = .ok r ∧ Members r (fun i => s i || t i) := by
  rw [members_iff] at ha hb
  obtain ⟨r, r1, r2, r3⟩ := bitOr_ok ha.1 hb.1
  exact ⟨r, r1, members_iff.mpr ⟨r2, fun i => by rw [r3, ha.2, hb.2]⟩⟩

theorem C19_xor {a b : BS} {s t : IdxSet} (ha : Members a s) (hb : Members b t) :
    ∃ r, bitXor a b = .ok r ∧ Members r (fun i => s i ^^ t i) := by
  rw [members_iff] at ha hb
  obtain ⟨r, r1, r2, r3⟩ := bitXor_ok ha.1 hb.1
  exact ⟨r, r1, members_iff.mpr ⟨r2, fun i => by rw [r3, ha.2, hb.2]⟩⟩

theorem C19_andNot {a b : BS} {s t : IdxSet} (ha : Members a s) (hb : Members b t) :
    ∃ r, andNot a b = .ok r ∧ Members r (fun i => s i && !t i) := by
  rw [members_iff] at ha hb
  obtain ⟨r, r1, r2, r3⟩ := andNot_ok ha.1 hb.1
  exact ⟨r, r1, members_iff.mpr ⟨r2, fun i => by rw [r3, ha.2, hb.2]⟩⟩

/-- `intersects`, every case: true when there is a common member; otherwise
false if both arrays are longer than the shorter used part, and else
`std::out_of_range` (the loop bound is one too large). -/
theorem C19_intersects_exact {a b : BS} {s t : IdxSet} (ha : Members a s) (hb : Members b t) :
    ((∃ i, s i = true ∧ t i = true) → intersects a b = .ok true) ∧
    ((∀ i, ¬ (s i = true ∧ t i = true)) →
      intersects a b = if min a.inUse b.inUse < a.words.length ∧ min a.inUse b.inUse < b.words.length
        then .ok false else .throw .outOfRange) := by
  rw [members_iff] at ha hb
  have hau := ha.1.used
  have hbu := hb.1.used
  have hL := intersectsLoop_ok a.words b.words (min a.inUse b.inUse + 1) 0
  constructor
  · rintro ⟨i, h1, h2⟩
    rw [← ha.2] at h1
    rw [← hb.2] at h2
    have g1 : i / 64 < a.inUse := by
      rcases Nat.lt_or_ge (i / 64) a.inUse with h | h
      · exact h
      · rw [bt_zero ha.1.pre h] at h1; cases h1
    have g2 : i / 64 < b.inUse := by
      rcases Nat.lt_or_ge (i / 64) b.inUse with h | h
      · exact h
      · rw [bt_zero hb.1.pre h] at h2; cases h2
    exact hL.1 ⟨i / 64, by omega, by omega, by omega, by omega,
      (and_ne_zero _ _).mpr ⟨i % 64, Nat.mod_lt _ (by omega), h1, h2⟩⟩
  · intro hno
    unfold intersects
    rw [hL.2 ?_ (by omega) (by omega)]
    · by_cases hc : min a.inUse b.inUse < a.words.length ∧ min a.inUse b.inUse < b.words.length
      · rw [if_pos hc, if_pos (by omega)]
      · rw [if_neg hc, if_neg (by omega)]
    · intro j _ _
      apply Classical.byContradiction
      intro hc
      obtain ⟨x, hx, h1, h2⟩ := (and_ne_zero _ _).mp hc
      apply hno (64 * j + x)
      rw [← ha.2, ← hb.2]
      unfold bt
      rw [show (64 * j + x) / 64 = j by omega, show (64 * j + x) % 64 = x by omega]
      exact ⟨h1, h2⟩

/-- `intersects` answers whether there is a common member, provided the
answer is yes or both arrays have a spare word. Missing: the other cases,
which throw. -/
theorem C19_intersects_partial {a b : BS} {s t : IdxSet} (ha : Members a s) (hb : Members b t)
    (hspare : (∃ i, s i = true ∧ t i = true) ∨
      (min a.inUse b.inUse < a.words.length ∧ min a.inUse b.inUse < b.words.length)) :
    ∃ r, intersects a b = .ok r ∧ (r = true ↔ ∃ i, s i = true ∧ t i = true) := by
  obtain ⟨h1, h2⟩ := C19_intersects_exact ha hb
  by_cases hc : ∃ i, s i = true ∧ t i = true
  · exact ⟨true, h1 hc, by simpa using hc⟩
  · rcases hspare with h' | h'
    · exact absurd h' hc
    · have := h2 (fun i hi => hc ⟨i, hi⟩)
      rw [if_pos h'] at this
      exact ⟨false, this, by simpa using hc⟩

/-- Two disjoint one-word sets: the call throws. -/
theorem C19_intersects_wrong : ∃ a b, Prog.run (.set .new 0) = .ok a ∧ Prog.run (.set .new 1) = .ok b ∧
    intersects a b = .throw .outOfRange := by
  refine ⟨_, _, rfl, rfl, by decide +kernel⟩

/-! ## C20 -/

/-- `length()`: one more than the greatest member. Missing: sets containing
`INT_MAX`, see `C18_getRange_undefined`. -/
theorem C20_length_partial {b : BS} {s : IdxSet} (h : Members b s) (hmax : s INT_MAX.toNat = false) :
    ∃ n : Nat, length b = .ok (n : Int) ∧ IsLength s n := by
  obtain ⟨n, hn, hn31, hl, hu⟩ := length_members h
  have hm : INT_MAX.toNat = 2147483647 := rfl
  have hlt : n < 2 ^ 31 := by
    rcases hn.2 with h0 | h0
    · omega
    · rcases Nat.lt_or_ge n (2 ^ 31) with h' | h'
      · exact h'
      · rw [show n - 1 = INT_MAX.toNat by omega, hmax] at h0; cases h0
  exact ⟨n, by rw [hl, chk32_nat hlt], hn⟩

theorem C20_isEmpty {b : BS} {s : IdxSet} (h : Members b s) : isEmpty b = true ↔ ∀ i, s i = false := by
  rw [members_iff] at h
  unfold isEmpty
  simp only [decide_eq_true_eq]
  constructor
  · intro h0 i
    rw [← h.2]; exact bt_zero h.1.pre (by omega)
  · intro h0
    rcases h.1.top with h' | h'
    · exact h'
    · exfalso
      apply h'
      apply BitVec.eq_of_getLsbD_eq
      intro j hj
      have e := h.2 (64 * (b.inUse - 1) + j)
      rw [h0] at e
      unfold bt at e
      rw [show (64 * (b.inUse - 1) + j) / 64 = b.inUse - 1 by omega, show (64 * (b.inUse - 1) + j) % 64 = j by omega] at e
      have e' : ((b.words.getD (b.inUse - 1) 0).getLsbD j) = false := e
      rw [e']; simp

/-- `cardinality()` is the number of members; with 2^31 members it overflows. -/
theorem C20_cardinality {b : BS} {s : IdxSet} (h : Members b s) :
    ∃ l, Lists l s ∧ cardinality .wrap b = if (l.length : Int) ≤ INT_MAX then .ok (l.length : Int) else .ub := by
  have hs : bt b.words = s := funext (members_iff.mp h).2
  exact ⟨_, by rw [← hs]; exact below_lists h.1.pre, cardinality_ok h.1⟩

theorem C20_nextSetBit {b : BS} {s : IdxSet} (h : Members b s) (f : Int) (hf : 0 ≤ f) :
    ∃ r, nextSetBit .wrap b f = .ok r ∧ LeastFrom s f.toNat r := by
  have hs : bt b.words = s := funext (members_iff.mp h).2
  unfold nextSetBit
  rw [if_neg (by omega), ← hs]
  exact nextSetBitAt_ok h.1.pre _

/-- `nextClearBit(i)`: the least non-member, unless that is beyond `INT_MAX`,
where the computation overflows. -/
theorem C20_nextClearBit {b : BS} {s : IdxSet} (h : Members b s) (f : Int) (hf : Idx f) :
    ∃ n : Nat, f ≤ n ∧ s n = false ∧ (∀ j : Nat, f ≤ j → j < n → s j = true) ∧
      nextClearBit .wrap b f = if (n : Int) ≤ INT_MAX then .ok (n : Int) else .ub := by
  have hs : bt b.words = s := funext (members_iff.mp h).2
  obtain ⟨a, rfl⟩ := Int.eq_ofNat_of_zero_le hf.1
  unfold nextClearBit
  rw [if_neg (by omega), Int.toNat_natCast]
  rcases nextClearBitAt_ok h.1.pre a with ⟨n, e1, e2, e3, e4⟩ | ⟨e1, e2⟩
  · refine ⟨n, by omega, by rw [← hs]; exact e3, fun j h1 h2 => by rw [← hs]; exact e4 j (by omega) h2, ?_⟩
    rw [e1]
    unfold chk32
    by_cases hc : (n : Int) ≤ INT_MAX
    · rw [if_pos hc, if_pos ⟨by unfold INT_MIN; omega, hc⟩]
    · rw [if_neg hc, if_neg (fun h => hc h.2)]
  · refine ⟨a, Int.le_refl _, by rw [← hs]; exact e2, fun j h1 h2 => by omega, ?_⟩
    rw [e1, if_pos hf.2]

/-- `previousSetBit(i)`: the greatest member up to `i`, or -1. Missing: the
last 64 `int` indices, and (as in `length`) the member `INT_MAX`. -/
theorem C20_previousSetBit_partial {b : BS} {s : IdxSet} (h : Members b s) (f : Int) (hf : 0 ≤ f)
    (hlt : f < 2 ^ 31 - 64) : ∃ r, previousSetBit .wrap b f = .ok r ∧ GreatestUpTo s f.toNat r := by
  have hs : bt b.words = s := funext (members_iff.mp h).2
  obtain ⟨a, rfl⟩ := Int.eq_ofNat_of_zero_le hf
  unfold previousSetBit
  rw [if_neg (by omega), Int.toNat_natCast]
  by_cases hk : b.inUse ≤ a / 64
  · rw [if_pos hk]
    obtain ⟨n, hn, hn31, hl, hu⟩ := length_members h
    have hna : n ≤ a := by
      rcases Nat.lt_or_ge 0 n with h' | h'
      · have := hu h'; omega
      · omega
    rw [hl, chk32_nat (by omega)]
    refine ⟨_, by simp only [Outcome.bind_eq, Outcome.bind_ok]; rfl, ?_⟩
    rcases hn.2 with h0 | h0
    · subst h0
      exact Or.inr ⟨by omega, fun j _ => hn.1 j (by omega)⟩
    · by_cases h00 : n = 0
      · subst h00
        exact Or.inr ⟨by omega, fun j _ => hn.1 j (by omega)⟩
      · exact Or.inl ⟨n - 1, by omega, by omega, h0, fun j h1 _ => hn.1 j (by omega)⟩
  · rw [if_neg hk]
    obtain ⟨r, r1, r2⟩ := previousBitAt_ok h.1.pre false a (by omega) (by omega)
    refine ⟨r, r1, ?_⟩
    have e : (fun i => false ^^ bt b.words i) = s := by rw [hs]; funext i; simp
    rw [e] at r2
    exact r2

/-- `previousClearBit(i)`: the greatest non-member up to `i`, or -1. Missing:
the last 64 `int` indices. -/
theorem C20_previousClearBit_partial {b : BS} {s : IdxSet} (h : Members b s) (f : Int) (hf : 0 ≤ f)
    (hlt : f < 2 ^ 31 - 64) : ∃ r, previousClearBit .wrap b f = .ok r ∧ GreatestUpTo (fun i => !s i) f.toNat r := by
  have hs : bt b.words = s := funext (members_iff.mp h).2
  obtain ⟨a, rfl⟩ := Int.eq_ofNat_of_zero_le hf
  unfold previousClearBit
  rw [if_neg (by omega), Int.toNat_natCast]
  by_cases hk : b.inUse ≤ a / 64
  · rw [if_pos hk]
    refine ⟨_, rfl, Or.inl ⟨a, rfl, Nat.le_refl _, ?_, fun j h1 h2 => by omega⟩⟩
    rw [← hs]; simp [bt_zero h.1.pre hk]
  · rw [if_neg hk]
    obtain ⟨r, r1, r2⟩ := previousBitAt_ok h.1.pre true a (by omega) (by omega)
    refine ⟨r, r1, ?_⟩
    have e : (fun i => true ^^ bt b.words i) = (fun i => !s i) := by rw [hs]; funext i; simp
    rw [e] at r2
    exact r2

/-- Arguments below -1 raise, -1 gives -1; negative arguments of the upward
searches raise. -/
theorem C20_negative (b : BS) (f : Int) (h : f < 0) :
    nextSetBit .wrap b f = .throw .indexOutOfBounds ∧ nextClearBit .wrap b f = .throw .indexOutOfBounds ∧
    previousSetBit .wrap b f = (if f = -1 then .ok (-1) else .throw .indexOutOfBounds) ∧
    previousClearBit .wrap b f = (if f = -1 then .ok (-1) else .throw .indexOutOfBounds) := by
  simp only [nextSetBit, nextClearBit, previousSetBit, previousClearBit, if_pos h]
  simp

/-- The member `2^31 - 64` (or any other in the last word) is never found by
`previousSetBit`: the index computation overflows. -/
theorem C20_previousSetBit_undefined {b : BS} {s : IdxSet} (h : Members b s) (n : Nat) (f : Int) (hn : s n = true)
    (h1 : 2 ^ 31 - 64 ≤ n) (h2 : (n : Int) ≤ f) (h3 : f ≤ INT_MAX) : previousSetBit .wrap b f = .ub := by
  have hs : bt b.words = s := funext (members_iff.mp h).2
  unfold INT_MAX at h3
  obtain ⟨a, rfl⟩ := Int.eq_ofNat_of_zero_le (show 0 ≤ f by omega)
  have hin : b.inUse = 2 ^ 25 := by
    have hc := h.1.cap
    rcases Nat.lt_or_ge (n / 64) b.inUse with h' | h'
    · omega
    · rw [← hs, bt_zero h.1.pre h'] at hn; cases hn
  have hu := h.1.used
  unfold previousSetBit
  rw [if_neg (by omega), Int.toNat_natCast, if_neg (by omega)]
  unfold previousBitAt
  simp only [Outcome.bind_eq, rd_ok (show a / 64 < b.words.length by omega), Outcome.bind_ok]
  by_cases ha : a + 1 < 2 ^ 31
  · rw [show ((a : Int) + 1) = ((a + 1 : Nat) : Int) by push_cast; rfl, chk32_nat ha]
    obtain ⟨lm, l1, l2⟩ := lastMask_bits (a + 1)
    simp only [Outcome.bind_ok, Int.toNat_natCast, l1, Bool.false_eq_true, if_false]
    have hk : a / 64 = (2 ^ 25 - 2) + 1 := by omega
    have hne : wd b.words (a / 64) &&& lm ≠ 0 := by
      rw [and_ne_zero]
      refine ⟨n % 64, Nat.mod_lt _ (by omega), ?_, ?_⟩
      · rw [← hs] at hn
        unfold bt at hn
        rw [show n / 64 = a / 64 by omega] at hn
        exact hn
      · rw [l2 _ (Nat.mod_lt _ (by omega))]
        simp only [decide_eq_true_eq]; omega
    rw [hk] at hne ⊢
    unfold scanDown
    rw [if_pos hne]
    have : chk32 (((2 ^ 25 - 2 : Nat) : Int) + 2 : Int) = chk32 (((2 ^ 25 - 2 : Nat) : Int) + 2) := rfl
    rw [show chk32 ((((2 ^ 25 - 2 : Nat) : Int) + 2) * 64) = .ub by decide]
    rfl
  · rw [show chk32 ((a : Int) + 1) = .ub by unfold chk32; rw [if_neg (by unfold INT_MAX; omega)]]
    rfl

/-! ## C21 -/

theorem C21_equals {a b : BS} {s t : IdxSet} (ha : Members a s) (hb : Members b t) :
    ∃ r, equals a b = .ok r ∧ (r = true ↔ s = t) := by
  rw [members_iff] at ha hb
  obtain ⟨r, r1, r2⟩ := equals_ok ha.1 hb.1
  refine ⟨r, r1, r2.trans ⟨fun h => funext fun i => ?_, fun h i => ?_⟩⟩
  · rw [← ha.2, ← hb.2, h]
  · rw [ha.2, hb.2, h]

theorem C21_valueOf_longs (l : List Word) (hl : l.length ≤ 2 ^ 25) : Members (valueOfLongs l) (bitOf l) :=
  valueOfLongs_ok l hl

theorem C21_valueOf_bytes (l : List Byte) (hl : l.length ≤ 2 ^ 28) :
    ∃ b, valueOfBytes l = .ok b ∧ Members b (bitOf l) := valueOfBytes_ok l hl

theorem C21_toLongArray {b : BS} {s : IdxSet} (h : Members b s) : bitOf (toLongArray b) = s := by
  rw [members_iff] at h
  funext i; rw [(toLongArray_ok h.1).2, h.2]

/-- The byte array has the members as its bits and no trailing zero byte. -/
theorem C21_toByteArray {b : BS} {s : IdxSet} (h : Members b s) :
    ∃ l, toByteArray b = .ok l ∧ bitOf l = s ∧ (l = [] ∨ l.getD (l.length - 1) 0 ≠ 0) := by
  rw [members_iff] at h
  obtain ⟨l, l1, l2, l3, _⟩ := toByteArray_ok h.1
  exact ⟨l, l1, funext fun i => by rw [l2, h.2], l3⟩

/-- Round trip through both array forms. -/
theorem C21_roundtrip {b : BS} {s : IdxSet} (h : Members b s) :
    Members (valueOfLongs (toLongArray b)) s ∧
    ∃ l r, toByteArray b = .ok l ∧ valueOfBytes l = .ok r ∧ Members r s := by
  constructor
  · have := C21_valueOf_longs (toLongArray b) (by rw [(toLongArray_ok h.1).1]; exact h.1.cap)
    rwa [C21_toLongArray h] at this
  · have hw := members_iff.mp h
    obtain ⟨l, l1, l2, _, l4⟩ := toByteArray_ok hw.1
    have hc := h.1.cap
    obtain ⟨r, r1, r2⟩ := C21_valueOf_bytes l (by omega)
    refine ⟨l, r, l1, r1, ?_⟩
    have : bitOf l = s := funext fun i => by rw [l2, hw.2]
    rwa [this] at r2

/-- `clone()` and copies hold the same members; the receiver keeps its own. -/
theorem C21_clone {b : BS} {s : IdxSet} (h : Members b s) :
    Members (clone b).1 s ∧ Members (clone b).2 s ∧ Members (copy b) s := by
  have hw := members_iff.mp h
  obtain ⟨h1, h2, h3⟩ := clone_ok hw.1
  have : Members (clone b).2 s := members_iff.mpr ⟨h2, fun i => by rw [h3, hw.2]⟩
  exact ⟨h1 ▸ this, this, by rw [copy_eq]; exact h⟩

/-! ## All operations together -/

/-- Every history of API calls, nested in any way, yields an object whose
`get` is membership in the set denoted by the history. -/
theorem C17_all_histories (p : Prog) (hv : p.Valid) : ∃ b, p.run = .ok b ∧ Members b p.den := by
  induction p with
  | new => exact ⟨_, rfl, C17_new⟩
  | newSize n =>
    obtain ⟨b, b1, b2, _⟩ := (C17_newSize n hv.2).2 hv.1
    exact ⟨b, b1, b2⟩
  | ofLongs l => exact ⟨_, rfl, C21_valueOf_longs l hv⟩
  | ofBytes l => exact C21_valueOf_bytes l hv
  | set p i ih =>
    obtain ⟨b, b1, b2⟩ := ih hv.1
    obtain ⟨r, r1, r2⟩ := setBit_members b2 hv.2
    refine ⟨r, by simp only [Prog.run, b1, Outcome.bind_ok, r1], ?_⟩
    refine members_congr r2 fun j => ?_
    by_cases h : (j : Int) = i <;> simp [Prog.den, h]
  | setTo p i v ih =>
    obtain ⟨b, b1, b2⟩ := ih hv.1
    have : ∃ r, setBitTo .wrap b i v = .ok r ∧ Members r (fun j => if (j : Int) = i then v else p.den j) := by
      cases v with
      | true => exact setBit_members b2 hv.2
      | false => exact clearBit_members b2 hv.2.1
    obtain ⟨r, r1, r2⟩ := this
    exact ⟨r, by simp only [Prog.run, b1, Outcome.bind_ok, r1], r2⟩
  | clear p i ih =>
    obtain ⟨b, b1, b2⟩ := ih hv.1
    obtain ⟨r, r1, r2⟩ := clearBit_members b2 hv.2.1
    refine ⟨r, by simp only [Prog.run, b1, Outcome.bind_ok, r1], ?_⟩
    refine members_congr r2 fun j => ?_
    by_cases h : (j : Int) = i <;> simp [Prog.den, h]
  | flip p i ih =>
    obtain ⟨b, b1, b2⟩ := ih hv.1
    obtain ⟨r, r1, r2⟩ := flipBit_members b2 hv.2
    refine ⟨r, by simp only [Prog.run, b1, Outcome.bind_ok, r1], ?_⟩
    refine members_congr r2 fun j => ?_
    by_cases h : (j : Int) = i
    · simp [Prog.den, h]
    · have hb : ((j : Int) == i) = false := by simpa using h
      simp [Prog.den, h, hb]
  | clearAll p ih =>
    obtain ⟨b, b1, b2⟩ := ih hv
    obtain ⟨r, r1, r2, r3⟩ := clearAll_ok (members_iff.mp b2).1
    exact ⟨r, by simp only [Prog.run, b1, Outcome.bind_ok, r1], members_iff.mpr ⟨r2, r3⟩⟩
  | setRange p f t ih =>
    obtain ⟨b, b1, b2⟩ := ih hv.1
    obtain ⟨r, r1, r2⟩ := C18_setRange b2 hv.2
    refine ⟨r, by simp only [Prog.run, b1, Outcome.bind_ok, r1], ?_⟩
    refine members_congr r2 fun j => ?_
    by_cases h : f ≤ j ∧ (j : Int) < t <;> simp [Prog.den, h]
  | setRangeTo p f t v ih =>
    obtain ⟨b, b1, b2⟩ := ih hv.1
    obtain ⟨r, r1, r2⟩ := C18_setRangeTo b2 hv.2 v
    exact ⟨r, by simp only [Prog.run, b1, Outcome.bind_ok, r1], r2⟩
  | clearRange p f t ih =>
    obtain ⟨b, b1, b2⟩ := ih hv.1
    obtain ⟨r, r1, r2⟩ := C18_clearRange b2 hv.2
    refine ⟨r, by simp only [Prog.run, b1, Outcome.bind_ok, r1], ?_⟩
    refine members_congr r2 fun j => ?_
    by_cases h : f ≤ j ∧ (j : Int) < t <;> simp [Prog.den, h]
  | flipRange p f t ih =>
    obtain ⟨b, b1, b2⟩ := ih hv.1
    obtain ⟨r, r1, r2⟩ := C18_flipRange_partial b2 hv.2.1 hv.2.2
    refine ⟨r, by simp only [Prog.run, b1, Outcome.bind_ok, r1], ?_⟩
    refine members_congr r2 fun j => ?_
    by_cases h : f ≤ j ∧ (j : Int) < t <;> simp [Prog.den, h]
  | getRange p f t ih =>
    obtain ⟨b, b1, b2⟩ := ih hv.1
    obtain ⟨r, r1, r2⟩ := C18_getRange_partial b2 hv.2.1 hv.2.2
    exact ⟨r, by simp only [Prog.run, b1, Outcome.bind_ok, r1], r2⟩
  | and p q ihp ihq =>
    obtain ⟨a, a1, a2⟩ := ihp hv.1
    obtain ⟨b, b1, b2⟩ := ihq hv.2
    obtain ⟨r, r1, r2⟩ := C19_and a2 b2
    exact ⟨r, by simp only [Prog.run, a1, b1, Outcome.bind_ok, r1], r2⟩
  | or p q ihp ihq =>
    obtain ⟨a, a1, a2⟩ := ihp hv.1
    obtain ⟨b, b1, b2⟩ := ihq hv.2
    obtain ⟨r, r1, r2⟩ := C19_or a2 b2
    exact ⟨r, by simp only [Prog.run, a1, b1, Outcome.bind_ok, r1], r2⟩
  | xor p q ihp ihq =>
    obtain ⟨a, a1, a2⟩ := ihp hv.1
    obtain ⟨b, b1, b2⟩ := ihq hv.2
    obtain ⟨r, r1, r2⟩ := C19_xor a2 b2
    exact ⟨r, by simp only [Prog.run, a1, b1, Outcome.bind_ok, r1], r2⟩
  | andNot p q ihp ihq =>
    obtain ⟨a, a1, a2⟩ := ihp hv.1
    obtain ⟨b, b1, b2⟩ := ihq hv.2
    obtain ⟨r, r1, r2⟩ := C19_andNot a2 b2
    exact ⟨r, by simp only [Prog.run, a1, b1, Outcome.bind_ok, r1], r2⟩
  | clone p ih =>
    obtain ⟨b, b1, b2⟩ := ih hv
    exact ⟨_, by simp only [Prog.run, b1, Outcome.bind_ok], (C21_clone b2).2.1⟩
  | copy p ih =>
    obtain ⟨b, b1, b2⟩ := ih hv
    exact ⟨_, by simp only [Prog.run, b1, Outcome.bind_ok], (C21_clone b2).2.2⟩

theorem sample_valid : sample.Valid := by
  simp [sample, Prog.Valid, Idx, INT_MAX]

/-- The hypotheses `Members` of this file are met by a set with members in two
words. -/
example : ∃ b, Members b sample.den ∧ sample.den 70 = true ∧ sample.den 3 = true ∧ sample.den 64 = true ∧
    sample.den 5 = false ∧ sample.den INT_MAX.toNat = false := by
  obtain ⟨b, _, h⟩ := C17_all_histories sample sample_valid
  exact ⟨b, h, by decide, by decide, by decide, by decide, by decide⟩

/-- A history with ranges, logical operations and conversions that meets
`Valid`. -/
example : (Prog.xor (.getRange (.setRange sample 10 200) 5 100) (.or (.ofBytes [1, 2]) (.flipRange sample 60 130))).Valid := by
  simp [sample, Prog.Valid, Idx, Rng, INT_MAX, Prog.den]

/-- A set that contains `INT_MAX` exists, so `C18_getRange_undefined` and
`C20_previousSetBit_undefined` speak of reachable objects. -/
example : ∃ b s, Members b s ∧ s INT_MAX.toNat = true := by
  obtain ⟨b, _, h⟩ := C17_all_histories (.set .new INT_MAX) ⟨trivial, by decide, by decide⟩
  exact ⟨b, _, h, by decide⟩

/-! ## C62: equal sets have equal hash codes -/

theorem C62_hashCode {a b : BS} {s : IdxSet} (ha : Members a s) (hb : Members b s) :
    ∃ c, hashCode .wrap a = .ok c ∧ hashCode .wrap b = .ok c := by
  rw [members_iff] at ha hb
  exact hashCode_congr ha.1 hb.1 (fun i => by rw [ha.2, hb.2])

/-- ISO C++: the product may overflow. -/
theorem C62_strict_undefined : ∃ b, Prog.run (.set .new 127) = .ok b ∧ hashCode .strict b = .ub := by
  refine ⟨_, rfl, by decide +kernel⟩

/-! ## C63: text -/

/-- `toString()` lists the members in increasing order. Missing: sets with the
member `INT_MAX` or with more than 357913940 members. -/
theorem C63_toString_partial {b : BS} {s : IdxSet} (h : Members b s) (hmax : s INT_MAX.toNat = false)
    (hcard : ∀ l, Lists l s → 6 * (l.length : Int) + 2 ≤ INT_MAX) :
    ∃ l, Lists l s ∧ toText .wrap b = .ok (render l) := by
  have hs : bt b.words = s := funext (members_iff.mp h).2
  have hL : Lists (below b.words (64 * b.inUse)) s := by rw [← hs]; exact below_lists h.1.pre
  exact ⟨_, hL, toText_ok h.1 (by rw [hs]; exact hmax) (hcard _ hL)⟩

example : ∃ b, sample.run = .ok b ∧ toText .wrap b = .ok (txt "{3, 64, 70}") := by
  refine ⟨_, rfl, by decide +kernel⟩

/-- With the member `INT_MAX`, `toString()` adds 1 to `INT_MAX`. -/
theorem C63_max_wrong {b : BS} {s : IdxSet} (h : Members b s) (hmax : s INT_MAX.toNat = true) : toText .wrap b = .ub :=
  toText_max h.1 (by rw [(members_iff.mp h).2]; exact hmax)

example : ∃ b, (Prog.set sample INT_MAX).run = .ok b ∧ toText .wrap b = .ub := by
  obtain ⟨b, h1, h2⟩ := C17_all_histories (.set sample INT_MAX)
    ⟨by simp [sample, Prog.Valid, Idx, INT_MAX], by decide, by decide⟩
  exact ⟨b, h1, C63_max_wrong h2 (by decide)⟩

/-- With 357913941 members or more, the size asked for overflows. -/
theorem C63_many_wrong {b : BS} {s : IdxSet} (h : Members b s) {l : List Nat} (hl : Lists l s)
    (hcard : 357913941 ≤ l.length) : toText .wrap b = .ub := by
  have hs : bt b.words = s := funext (members_iff.mp h).2
  have hL : Lists (below b.words (64 * b.inUse)) s := by rw [← hs]; exact below_lists h.1.pre
  refine toText_many h.1 ?_
  rw [lists_unique hL hl]
  unfold INT_MAX
  omega

/-- The set of the first 357913941 indices is one. -/
example : ∃ b, (Prog.setRange .new 0 357913941).run = .ok b ∧ toText .wrap b = .ub := by
  obtain ⟨b, h1, h2⟩ := C17_all_histories (.setRange .new 0 357913941) ⟨trivial, by decide, by decide, by decide⟩
  refine ⟨b, h1, C63_many_wrong h2 (l := List.range 357913941) ⟨List.pairwise_lt_range, fun i => ?_⟩ ?_⟩
  · rw [List.mem_range]
    simp only [Prog.den, Bool.or_false, decide_eq_true_eq]
    omega
  · rw [List.length_range]; omega

/-! ## C64: life time of the cached text -/

/-- The life of an object ends in a double free exactly when it was assigned
to some time after a call of `toString()`. -/
theorem C64_double_free (us : List Use) :
    life us = .ub ↔ [Use.toString, Use.assign].Sublist us := by
  induction us with
  | nil => constructor
           · intro h; cases h
           · intro h; cases h
  | cons u us ih =>
    cases u with
    | assign =>
      have : life (.assign :: us) = life us := rfl
      rw [this, ih]
      constructor
      · exact fun h => h.cons _
      · intro h
        cases h with
        | cons _ h => exact h
    | toString =>
      have : life (.toString :: us) = (us.foldlM useStep Backup.owned >>= cleanUp) := rfl
      rw [this, life_owned]
      constructor
      · intro h
        by_cases hm : Use.assign ∈ us
        · exact List.Sublist.cons_cons _ (List.singleton_sublist.mpr hm)
        · rw [if_neg hm] at h; cases h
      · intro h
        have hm : Use.assign ∈ us := by
          cases h with
          | cons _ h => exact h.subset (by simp)
          | cons_cons _ h => exact h.subset (by simp)
        rw [if_pos hm]

/-- Objects never assigned after `toString()` are released exactly once.
Missing from C64: every other history, which frees a buffer twice. -/
theorem C64_release_partial (us : List Use) (h : ¬ [Use.toString, Use.assign].Sublist us) : ∃ p, life us = .ok p := by
  have hne : life us ≠ .ub := fun h' => h ((C64_double_free us).mp h')
  have key : ∀ (us : List Use) (p : Backup), (∃ q, (us.foldlM useStep p >>= cleanUp) = .ok q) ∨
      (us.foldlM useStep p >>= cleanUp) = (Outcome.ub : Outcome Backup) := by
    intro us
    induction us with
    | nil => intro p; cases p
             · exact Or.inl ⟨_, rfl⟩
             · exact Or.inl ⟨_, rfl⟩
             · exact Or.inr rfl
    | cons u us ih =>
      intro p
      cases u <;> cases p
      · exact ih .owned
      · exact ih .owned
      · exact Or.inr rfl
      · exact ih .null
      · exact ih .dangling
      · exact Or.inr rfl
  rcases key us .null with h' | h'
  · exact h'
  · exact absurd h' hne

example : ¬ [Use.toString, Use.assign].Sublist [Use.assign, Use.toString, Use.toString] := by decide
example : life [Use.toString, Use.assign] = .ub := rfl

end Verif.BitSet
