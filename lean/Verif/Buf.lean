import Verif.Common
/-!
# A block of memory from `malloc`

A block is the list of its bytes; `none` is a byte that was never written, whose
value is indeterminate.  An access outside the block and reading an
indeterminate byte are undefined.  `memmove` may copy indeterminate bytes.

Simplification: `memmove` and `memcpy` of 0 bytes are allowed with any pointers.
-/
namespace Verif

abbrev Block := List (Option Byte)

namespace Block

/-- `p[i]` as a value. -/
def rd (m : Block) (i : Int) : Outcome Byte :=
  if i < 0 then .ub
  else match m[i.toNat]? with
    | some (some b) => .ok b
    | _ => .ub

/-- `p[i] = b`. -/
def wr (m : Block) (i : Int) (b : Byte) : Outcome Block :=
  if i < 0 then .ub else if i.toNat < m.length then .ok (m.set i.toNat (some b)) else .ub

/-- `memmove(p + dst, p + src, (size_t) n)`. -/
def move (m : Block) (dst src n : Int) : Outcome Block :=
  if n = 0 then .ok m
  else if 0 ≤ dst ∧ 0 ≤ src ∧ 0 ≤ n ∧ dst + n ≤ m.length ∧ src + n ≤ m.length then
    .ok (m.take dst.toNat ++ (m.drop src.toNat).take n.toNat ++ m.drop (dst + n).toNat)
  else .ub

/-- `memcpy(p + dst, l, (size_t) n)` from another block holding `l` and a NUL. -/
def copyIn (m : Block) (dst : Int) (l : List Byte) (n : Int) : Outcome Block :=
  if n = 0 then .ok m
  else if 0 ≤ dst ∧ 0 ≤ n ∧ dst + n ≤ m.length ∧ n ≤ l.length + 1 then
    .ok (m.take dst.toNat ++ ((l ++ [0#8]).take n.toNat).map some ++ m.drop (dst + n).toNat)
  else .ub

/-- `realloc(p, n)`, `malloc(n)` for an empty `m`. -/
def realloc (m : Block) (n : Nat) : Block := m.take n ++ List.replicate (n - m.length) none

/-- `calloc(n, 1)`. -/
def calloc (n : Nat) : Block := List.replicate n (some 0#8)

/-- `for (…) p[i++] = c` over the characters `l`. -/
def store (m : Block) (i : Int) : List Byte → Outcome Block
  | [] => .ok m
  | c :: l => (wr m i c).bind fun m => store m (i + 1) l

/-- `for (…) result[k++] = p[i++]`, `n` turns. -/
def load (m : Block) (i : Int) : Nat → Outcome (List Byte)
  | 0 => .ok []
  | n + 1 => (rd m i).bind fun c => (load m (i + 1) n).bind fun l => .ok (c :: l)

/-- The characters of a C string starting at `p`, as `strlen` finds them. -/
def cstring : Block → Outcome (List Byte)
  | [] => .ub
  | none :: _ => .ub
  | some c :: m => if c = 0 then .ok [] else (cstring m).bind fun l => .ok (c :: l)

theorem rd_of (t : List Byte) (rest : Block) (i : Int) (h : 0 ≤ i ∧ i < t.length) :
    rd (t.map some ++ rest) i = .ok (t[i.toNat]'(by omega)) := by
  have hi : i.toNat < t.length := by omega
  unfold rd
  rw [if_neg (by omega), List.getElem?_append_left (by simpa using hi), List.getElem?_map, List.getElem?_eq_getElem hi]
  rfl

theorem wr_of (m : Block) (i : Int) (b : Byte) (h : 0 ≤ i ∧ i < m.length) : wr m i b = .ok (m.set i.toNat (some b)) := by
  unfold wr
  rw [if_neg (by omega), if_pos (by omega)]

theorem length_realloc (m : Block) (n : Nat) : (realloc m n).length = n := by
  unfold realloc; simp; omega

theorem realloc_of (t : List Byte) (rest : Block) (n : Nat) (h : t.length ≤ n) :
    ∃ rest', realloc (t.map some ++ rest) n = t.map some ++ rest' := by
  refine ⟨rest.take (n - t.length) ++ List.replicate (n - (t.map some ++ rest).length) none, ?_⟩
  unfold realloc
  rw [List.take_append, List.take_of_length_le (by simpa using h), List.append_assoc, List.length_map]

theorem move_of (m : Block) (dst src n : Nat) (h1 : dst + n ≤ m.length) (h2 : src + n ≤ m.length) :
    move m dst src n = .ok (m.take dst ++ (m.drop src).take n ++ m.drop (dst + n)) := by
  unfold move
  by_cases hn : n = 0
  · subst hn; simp
  · rw [if_neg (by omega), if_pos (by omega), show ((dst : Int) + n).toNat = dst + n by omega]
    rfl

theorem store_of (m : Block) (i : Nat) (l : List Byte) (h : i + l.length ≤ m.length) :
    store m i l = .ok (m.take i ++ l.map some ++ m.drop (i + l.length)) := by
  induction l generalizing m i with
  | nil => simp [store]
  | cons c l ih =>
    simp only [List.length_cons] at h
    unfold store
    rw [wr_of _ _ _ (by omega), Outcome.bind_ok]
    have := ih (m.set i (some c)) (i + 1) (by simp; omega)
    rw [show (((i : Nat) : Int).toNat) = i by omega, show ((i : Int) + 1) = ((i + 1 : Nat) : Int) by omega, this]
    congr 1
    have hi : i < m.length := by omega
    rw [List.set_eq_take_append_cons_drop, if_pos hi]
    have h1 : (m.take i).length = i := by simp; omega
    simp only [List.map_cons, List.length_cons]
    rw [List.take_append, List.drop_append, h1]
    rw [List.take_of_length_le (by omega), List.drop_eq_nil_of_le (by omega : (m.take i).length ≤ i + 1 + l.length)]
    rw [show i + 1 - i = 1 by omega, show i + 1 + l.length - i = l.length + 1 by omega]
    simp [List.drop_drop]
    congr 1; omega

theorem load_of (t : List Byte) (rest : Block) (i n : Nat) (h : i + n ≤ t.length) :
    load (t.map some ++ rest) i n = .ok ((t.drop i).take n) := by
  induction n generalizing i with
  | zero => simp [load]
  | succ n ih =>
    unfold load
    rw [rd_of _ _ _ (by omega), Outcome.bind_ok, show ((i : Int) + 1) = ((i + 1 : Nat) : Int) by omega,
      ih (i + 1) (by omega), Outcome.bind_ok]
    congr 1
    rw [List.drop_eq_getElem_cons (by omega : i < t.length), List.take_succ_cons]
    rfl

end Block
end Verif
