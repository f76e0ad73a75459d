import Verif.BitSet.Model
/-! # Sets of indices -/
namespace Verif.BitSet

/-- A set of indices, as its membership test. -/
abbrev IdxSet := Nat → Bool

/-- Representation invariant of a `BitSet` whose members are all `int`s: the
used words exist, the unused ones are zero, the last used one is not, and the
array is short enough for every bit number to be an `int`. -/
structure WF (b : BS) : Prop where
  used : b.inUse ≤ b.words.length
  cap : b.inUse ≤ 2 ^ 25
  len : b.words.length ≤ 2 ^ 26
  zero : ∀ k, b.inUse ≤ k → b.words.getD k 0 = 0
  top : b.inUse = 0 ∨ b.words.getD (b.inUse - 1) 0 ≠ 0

/-- The object `b` is intact and `get(i)` answers membership in `s`. -/
def Members (b : BS) (s : IdxSet) : Prop := WF b ∧ ∀ i : Nat, getBit .wrap b i = .ok (s i)

/-- `n` is one more than the greatest member (0 for the empty set). -/
def IsLength (s : IdxSet) (n : Nat) : Prop := (∀ i, n ≤ i → s i = false) ∧ (n = 0 ∨ s (n - 1) = true)

/-- `l` lists the members, each once, in increasing order. -/
def Lists (l : List Nat) (s : IdxSet) : Prop := l.Pairwise (· < ·) ∧ ∀ i, i ∈ l ↔ s i = true

/-- `r` is the least `i ≥ f` with `p i`, or `-1` when there is none. -/
def LeastFrom (p : Nat → Bool) (f : Nat) (r : Int) : Prop :=
  (∃ n : Nat, r = n ∧ f ≤ n ∧ p n = true ∧ ∀ j, f ≤ j → j < n → p j = false) ∨
  (r = -1 ∧ ∀ j, f ≤ j → p j = false)

/-- `r` is the greatest `i ≤ f` with `p i`, or `-1` when there is none. -/
def GreatestUpTo (p : Nat → Bool) (f : Nat) (r : Int) : Prop :=
  (∃ n : Nat, r = n ∧ n ≤ f ∧ p n = true ∧ ∀ j, n < j → j ≤ f → p j = false) ∨
  (r = -1 ∧ ∀ j, j ≤ f → p j = false)

/-- `{a, b, c}`. -/
def renderTail : List Nat → List Byte
  | [] => []
  | i :: l => txt ", " ++ NumText.digits 10 64 i ++ renderTail l
def render : List Nat → List Byte
  | [] => txt "{" ++ txt "}"
  | i :: l => txt "{" ++ (NumText.digits 10 64 i ++ renderTail l) ++ txt "}"

/-- Set number `k` of the array of words or bytes read as one long bit string. -/
def bitOf {n : Nat} (l : List (BitVec n)) (i : Nat) : Bool := (l.getD (i / n) 0).getLsbD (i % n)

/-! ## Histories

A `Prog` is a tree of API calls that builds one object. -/

inductive Prog
  | new
  | newSize (n : Int)
  | ofLongs (l : List Word)
  | ofBytes (l : List Byte)
  | set (p : Prog) (i : Int)
  | setTo (p : Prog) (i : Int) (v : Bool)
  | clear (p : Prog) (i : Int)
  | flip (p : Prog) (i : Int)
  | clearAll (p : Prog)
  | setRange (p : Prog) (f t : Int)
  | setRangeTo (p : Prog) (f t : Int) (v : Bool)
  | clearRange (p : Prog) (f t : Int)
  | flipRange (p : Prog) (f t : Int)
  | getRange (p : Prog) (f t : Int)
  | and (p q : Prog)
  | or (p q : Prog)
  | xor (p q : Prog)
  | andNot (p q : Prog)
  | clone (p : Prog)
  | copy (p : Prog)

/-- The set the history denotes: plain set operations. -/
def Prog.den : Prog → IdxSet
  | .new => fun _ => false
  | .newSize _ => fun _ => false
  | .ofLongs l => bitOf l
  | .ofBytes l => bitOf l
  | .set p i => fun j => (j : Int) == i || p.den j
  | .setTo p i v => fun j => if (j : Int) = i then v else p.den j
  | .clear p i => fun j => !((j : Int) == i) && p.den j
  | .flip p i => fun j => ((j : Int) == i) ^^ p.den j
  | .clearAll _ => fun _ => false
  | .setRange p f t => fun j => decide (f ≤ j ∧ (j : Int) < t) || p.den j
  | .setRangeTo p f t v => fun j => if f ≤ j ∧ (j : Int) < t then v else p.den j
  | .clearRange p f t => fun j => !decide (f ≤ j ∧ (j : Int) < t) && p.den j
  | .flipRange p f t => fun j => decide (f ≤ j ∧ (j : Int) < t) ^^ p.den j
  | .getRange p f t => fun j => decide (f + j < t) && p.den (f.toNat + j)
  | .and p q => fun j => p.den j && q.den j
  | .or p q => fun j => p.den j || q.den j
  | .xor p q => fun j => p.den j ^^ q.den j
  | .andNot p q => fun j => p.den j && !q.den j
  | .clone p => p.den
  | .copy p => p.den

/-- What the code does. -/
def Prog.run : Prog → Outcome BS
  | .new => .ok mk0
  | .newSize n => mkSize n
  | .ofLongs l => .ok (valueOfLongs l)
  | .ofBytes l => valueOfBytes l
  | .set p i => p.run.bind fun b => setBit .wrap b i
  | .setTo p i v => p.run.bind fun b => setBitTo .wrap b i v
  | .clear p i => p.run.bind fun b => clearBit .wrap b i
  | .flip p i => p.run.bind fun b => flipBit .wrap b i
  | .clearAll p => p.run.bind fun b => BitSet.clearAll b
  | .setRange p f t => p.run.bind fun b => BitSet.setRange .wrap b f t
  | .setRangeTo p f t v => p.run.bind fun b => BitSet.setRangeTo .wrap b f t v
  | .clearRange p f t => p.run.bind fun b => BitSet.clearRange .wrap b f t
  | .flipRange p f t => p.run.bind fun b => BitSet.flipRange .wrap b f t
  | .getRange p f t => p.run.bind fun b => BitSet.getRange .wrap b f t
  | .and p q => p.run.bind fun a => q.run.bind fun b => bitAnd a b
  | .or p q => p.run.bind fun a => q.run.bind fun b => bitOr a b
  | .xor p q => p.run.bind fun a => q.run.bind fun b => bitXor a b
  | .andNot p q => p.run.bind fun a => q.run.bind fun b => BitSet.andNot a b
  | .clone p => p.run.bind fun b => .ok (BitSet.clone b).2
  | .copy p => p.run.bind fun b => .ok (BitSet.copy b)

/-- An index argument. -/
def Idx (i : Int) : Prop := 0 ≤ i ∧ i ≤ INT_MAX
/-- A pair of range arguments. -/
def Rng (f t : Int) : Prop := 0 ≤ f ∧ f ≤ t ∧ t ≤ INT_MAX

/-- The arguments are legal `int`s; arrays are short enough for their bits to
have `int` numbers. Two restrictions exclude known defects: `flip(from, to)`
with `to` a multiple of 64, and `get(from, to)` on a set holding the bit
`INT_MAX`. -/
def Prog.Valid : Prog → Prop
  | .new => True
  | .newSize n => Idx n
  | .ofLongs l => l.length ≤ 2 ^ 25
  | .ofBytes l => l.length ≤ 2 ^ 28
  | .set p i => p.Valid ∧ Idx i
  | .setTo p i _ => p.Valid ∧ Idx i
  | .clear p i => p.Valid ∧ Idx i
  | .flip p i => p.Valid ∧ Idx i
  | .clearAll p => p.Valid
  | .setRange p f t => p.Valid ∧ Rng f t
  | .setRangeTo p f t _ => p.Valid ∧ Rng f t
  | .clearRange p f t => p.Valid ∧ Rng f t
  | .flipRange p f t => p.Valid ∧ Rng f t ∧ (f = t ∨ t % 64 ≠ 0)
  | .getRange p f t => p.Valid ∧ Rng f t ∧ p.den INT_MAX.toNat = false
  | .and p q => p.Valid ∧ q.Valid
  | .or p q => p.Valid ∧ q.Valid
  | .xor p q => p.Valid ∧ q.Valid
  | .andNot p q => p.Valid ∧ q.Valid
  | .clone p => p.Valid
  | .copy p => p.Valid

end Verif.BitSet
