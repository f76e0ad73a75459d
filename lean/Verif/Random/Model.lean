import Verif.Obj
import Verif.CInt
import Verif.Bits.Model
/-!
# `java.util.Random`

`/repo/library/Java/Util/Random/Random.cpp`, `Random.hpp`.  `long` is `BitVec 64`,
`int` is `BitVec 32`.  One thread here; `Verif/Random/Conc.lean` has the
compare-and-swap loops under concurrency.

`nextDouble` and `nextFloat` return an integer below 2^53 (2^24) times 2^-53
(2^-24); both factors and the product are exact in binary floating point, so the
model returns the integer.  The floating-point part of `nextGaussian` is a
parameter `fp`, see there.

C++11 does not say which operand of `+` is evaluated first in `nextLong` and
`nextDouble`; `Order` is the compiler's choice.
-/
namespace Verif.Random

/-- Random.hpp:42. -/
def MULTIPLIER : BitVec 64 := 0x5DEECE66D#64
/-- Random.hpp:43. -/
def ADDEND : BitVec 64 := 0xB#64
/-- Random.hpp:44: `(1L << 48) - 1`. -/
def MASK : BitVec 64 := 0xFFFFFFFFFFFF#64

/-- Which operand of `+` is evaluated first. -/
inductive Order
  | left
  | right
  deriving DecidableEq, Repr

/-- Random.hpp:40, 46-47; `δ` is `double`. -/
structure Rnd (δ : Type) where
  seed : BitVec 64
  have_ : Bool
  gauss : δ
  deriving DecidableEq, Repr

variable {δ : Type}

/-- Random.cpp:77-80 `initialScramble`. -/
def initialScramble (seed : BitVec 64) : BitVec 64 := (seed ^^^ MULTIPLIER) &&& MASK

/-- Random.cpp:67-69 `Random(long)`. `g` is the uninitialised `nextGaussianNumber`. -/
def ofSeed (seed : BitVec 64) (g : δ) : Rnd δ := ⟨initialScramble seed, false, g⟩

/-- Random.cpp:116-118: the copy constructor; the other fields are initialised
anew (Random.hpp:46). -/
def copy (other : Rnd δ) (g : δ) : Rnd δ := ⟨other.seed, false, g⟩

/-- Random.cpp:131. -/
def advance (m : Sem) (seed : BitVec 64) : Outcome (BitVec 64) :=
  (CInt.mul m seed MULTIPLIER).bind fun x => (CInt.add m x ADDEND).bind fun y => .ok (y &&& MASK)

/-- Random.cpp:126-134 `next`. With one thread the exchange fails only spuriously
and the loop then repeats with the same seed. -/
def next (m : Sem) (bits : Nat) : OM (Rnd δ) (BitVec 32) := do
  let s ← OM.read
  let n ← OM.lift (advance m s.seed)
  OM.write { s with seed := n }
  OM.ret ((n.sshiftRight (48 - bits)).setWidth 32)

/-- Random.cpp:142-144 `nextBoolean`. -/
def nextBoolean (m : Sem) : OM (Rnd δ) Bool := do
  let b ← next m 1
  OM.ret (decide (b ≠ 0#32))

/-- Random.cpp:152-154 `nextInt()`. -/
def nextInt (m : Sem) : OM (Rnd δ) (BitVec 32) := next m 32

/-- Random.cpp:177: `bits - value + (bound - 1)`. -/
def overshoot (m : Sem) (bits value bound : BitVec 32) : Outcome (BitVec 32) :=
  (CInt.sub m bits value).bind fun x => (CInt.sub m bound 1#32).bind fun y => CInt.add m x y

/-- Random.cpp:173-178: the loop of `nextInt(bound)`. -/
def rejectLoop (m : Sem) (bound : BitVec 32) : Nat → OM (Rnd δ) (BitVec 32)
  | 0 => OM.lift .diverge
  | n + 1 => do
    let bits ← next m 31
    let value ← OM.lift (CInt.rem bits bound)
    let x ← OM.lift (overshoot m bits value bound)
    if x.slt 0#32 then rejectLoop m bound n else OM.ret value

/-- Turns given to the loop of `nextInt(bound)`: the number of states. -/
def maxTurns : Nat := 2 ^ 48

/-- Random.cpp:170: the power-of-two case. -/
def scaled (m : Sem) (bound : BitVec 32) : OM (Rnd δ) (BitVec 32) := do
  let b ← next m 31
  let p ← OM.lift (CInt.mul m (bound.signExtend 64) (b.signExtend 64))
  OM.ret ((p.sshiftRight 31).setWidth 32)

/-- Random.cpp:164-179 `nextInt(int)`. -/
def nextIntBound (m : Sem) (bound : BitVec 32) : OM (Rnd δ) (BitVec 32) :=
  if bound.sle 0#32 then OM.raise .interrupted
  else if bound &&& (bound - 1#32) = 0#32 then scaled m bound
  else rejectLoop m bound maxTurns

/-- Random.cpp:187-196 `nextBytes`: the loop, `n` turns. `push` appends. -/
def nextBytesLoop (m : Sem) : Nat → List Byte → OM (Rnd δ) (List Byte)
  | 0, bytes => OM.ret bytes
  | n + 1, bytes => do
    let r ← nextInt m
    nextBytesLoop m n (bytes ++ [(r.sshiftRight 8).setWidth 8])

/-- Random.cpp:187-196 `nextBytes`: the array after the call. -/
def nextBytes (m : Sem) (bytes : List Byte) : OM (Rnd δ) (List Byte) := nextBytesLoop m bytes.length bytes

/-- Two calls of `next` as the operands of one `+`. -/
def pair (m : Sem) (o : Order) (a b : Nat) : OM (Rnd δ) (BitVec 32 × BitVec 32) :=
  match o with
  | .left => do
    let x ← next m a
    let y ← next m b
    OM.ret (x, y)
  | .right => do
    let y ← next m b
    let x ← next m a
    OM.ret (x, y)

/-- `((long) x << k) + y`. -/
def combine (m : Sem) (k : Int) (p : BitVec 32 × BitVec 32) : Outcome (BitVec 64) :=
  (Bits.shl m (p.1.signExtend 64) k).bind fun x => CInt.add m x (p.2.signExtend 64)

/-- Random.cpp:214-216 `nextLong`. -/
def nextLong (m : Sem) (o : Order) : OM (Rnd δ) (BitVec 64) := do
  let p ← pair m o 32 32
  OM.lift (combine m 32 p)

/-- Random.cpp:204-207 `nextDouble`, in units of 2^-53. -/
def nextDouble (m : Sem) (o : Order) : OM (Rnd δ) (BitVec 64) := do
  let p ← pair m o 26 27
  OM.lift (combine m 27 p)

/-- Random.cpp:224-226 `nextFloat`, in units of 2^-24. -/
def nextFloat (m : Sem) : OM (Rnd δ) (BitVec 32) := next m 24

/-- Random.cpp:239-249. `fp d e` is the floating-point computation on the two
doubles: `none` when the loop condition of line 244 holds, otherwise the number
returned and the number kept. It is any function. -/
def gaussLoop (m : Sem) (o : Order) (fp : BitVec 64 → BitVec 64 → Option (δ × δ)) : Nat → OM (Rnd δ) δ
  | 0 => OM.lift .diverge
  | n + 1 => do
    let d ← nextDouble m o
    let e ← nextDouble m o
    match fp d e with
    | none => gaussLoop m o fp n
    | some (r, k) => do
      let s ← OM.read
      OM.write { s with have_ := true, gauss := k }
      OM.ret r

/-- Random.cpp:234-250 `nextGaussian`. -/
def nextGaussian (m : Sem) (o : Order) (fp : BitVec 64 → BitVec 64 → Option (δ × δ)) : OM (Rnd δ) δ := do
  let s ← OM.read
  if s.have_ then do
    OM.write { s with have_ := false }
    OM.ret s.gauss
  else gaussLoop m o fp maxTurns

/-- Random.cpp:257-260 `setSeed`. -/
def setSeed (seed : BitVec 64) : OM (Rnd δ) Unit := do
  let s ← OM.read
  OM.write { s with seed := initialScramble seed, have_ := false }

/-- Random.cpp:271-273: the loop of `nextString`. -/
def drawChars (m : Sem) : Nat → OM (Rnd δ) Unit
  | 0 => OM.ret ()
  | n + 1 => do
    let _ ← nextIntBound m 62#32
    drawChars m n

/-- Random.cpp:267-277 `nextString`. `charArray` has `length` elements; line 274
writes element `length`. A length that is not positive makes the array itself
undefined. -/
def nextString (m : Sem) (length : Int) : OM (Rnd δ) (List Byte) := do
  let _ ← drawChars m length.toNat
  OM.undef

/-! ## Histories -/

/-- Calls on a generator. -/
inductive Op
  | nextInt
  | nextIntBound (bound : BitVec 32)
  | nextBoolean
  | nextLong
  | nextFloat
  | nextDouble
  | nextGaussian
  | nextBytes (bytes : List Byte)
  | setSeed (seed : BitVec 64)

/-- What a call returns. -/
inductive Ans (δ : Type)
  | unit
  | bool (b : Bool)
  | int (i : Int)
  | dbl (d : δ)
  | bytes (l : List Byte)

/-- Dispatch. -/
def step (m : Sem) (o : Order) (fp : BitVec 64 → BitVec 64 → Option (δ × δ)) : Op → OM (Rnd δ) (Ans δ)
  | .nextInt => do let v ← nextInt m; OM.ret (.int v.toInt)
  | .nextIntBound b => do let v ← nextIntBound m b; OM.ret (.int v.toInt)
  | .nextBoolean => do let v ← nextBoolean m; OM.ret (.bool v)
  | .nextLong => do let v ← nextLong m o; OM.ret (.int v.toInt)
  | .nextFloat => do let v ← nextFloat m; OM.ret (.int v.toInt)
  | .nextDouble => do let v ← nextDouble m o; OM.ret (.int v.toInt)
  | .nextGaussian => do let v ← nextGaussian m o fp; OM.ret (.dbl v)
  | .nextBytes l => do let v ← nextBytes m l; OM.ret (.bytes v)
  | .setSeed s => do let _ ← setSeed s; OM.ret .unit

end Verif.Random
