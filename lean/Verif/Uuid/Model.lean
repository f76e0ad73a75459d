import Verif.NumText.Model
/-!
# `UUID`

`/repo/library/Java/Util/UUID/UUID.cpp`.  A `long` is a `BitVec 64`.  The field
`timestamp` (the wall clock at construction) is not modelled: no operation below
reads it.
-/
namespace Verif.Uuid
open Verif.CInt Verif.Bits Verif.NumText Verif.JString

/-- UUID.hpp:45-46: the two fields. -/
structure UUID where
  most : BitVec 64
  least : BitVec 64
deriving DecidableEq, Repr

/-- UUID.cpp:34-37 `UUID()`. -/
def nil : UUID := ⟨0, 0⟩

/-- UUID.cpp:46-49 `digits`. -/
def digits (m : Sem) (value : BitVec 64) (digit : Int) : Outcome Str := do
  let l ← shl m (1 : BitVec 64) (digit * 4)
  let k ← sub m l 1
  let t ← longToHexString (l ||| (value &&& k))
  getStringFromIndex t 1

/-- UUID.cpp:201-210 `toString`. -/
def toString (m : Sem) (u : UUID) : Outcome Str := do
  let v ← sar m u.most 32
  let a ← digits m v 8
  let v ← sar m u.most 16
  let b ← digits m v 4
  let c ← digits m u.most 4
  let v ← sar m u.least 48
  let d ← digits m v 4
  let e ← digits m u.least 12
  .ok (a ++ txt "-" ++ (b ++ txt "-") ++ (c ++ txt "-") ++ (d ++ txt "-") ++ e)

/-- `Long::decode("0x" + component).longValue()`, UUID.cpp:266, 269. -/
def component (s : Str) : Outcome (BitVec 64) := do
  let v ← decodeLong (txt "0x" ++ s)
  .ok (BitVec.ofInt 64 v)

/-- UUID.cpp:269-279: the five components put together. -/
def assemble (m : Sem) (a b c d e : Str) : Outcome UUID := do
  let x ← component a
  let x ← shl m x 16
  let y ← component b
  let x ← shl m (x ||| y) 16
  let y ← component c
  let z ← component d
  let z ← shl m z 48
  let w ← component e
  .ok ⟨x ||| y, z ||| w⟩

/-- UUID.cpp:257-281 `fromString`; `fuel` bounds the turns of `split`. -/
def fromString (m : Sem) (fuel : Nat) (name : Str) : Outcome UUID := do
  let parts ← split fuel name (txt "-")
  match parts with
  | [a, b, c, d, e] => assemble m a b c d e
  | _ => .ok nil

/-- UUID.cpp:226-228 `version`; the conversion to `int` keeps the low 32 bits. -/
def version (m : Sem) (u : UUID) : Outcome (BitVec 32) := do
  let v ← sar m u.most 12
  .ok ((v &&& 0x0f#64).setWidth 32)

/-- UUID.cpp:99-106 `clockSequence`. -/
def clockSequence (m : Sem) (u : UUID) : Outcome (BitVec 32) := do
  let v ← version m u
  if v ≠ 1 then .ok (-1)
  else do
    let r ← sar m (u.least &&& 0x3FFF000000000000#64) 48
    .ok (r.setWidth 32)

/-- UUID.cpp:179-185 `node`; the test of the version has an empty body. -/
def node (u : UUID) : BitVec 64 := u.least &&& 0x0000FFFFFFFFFFFF#64

/-- UUID.cpp:217-219 `variant`. -/
def variant (m : Sem) (u : UUID) : Outcome (BitVec 32) := do
  let k ← sar m u.least 62
  let n ← sub m 64 k
  let a ← sar m u.least n.toInt
  let b ← sar m u.least 63
  .ok ((a &&& b).setWidth 32)

/-- UUID.cpp:117-131 `compareTo`. -/
def compareTo (u v : UUID) : Int :=
  if u.most.slt v.most then -1
  else if v.most.slt u.most then 1
  else if u.least.slt v.least then -1
  else if v.least.slt u.least then 1
  else 0

/-- UUID.cpp:141-144 `equals`. -/
def equals (u v : UUID) : Bool := u.most == v.most && u.least == v.least

/-- UUID.cpp:169-172 `hashCode`. -/
def hashCode (m : Sem) (u : UUID) : Outcome (BitVec 32) := do
  let x := u.most ^^^ u.least
  let h ← sar m x 32
  .ok (h.setWidth 32 ^^^ x.setWidth 32)

/-- UUID.cpp:151-153, 160-162 `getLeastSignificantBits`, `getMostSignificantBits`. -/
def getLeastSignificantBits (u : UUID) : BitVec 64 := u.least
def getMostSignificantBits (u : UUID) : BitVec 64 := u.most

end Verif.Uuid
