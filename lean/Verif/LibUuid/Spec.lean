import Verif.Uuid.Spec
import Verif.LibUuid.Model
/-! # What users of libuuid rely on -/
namespace Verif.LibUuid
open Verif.NumText

/-- The number whose big-endian bytes are `p`. -/
def numberOf (p : List Byte) : Nat := p.foldl (fun a b => a * 256 + b.toNat) 0

/-- `t` is `n` hexadecimal digits of either case with value `v`. -/
def AnyHex (n : Nat) (t : List Byte) (v : Nat) : Prop := t.length = n ∧ Numeral 16 t v

/-- `t` is a text of the 128-bit number `v`, the digits in either case. -/
def Text (t : List Byte) (v : Nat) : Prop :=
  ∃ a b c d e : List Byte, ∃ A B C D E : Nat,
    t = a ++ [chr '-'] ++ b ++ [chr '-'] ++ c ++ [chr '-'] ++ d ++ [chr '-'] ++ e ∧
    AnyHex 8 a A ∧ AnyHex 4 b B ∧ AnyHex 4 c C ∧ AnyHex 4 d D ∧ AnyHex 12 e E ∧
    v = (((A * 2 ^ 16 + B) * 2 ^ 16 + C) * 2 ^ 16 + D) * 2 ^ 48 + E

/-- RFC 4122 section 4.1.4: the 60-bit timestamp of a time-based UUID, in units of
100 ns since 15 October 1582. -/
def timestampOf (v : Nat) : Nat := Uuid.field v 64 12 * 2 ^ 48 + Uuid.field v 80 16 * 2 ^ 32 + Uuid.field v 96 32

/-- How often the second clock reading of a pair of neighbours is before the first. -/
def backSteps : List TimeVal → Nat
  | s :: t :: r => (if t.sec < s.sec ∨ (t.sec = s.sec ∧ t.usec < s.usec) then 1 else 0) + backSteps (t :: r)
  | _ => 0

/-- No 11 neighbouring readings of the clock are equal. -/
def NoLongRun (tvs : List TimeVal) : Prop := ∀ pre post v, tvs ≠ pre ++ List.replicate 11 v ++ post

end Verif.LibUuid
