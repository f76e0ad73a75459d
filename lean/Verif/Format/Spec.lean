import Verif.Format.Model
import Verif.NumText.Spec
/-!
# What is expected of `String.format`
-/
namespace Verif.Format

open Verif.JString Verif.NumText

/-- The texts that the regular expression
`%([[:digit:]]+)?([-#+0 ]*)?([[:digit:]]+)?(\.[[:digit:]]+)?(l){0,2}([diuoxXfFeEgGaAcspnbB%])` describes. -/
def IsSpec (w : Str) : Prop :=
  ∃ d1 f d2 p l c, w = chr '%' :: (d1 ++ f ++ d2 ++ p ++ l ++ [c]) ∧ (∀ x ∈ d1, isDigit x = true) ∧
    (∀ x ∈ f, x ∈ txt "-#+0 ") ∧ (∀ x ∈ d2, isDigit x = true) ∧
    (p = [] ∨ ∃ q, q ≠ [] ∧ p = chr '.' :: q ∧ ∀ x ∈ q, isDigit x = true) ∧
    (l = [] ∨ l = txt "l" ∨ l = txt "ll") ∧ c ∈ txt "diuoxXfFeEgGaAcspnbB%"

/-- No conversion specification starts within the first `n` characters. -/
def NoSpec (n : Nat) (s : Str) : Prop := ∀ i, i < n → ∀ w, IsSpec w → ¬ w <+: s.drop i

/-- A format is read from the left: text before the first specification is kept, a specification that ends
in a percent sign gives a percent sign, any other one gives what `P` says for the next argument. Arguments
that are left over are ignored. -/
inductive Formats {D : Type} (P : Str → Arg D → Str → Prop) : Str → List (Arg D) → Str → Prop
  | text {s args} : NoSpec s.length s → Formats P s args s
  | percent {a w r args out} : IsSpec w → w.getLast? = some (chr '%') → NoSpec a.length (a ++ w ++ r) →
      Formats P r args out → Formats P (a ++ w ++ r) args (a ++ [chr '%'] ++ out)
  | conv {a w r x args t out} : IsSpec w → w.getLast? ≠ some (chr '%') → NoSpec a.length (a ++ w ++ r) →
      P w x t → Formats P r args out → Formats P (a ++ w ++ r) (x :: args) (a ++ t ++ out)

/-- A format that needs more than `n` arguments. -/
inductive Needs : Str → Nat → Prop
  | here {a w r} : IsSpec w → w.getLast? ≠ some (chr '%') → NoSpec a.length (a ++ w ++ r) → Needs (a ++ w ++ r) 0
  | percent {a w r n} : IsSpec w → w.getLast? = some (chr '%') → NoSpec a.length (a ++ w ++ r) → Needs r n →
      Needs (a ++ w ++ r) n
  | conv {a w r n} : IsSpec w → w.getLast? ≠ some (chr '%') → NoSpec a.length (a ++ w ++ r) → Needs r n →
      Needs (a ++ w ++ r) (n + 1)

/-- Double every percent sign. -/
def escape (s : Str) : Str := s.flatMap fun c => if c = chr '%' then [c, c] else [c]

/-- The parts of a conversion specification: flags, width, precision, length and conversion. -/
structure Parts (w : Str) (f : Str) (width : Nat) (prec : Option Nat) (l : Str) (c : Byte) : Prop where
  text : ∃ wd p, w = chr '%' :: (f ++ wd ++ p ++ l ++ [c]) ∧
    ((wd = [] ∧ width = 0) ∨ (Canonical 10 wd width ∧ width ≠ 0)) ∧
    ((p = [] ∧ prec = none) ∨ ∃ q n, p = chr '.' :: q ∧ Numeral 10 q n ∧ prec = some n)
  flags : ∀ x ∈ f, x ∈ txt "-#+0 "
  length : l = [] ∨ l = txt "l" ∨ l = txt "ll"
  conv : c ∈ txt "diuoxXcs"
  small : width ≤ 2147483647 ∧ prec.getD 0 ≤ 2147483647

/-- The digits of `n`: at least as many as the precision says, and none for 0 with precision 0. -/
def Digits (b : Nat) (prec : Option Nat) (n : Nat) (t : Str) : Prop :=
  ∃ d, (n = 0 ∧ prec = some 0 ∧ d = [] ∨ ¬ (n = 0 ∧ prec = some 0) ∧ Canonical b d n) ∧
    t = List.replicate (prec.getD 0 - d.length) (chr '0') ++ d

/-- The sign: a minus for negative numbers, otherwise what the flags ask for. -/
def signOf (f : Str) (v : Int) : Str :=
  if v < 0 then txt "-" else if chr '+' ∈ f then txt "+" else if chr ' ' ∈ f then txt " " else []

/-- `sign` and `body` padded to the width: on the right, with zeros, or on the left. -/
def Padded (f : Str) (zero : Prop) (width : Nat) (sign body t : Str) : Prop :=
  ∃ n, n = width - (sign.length + body.length) ∧
    (chr '-' ∈ f ∧ t = sign ++ body ++ List.replicate n (chr ' ') ∨
     chr '-' ∉ f ∧ zero ∧ t = sign ++ List.replicate n (chr '0') ++ body ∨
     chr '-' ∉ f ∧ ¬ zero ∧ t = List.replicate n (chr ' ') ++ sign ++ body)

/-- The integer in an argument: an `int` without `l`, a `long` with `l` or `ll`. -/
def IntOf {D : Type} (l : Str) (x : Arg D) (v : Int) (n : Nat) : Prop :=
  (l = [] ∧ ∃ a, x = .i32 a ∧ v = a.toInt ∧ n = a.toNat) ∨ (l ≠ [] ∧ ∃ a, x = .i64 a ∧ v = a.toInt ∧ n = a.toNat)

/-- What C prints: integers, characters and texts without the flag `#`; and the Booleans. -/
inductive Prints {D : Type} : Str → Arg D → Str → Prop
  | signed {w f width prec l c x v n ds t} : Parts w f width prec l c → c = chr 'd' ∨ c = chr 'i' → chr '#' ∉ f →
      IntOf l x v n → Digits 10 prec v.natAbs ds → Padded f (chr '0' ∈ f ∧ prec = none) width (signOf f v) ds t →
      Prints w x t
  | unsigned {w f width prec l c b x v n ds t} : Parts w f width prec l c →
      (c = chr 'u' ∧ b = 10 ∨ c = chr 'o' ∧ b = 8 ∨ c = chr 'x' ∧ b = 16) → chr '#' ∉ f → IntOf l x v n →
      Digits b prec n ds → Padded f (chr '0' ∈ f ∧ prec = none) width [] ds t → Prints w x t
  | upper {w f width prec l x v n ds t} : Parts w f width prec l (chr 'X') → chr '#' ∉ f → IntOf l x v n →
      Digits 16 prec n ds → Padded f (chr '0' ∈ f ∧ prec = none) width [] (ds.map toUpperB) t → Prints w x t
  | char {w f width a t} : Parts w f width none [] (chr 'c') → chr '#' ∉ f → chr '0' ∉ f →
      Padded f False width [] [a.setWidth 8] t → Prints w (.i32 a) t
  | text {w f width prec s t} : Parts w f width prec [] (chr 's') → chr '#' ∉ f → chr '0' ∉ f → 0 ∉ s →
      Padded f False width [] (match prec with | none => s | some p => s.take p) t → Prints w (.str s) t
  | bool {b} : Prints (txt "%b") (.bool b) (if b then txt "true" else txt "false")
  | upperBool {b} : Prints (txt "%B") (.bool b) (if b then txt "TRUE" else txt "FALSE")

/-- The lengths for which the implementation works. -/
def Short {D : Type} : Arg D → Str → Prop
  | .str _, t => t.length ≠ 128 ∧ t.length ≤ 2147483647
  | .bool _, _ => True
  | _, t => t.length < 128

end Verif.Format
