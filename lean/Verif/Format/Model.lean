import Verif.NumText.Model
/-!
# `String::format`

`/repo/library/Java/Lang/String/String.hpp` (1156-1222, 1252-1270) and
`/repo/library/Java/Lang/String/String.cpp` (699-897). Strings are byte lists as in `Verif.JString`; their
lengths are taken to fit an `int`. `regcomp` is taken to succeed.
-/
namespace Verif.Format

open Verif.JString Verif.NumText

/-! ## Matching -/

/-- The flags `[-#+0 ]` of the pattern (String.hpp:1165). -/
def isFlag (c : Byte) : Bool := (txt "-#+0 ").contains c

/-- The conversions `[diuoxXfFeEgGaAcspnbB%]` of the pattern (String.hpp:1166). -/
def isConv (c : Byte) : Bool := (txt "diuoxXfFeEgGaAcspnbB%").contains c

/-- The parts of the pattern (String.hpp:1165-1166) after the percent sign: the first digits, the flags,
the second digits, the point, the digits after it, one letter `l`, two of them. -/
inductive St
  | d1 | fl | d2 | dot | pr | l1 | l2
  deriving DecidableEq, Repr

/-- The part of the pattern the character `c` belongs to after the part `st`. -/
def next (st : St) (c : Byte) : Option St :=
  if isDigit c then
    match st with
    | .d1 => some .d1
    | .fl => if c = chr '0' then some .fl else some .d2
    | .d2 => some .d2
    | .dot => some .pr
    | .pr => some .pr
    | _ => none
  else if isFlag c then
    match st with
    | .d1 => some .fl
    | .fl => some .fl
    | _ => none
  else if c = chr '.' then
    match st with
    | .d1 => some .dot
    | .fl => some .dot
    | .d2 => some .dot
    | _ => none
  else if c = chr 'l' then
    match st with
    | .d1 => some .l1
    | .fl => some .l1
    | .d2 => some .l1
    | .pr => some .l1
    | .l1 => some .l2
    | _ => none
  else none

/-- How many characters the pattern takes from here on. -/
def specFrom : St → Str → Option Nat
  | _, [] => none
  | st, c :: s =>
    if isConv c then (if st = .dot then none else some 1)
    else
      match next st c with
      | none => none
      | some st' => (specFrom st' s).map (· + 1)

/-- `regexec` (String.hpp:1177, String.cpp:871): `rm_so` and `rm_eo` of the leftmost match. Matches are
delimited by their conversion character, so there is no choice of the length; see `regexec_spec`. -/
def regexec : Str → Option (Nat × Nat)
  | [] => none
  | c :: s =>
    match if c = chr '%' then specFrom .d1 s else none with
    | some n => some (0, n + 1)
    | none => (regexec s).map fun p => (p.1 + 1, p.2 + 1)

/-! ## The C library: `snprintf` -/

/-- A conversion specification of `printf`. -/
structure Conv where
  minus : Bool
  plus : Bool
  space : Bool
  alt : Bool
  zero : Bool
  width : Nat
  prec : Option Nat
  /-- letters `l` -/
  len : Nat
  conv : Byte
  deriving DecidableEq, Repr

/-- The value of decimal digits. -/
def num (s : Str) : Nat := s.foldl (fun a c => a * 10 + (c.toNat - 48)) 0

/-- ISO C 7.21.6.1: the precision and what follows. -/
def precPart : Str → Option Nat × Str
  | [] => (none, [])
  | c :: s => if c = chr '.' then (some (num (s.takeWhile isDigit)), s.dropWhile isDigit) else (none, c :: s)

/-- ISO C 7.21.6.1: flags, width, precision, length and conversion. Anything else is undefined. -/
def parseConv : Str → Option Conv
  | [] => none
  | p :: s =>
    if p ≠ chr '%' then none
    else
      let f := s.takeWhile isFlag
      let s1 := s.dropWhile isFlag
      let w := s1.takeWhile isDigit
      let s2 := s1.dropWhile isDigit
      let q := precPart s2
      let l := q.2.takeWhile (· = chr 'l')
      match q.2.dropWhile (· = chr 'l') with
      | [c] =>
        if l.length ≤ 2 then
          some ⟨f.contains (chr '-'), f.contains (chr '+'), f.contains (chr ' '), f.contains (chr '#'),
            f.contains (chr '0'), num w, q.1, l.length, c⟩
        else none
      | _ => none

/-- An argument, as it is passed on to `snprintf` (String.cpp:699-857): `bool` and `Boolean`; what is
promoted to `int` or `unsigned int`; `long`, `long long` and `unsigned long`; floating point numbers,
whatever they are; texts. -/
inductive Arg (D : Type)
  | bool (b : Bool)
  | i32 (v : BitVec 32)
  | i64 (v : BitVec 64)
  | dbl (x : D)
  | str (s : Str)

/-- What the C library prints for floating point numbers and addresses. -/
structure Lib (D : Type) where
  real : Conv → D → Str
  addr : Conv → Str → Str

variable {D : Type}

/-- The integer `snprintf` reads, signed and unsigned. A `long` where an `int` is expected is undefined;
on the usual machines the lower half is read. -/
def intArg (m : Sem) (len : Nat) : Arg D → Outcome (Int × Nat)
  | .i32 v => if len = 0 then .ok (v.toInt, v.toNat) else .ub
  | .i64 v =>
    if len ≠ 0 then .ok (v.toInt, v.toNat)
    else match m with
      | .strict => .ub
      | .wrap => .ok ((v.setWidth 32).toInt, (v.setWidth 32).toNat)
  | _ => .ub

/-- The digits of a number, at least as many as the precision says; none for 0 with precision 0. -/
def digitText (base : Nat) (prec : Option Nat) (n : Nat) : Str :=
  let ds := if n = 0 ∧ prec = some 0 then [] else digits base 64 n
  List.replicate (prec.getD 1 - ds.length) (chr '0') ++ ds

/-- Pad to the width. -/
def field (k : Conv) (zero : Bool) (sign body : Str) : Str :=
  let n := k.width - (sign.length + body.length)
  if k.minus then sign ++ body ++ List.replicate n (chr ' ')
  else if zero then sign ++ List.replicate n (chr '0') ++ body
  else List.replicate n (chr ' ') ++ sign ++ body

/-- `%d`. -/
def signedText (k : Conv) (v : Int) : Str :=
  field k (k.zero && k.prec.isNone)
    (if v < 0 then txt "-" else if k.plus then txt "+" else if k.space then txt " " else [])
    (digitText 10 k.prec v.natAbs)

/-- `%u`, `%o`, `%x` and `%X`. -/
def unsignedText (k : Conv) (n : Nat) : Str :=
  let zero := k.zero && k.prec.isNone
  if k.conv = chr 'o' then
    let b := digitText 8 k.prec n
    field k zero [] (if k.alt && b.head? ≠ some (chr '0') then chr '0' :: b else b)
  else if k.conv = chr 'x' then field k zero (if k.alt && n ≠ 0 then txt "0x" else []) (digitText 16 k.prec n)
  else if k.conv = chr 'X' then
    field k zero (if k.alt && n ≠ 0 then txt "0X" else []) ((digitText 16 k.prec n).map toUpperB)
  else field k zero [] (digitText 10 k.prec n)

/-- What `snprintf` makes of one argument, before the text is cut to the size of the buffer. Flags,
precisions and lengths that ISO C does not define for a conversion are undefined, as are `%n` (which needs
a pointer to `int`) and `%b`. -/
def render (m : Sem) (lib : Lib D) (k : Conv) (a : Arg D) : Outcome Str :=
  if k.conv = chr 'd' ∨ k.conv = chr 'i' then
    if k.alt then .ub else (intArg m k.len a).bind fun v => .ok (signedText k v.1)
  else if k.conv = chr 'u' then
    if k.alt then .ub else (intArg m k.len a).bind fun v => .ok (unsignedText k v.2)
  else if k.conv = chr 'o' ∨ k.conv = chr 'x' ∨ k.conv = chr 'X' then
    (intArg m k.len a).bind fun v => .ok (unsignedText k v.2)
  else if k.conv = chr 'c' then
    if k.alt || k.zero || k.prec.isSome || k.len ≠ 0 then .ub
    else (intArg m 0 a).bind fun v => .ok (field k false [] [BitVec.ofNat 8 v.2])
  else if k.conv = chr 's' then
    if k.alt || k.zero || k.len ≠ 0 then .ub
    else match a with
      | .str s => .ok (field k false [] (match k.prec with | none => cstr s | some p => (cstr s).take p))
      | _ => .ub
  else if k.conv = chr 'p' then
    match a with
    | .str s => .ok (lib.addr k s)
    | _ => .ub
  else if (txt "fFeEgGaA").contains k.conv then
    match a with
    | .dbl x => if k.len ≤ 1 then .ok (lib.real k x) else .ub
    | _ => .ub
  else .ub

/-- `snprintf` returns -1 if a width, a precision or the length does not fit an `int`. -/
def tooBig (k : Conv) (t : Str) : Bool :=
  decide (2147483647 < k.width) || decide (2147483647 < k.prec.getD 0) || decide (2147483647 < t.length)

/-- The buffer of `n` bytes, zero before, after `snprintf` wrote `t`. -/
def buffer (n : Nat) (t : Str) : Str :=
  t.take (n - 1) ++ List.replicate (n - (t.take (n - 1)).length) 0

/-! ## The code -/

/-- String.hpp:42 `DEFAULT_BUFFER_LENGTH`. -/
def bufferLength : Nat := 128

/-- String.cpp:73-75 `String(buffer, length)`: reading beyond the buffer is undefined. -/
def fromBuffer (b : Str) (length : Nat) : Outcome Str := if b.length < length then .ub else .ok (b.take length)

/-- String.cpp:709-797: the buffer is on the stack. -/
def printNum (m : Sem) (lib : Lib D) (w : Str) (a : Arg D) : Outcome Str :=
  match parseConv w with
  | none => .ub
  | some k => (render m lib k a).bind fun t =>
    if tooBig k t then .ok []
    else if t.length > 0 then fromBuffer (buffer bufferLength t) t.length
    else .ok []

/-- String.cpp:799-829: if the text is longer than the buffer a larger one is made. -/
def printStr (m : Sem) (lib : Lib D) (w : Str) (a : Arg D) : Outcome Str :=
  match parseConv w with
  | none => .ub
  | some k => (render m lib k a).bind fun t =>
    if tooBig k t then .ok []
    else if t.length > bufferLength then fromBuffer (buffer (t.length + 1) t) t.length
    else if t.length > 0 then fromBuffer (buffer bufferLength t) t.length
    else .ok []

/-- String.cpp:699-707 (`bool`), 709-857. -/
def print (m : Sem) (lib : Lib D) (w : Str) (a : Arg D) : Outcome Str :=
  match a with
  | .bool b =>
    if w = txt "%b" then .ok (if b then txt "true" else txt "false")
    else if w = txt "%B" then .ok (if b then txt "TRUE" else txt "FALSE")
    else .ok []
  | .str _ => printStr m lib w a
  | _ => printNum m lib w a

/-- String.hpp:1252-1270. -/
def printObject (m : Sem) (lib : Lib D) (w : Str) (a : Arg D) : Outcome Str :=
  if w.getLast? = some (chr '%') then .ok (txt "%") else print m lib w a

/-- The loops of String.hpp:1164-1213 and, without arguments, String.cpp:859-897. One call for each
match; the number only makes the definition total. -/
def formatAt (m : Sem) (lib : Lib D) : Nat → Str → List (Arg D) → Outcome Str
  | 0, _, _ => .diverge
  | n + 1, s, args =>
    if s = [] then .ok []
    else
      match regexec (cstr s) with
      | none => .ok s
      | some (so, eo) =>
        let w := (s.take eo).drop so
        match args with
        | [] =>
          if w.getLast? ≠ some (chr '%') then .throw .interrupted
          else (formatAt m lib n (s.drop eo) []).bind fun r => .ok (s.take so ++ txt "%" ++ r)
        | a :: as => (printObject m lib w a).bind fun t =>
          (formatAt m lib n (s.drop eo) (if w.getLast? = some (chr '%') then a :: as else as)).bind fun r =>
            .ok (s.take so ++ t ++ r)

/-- String.hpp:1164-1213, String.cpp:859-897. -/
def format (m : Sem) (lib : Lib D) (s : Str) (args : List (Arg D)) : Outcome Str :=
  formatAt m lib (s.length + 1) s args

end Verif.Format
