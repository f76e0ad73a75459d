import Verif.Digest.Model
/-!
# Copies of a MessageDigest

`MessageDigest.hpp` declares no copy constructor, so the compiler's copies the
pointer `spi`; the destructor (MessageDigest.cpp:47-51) deletes what it points to.
The memory is a list of engines, `none` for one that has been deleted; a
`MessageDigest` is a pointer into it and the name.
-/
namespace Verif.Digest

abbrev Mem := List (Option Engine)

/-- MessageDigest.hpp:55-56. -/
structure Handle where
  spi : Nat
  algorithm : List Byte
deriving DecidableEq, Repr

/-- MessageDigest.cpp:35-45 `getInstance`: the engine is new memory. -/
def create (buf algorithm : List Byte) (M : Mem) : Outcome (Mem × Handle) := do
  let o ← getInstance buf algorithm
  .ok (M ++ [some o.spi], ⟨M.length, o.algorithm⟩)

/-- The compiler's copy constructor (MessageDigest.hpp:37-72 declares none). -/
def copy (h : Handle) : Handle := h

/-- MessageDigest.cpp:53-111: a call through the pointer. -/
def call (m : Sem) (op : Op) (h : Handle) (M : Mem) : Outcome (Mem × Except Exc Ans) :=
  match M[h.spi]? with
  | some (some e) =>
    match step m op ⟨e, h.algorithm⟩ with
    | .ret o a => .ok (M.set h.spi (some o.spi), .ok a)
    | .exc o x => .ok (M.set h.spi (some o.spi), .error x)
    | .ub => .ub
    | .diverge => .diverge
  | _ => .ub

/-- MessageDigest.cpp:47-51: the destructor. -/
def destroy (h : Handle) (M : Mem) : Outcome Mem :=
  match M[h.spi]? with
  | some (some _) => .ok (M.set h.spi none)
  | _ => .ub

end Verif.Digest
