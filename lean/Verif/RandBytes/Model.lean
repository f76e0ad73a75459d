import Verif.Common
/-!
# The random bytes of UUIDs

`/repo/library/Java/Util/UUID/libuuid/randutils.c`. `HAVE_JRAND48` is defined nowhere in the repository, so the part for
`DO_JRAND_MIX` is not compiled.

Simplifications. The kernel and the C library are a parameter: whether the devices can be opened, what each `read` gives,
the clock and the numbers of `rand` after `srand`. `fcntl` and `close` change none of these. The clock is after 1970.
-/
namespace Verif.RandBytes

/-- What the process finds. `read k n` is the answer to the `k`-th `read`, which asks for `n` bytes: the bytes, or `none` for
an error; no bytes is the end of the file. `rand seed k` is the `k`-th number after `srand(seed)`. -/
structure World where
  urandom : Bool
  random : Bool
  read : Nat → Nat → Option (List Byte)
  pid : Nat
  uid : Nat
  /-- seconds and microseconds, at the two calls of `gettimeofday` -/
  time : Nat × Nat
  time' : Nat × Nat
  rand : Nat → Nat → Nat

/-- 39-41: `open`, of the one device or else of the other; `fd >= 0`. -/
def World.opened (w : World) : Bool := w.urandom || w.random

/-- 47: the argument of `srand`, an `unsigned int`. -/
def World.seed (w : World) : Nat := (w.pid * 2 ^ 16 ^^^ w.uid ^^^ w.time.1 ^^^ w.time.2) % 2 ^ 32

/-- 55-57: how many numbers are thrown away. -/
def World.crank (w : World) : Nat := (w.time'.1 ^^^ w.time'.2) % 32

/-- 95: `(rand() >> 7) & 0xFF` for byte `i`. -/
def World.mask (w : World) (i : Nat) : Byte := BitVec.ofNat 8 (w.rand w.seed (w.crank + i) / 2 ^ 7)

/-- `read(fd, cp, n)` puts `bs` at offset `off`. -/
def blit (buf : List Byte) (off : Nat) (bs : List Byte) : List Byte := buf.take off ++ bs ++ buf.drop (off + bs.length)

/-- 75-85: `while (n > 0)`. `k` counts the calls of `read`, `lose` is `lose_counter`; `size` is `nbytes`. Also the number of
calls. The first argument only bounds the recursion. A device that gives more than it was asked for overruns the buffer. -/
def fill (read : Nat → Nat → Option (List Byte)) (size : Nat) : (fuel k n lose : Nat) → List Byte → Outcome (List Byte × Nat)
  | _, k, 0, _, buf => .ok (buf, k)
  | 0, _, _ + 1, _, _ => .diverge
  | f + 1, k, n + 1, lose, buf =>
    match read k (n + 1) with
    | some (b :: bs) =>
      if (b :: bs).length ≤ n + 1 then fill read size f (k + 1) (n + 1 - (b :: bs).length) 0 (blit buf (size - (n + 1)) (b :: bs)) else .ub
    | _ => if 16 < lose then .ok (buf, k + 1) else fill read size f (k + 1) (n + 1) (lose + 1) buf

/-- 94-95: every byte is changed by a number of `rand`. -/
def mix (w : World) (buf : List Byte) : List Byte := buf.mapIdx fun i b => b ^^^ w.mask i

/-- 67-112 `random_get_bytes(buf, nbytes)`: the buffer after the call, and the number of calls of `read`. `getpid() << 16`
(47) is a shift of an `int`, undefined if the result is too large. -/
def getBytes (w : World) (buf : List Byte) : Outcome (List Byte × Nat) :=
  if 2 ^ 15 ≤ w.pid then .ub
  else
    (if w.opened then fill w.read buf.length (18 * buf.length) 0 buf.length 0 buf else .ok (buf, 0)).bind fun r => .ok (mix w r.1, r.2)

end Verif.RandBytes
