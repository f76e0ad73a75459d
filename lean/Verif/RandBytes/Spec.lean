import Verif.RandBytes.Model
/-!
# What the random bytes promise
-/
namespace Verif.RandBytes

/-- `read` never gives more than it was asked for. -/
def Honest (w : World) : Prop := ∀ k n bs, w.read k n = some bs → bs.length ≤ n

/-- A call of `read` gives nothing. -/
def Fails (w : World) (k n : Nat) : Prop := w.read k n = none ∨ w.read k n = some []

/-- From call `k` on, after `f` calls in a row that gave nothing, the device gives these `n` bytes, in any pieces; never more than
17 calls in a row give nothing. -/
inductive Delivers (w : World) : (k f n : Nat) → List Byte → Prop
  | done (k f : Nat) : Delivers w k f 0 []
  | part {k f n : Nat} {bs rest : List Byte} : 0 < n → w.read k n = some bs → bs ≠ [] → bs.length ≤ n → Delivers w (k + 1) 0 (n - bs.length) rest → Delivers w k f n (bs ++ rest)
  | fail {k f n : Nat} {rest : List Byte} : 0 < n → Fails w k n → f < 17 → Delivers w (k + 1) (f + 1) n rest → Delivers w k f n rest

/-- The process can open a device, which gives the bytes `bs`. -/
def Gets (w : World) (bs : List Byte) : Prop := (w.urandom = true ∨ w.random = true) ∧ Delivers w 0 0 bs.length bs

/-- The number of the process fits in fifteen bits. -/
def SmallPid (w : World) : Prop := w.pid < 2 ^ 15

/-- Two processes that differ in nothing but the devices. -/
def Alike (w w' : World) : Prop := w'.pid = w.pid ∧ w'.uid = w.uid ∧ w'.time = w.time ∧ w'.time' = w.time' ∧ w'.rand = w.rand

/-- The buffer after the call. -/
def Result (w : World) (buf out : List Byte) : Prop := ∃ k, getBytes w buf = .ok (out, k)

end Verif.RandBytes
