import Verif.Digest.Model
import Verif.Md5.Spec
import Verif.Sha1.Spec
/-!
# Specification of a message digest

The state is the bytes to be hashed. `H` is the hash function, `n` its length in
bytes, `name` its name and `after` what is to be hashed after `digest`.
-/
namespace Verif.Digest

structure Alg where
  name : List Byte
  n : Nat
  H : List Byte → List Byte
  after : List Byte → List Byte

def spec (A : Alg) : Op → List Byte → List Byte × Except Exc Ans
  | .getAlgorithm, t => (t, .ok (.text A.name))
  | .getDigestLength, t => (t, .ok (.int A.n))
  | .digest none _, t => (t, .error .interrupted)
  | .digest (some b) len, t =>
    if len < A.n then (t, .error .interrupted) else (A.after t, .ok (.digest A.n (A.H t ++ b.drop A.n)))
  | .reset, _ => ([], .ok .unit)
  | .update none _, t => (t, .error .interrupted)
  | .update (some d) len, t => if len = 0 then (t, .error .interrupted) else (t ++ d.take len.toNat, .ok .unit)

/-- The pointers given reach as far as the lengths say, lengths of inputs are not
negative, and an input is no longer than `most`. -/
def legal (most : Nat) : Op → Prop
  | .digest (some b) len => len ≤ b.length
  | .update (some d) len => 0 ≤ len ∧ len ≤ d.length ∧ len ≤ most
  | _ => True

/-- SHA-1 as the interface promises it: `digest` resets. -/
def sha1 : Alg := ⟨txt "SHA1", 20, Sha1.FIPS.sha1, fun _ => []⟩

/-- MD5 as the interface promises it. -/
def md5 : Alg := ⟨txt "MD5", 16, Md5.RFC.md5, fun _ => []⟩

/-- MD5 as it is: after `digest` the padded message goes on. -/
def md5Continued : Alg := ⟨txt "MD5", 16, Md5.RFC.md5, Md5.RFC.padded⟩

end Verif.Digest
