import Verif.Random.Model
/-!
# The documented generator

States are natural numbers below 2^48.  Nothing here refers to the functions of
the model; only its calls and answers are shared.
-/
namespace Verif.Random

/-- The next state. -/
@[irreducible] def lcg (x : Nat) : Nat := (x * 25214903917 + 11) % 2 ^ 48

/-- `f` applied `k` times. -/
def times (f : Nat → Nat) : Nat → Nat → Nat
  | 0, x => x
  | k + 1, x => times f k (f x)

/-- The state `k` draws later. -/
def after (k x : Nat) : Nat := times lcg k x

/-- The state a generator starts from. -/
def start (seed : BitVec 64) : Nat := (seed.toNat ^^^ 25214903917) % 2 ^ 48

/-- The top `bits` bits of the state `k` draws later. -/
def top (bits k x : Nat) : Nat := after k x / 2 ^ (48 - bits)

/-- Such a number read as a 32-bit two's complement integer. -/
def int32 (n : Nat) : Int := (n : Int).bmod (2 ^ 32)

/-- A 31-bit draw is kept for a bound that is not a power of two when its whole
block of `bound` consecutive draws lies below 2^31. -/
def Kept (bound r : Nat) : Prop := r - r % bound + bound ≤ 2 ^ 31

/-- `nextInt(bound)` from state `x` answers `v` and leaves `x'`. -/
def Drawn (bound x x' v : Nat) : Prop :=
  (∃ j, bound = 2 ^ j) ∧ x' = after 1 x ∧ v = bound * top 31 1 x / 2 ^ 31 ∨
  (∀ j, bound ≠ 2 ^ j) ∧ ∃ n, (∀ k, 1 ≤ k → k ≤ n → ¬ Kept bound (top 31 k x)) ∧ Kept bound (top 31 (n + 1) x) ∧
    x' = after (n + 1) x ∧ v = top 31 (n + 1) x % bound

/-- The raw 31-bit draw `r` makes `nextInt(bound)` answer `v`. -/
def Gives (bound r v : Nat) : Prop :=
  (∃ j, bound = 2 ^ j) ∧ v = bound * r / 2 ^ 31 ∨ (∀ j, bound ≠ 2 ^ j) ∧ Kept bound r ∧ v = r % bound

/-- The double drawn `k` draws later, in units of 2^-53. -/
def dbl (k x : Nat) : Nat := top 26 (k + 1) x * 2 ^ 27 + top 27 (k + 2) x

/-- A generator's state: the number and the Gaussian kept for the next call. -/
structure St (δ : Type) where
  x : Nat
  kept : Option δ

variable {δ : Type}

/-- `nextGaussian` with nothing kept draws pairs of doubles until `fp` accepts one. -/
def Gauss (fp : BitVec 64 → BitVec 64 → Option (δ × δ)) (x x' : Nat) (r k : δ) : Prop :=
  ∃ n, n < 2 ^ 48 ∧ (∀ i < n, fp (BitVec.ofNat 64 (dbl (4 * i) x)) (BitVec.ofNat 64 (dbl (4 * i + 2) x)) = none) ∧
    fp (BitVec.ofNat 64 (dbl (4 * n) x)) (BitVec.ofNat 64 (dbl (4 * n + 2) x)) = some (r, k) ∧ x' = after (4 * n + 4) x

/-- What every call may do. -/
def R (fp : BitVec 64 → BitVec 64 → Option (δ × δ)) : Op → St δ → St δ → Except Exc (Ans δ) → Prop
  | .nextInt, t, t', a => t' = ⟨after 1 t.x, t.kept⟩ ∧ a = .ok (.int (int32 (top 32 1 t.x)))
  | .nextIntBound b, t, t', a =>
    if b.toInt ≤ 0 then t' = t ∧ a = .error .interrupted
    else ∃ x' v, Drawn b.toNat t.x x' v ∧ t' = ⟨x', t.kept⟩ ∧ a = .ok (.int v)
  | .nextBoolean, t, t', a => t' = ⟨after 1 t.x, t.kept⟩ ∧ a = .ok (.bool (decide (top 1 1 t.x = 1)))
  | .nextLong, t, t', a =>
    t' = ⟨after 2 t.x, t.kept⟩ ∧ a = .ok (.int ((int32 (top 32 1 t.x) * 2 ^ 32 + int32 (top 32 2 t.x)).bmod (2 ^ 64)))
  | .nextFloat, t, t', a => t' = ⟨after 1 t.x, t.kept⟩ ∧ a = .ok (.int (top 24 1 t.x))
  | .nextDouble, t, t', a => t' = ⟨after 2 t.x, t.kept⟩ ∧ a = .ok (.int (dbl 0 t.x))
  | .nextGaussian, t, t', a =>
    match t.kept with
    | some g => t' = ⟨t.x, none⟩ ∧ a = .ok (.dbl g)
    | none => ∃ x' r k, Gauss fp t.x x' r k ∧ t' = ⟨x', some k⟩ ∧ a = .ok (.dbl r)
  | .nextBytes l, t, t', a =>
    t' = ⟨after l.length t.x, t.kept⟩ ∧
    a = .ok (.bytes (l ++ (List.range l.length).map fun i => BitVec.ofNat 8 (top 32 (i + 1) t.x / 256)))
  | .setSeed s, t, t', a => t' = ⟨start s, none⟩ ∧ a = .ok .unit

/-- `nextGaussian` is only asked for when the loop ends. -/
def Legal (fp : BitVec 64 → BitVec 64 → Option (δ × δ)) : Op → St δ → Prop
  | .nextGaussian, t => t.kept = none → ∃ x' r k, Gauss fp t.x x' r k
  | _, _ => True

/-- The object is in the state. -/
def Holds (s : Rnd δ) (t : St δ) : Prop :=
  s.seed.toNat = t.x ∧ t.x < 2 ^ 48 ∧ t.kept = if s.have_ then some s.gauss else none

end Verif.Random
