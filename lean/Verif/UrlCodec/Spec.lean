import Verif.CStr
/-! # Specification of the URL encoding, independent of the code model -/
namespace Verif.UrlCodec.Spec

/-- ASCII letters and digits. -/
def Letter (c : Byte) : Prop :=
  (48 ≤ c.toNat ∧ c.toNat ≤ 57) ∨ (65 ≤ c.toNat ∧ c.toNat ≤ 90) ∨ (97 ≤ c.toNat ∧ c.toNat ≤ 122)

/-- Lower-case hexadecimal digits. -/
def Hex (c : Byte) : Prop := (48 ≤ c.toNat ∧ c.toNat ≤ 57) ∨ (97 ≤ c.toNat ∧ c.toNat ≤ 102)

/-- Characters that may appear outside an escape. -/
def Plain (c : Byte) : Prop := Letter c ∨ c ∈ txt "-_.~+"

instance (c : Byte) : Decidable (Letter c) := by unfold Letter; infer_instance
instance (c : Byte) : Decidable (Hex c) := by unfold Hex; infer_instance
instance (c : Byte) : Decidable (Plain c) := by unfold Plain; infer_instance

/-- Texts made of plain characters and `%hh` escapes. -/
inductive WellFormed : List Byte → Prop
  | nil : WellFormed []
  | plain (c rest) : Plain c → WellFormed rest → WellFormed (c :: rest)
  | escape (a b rest) : Hex a → Hex b → WellFormed rest → WellFormed (chr '%' :: a :: b :: rest)

end Verif.UrlCodec.Spec
