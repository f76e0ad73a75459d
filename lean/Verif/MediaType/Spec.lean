import Verif.CStr
/-!
# Specification of media types
-/
namespace Verif.MediaType.Spec

abbrev Text := List Byte

/-- A type and a subtype of which a media type can be made. -/
def Valid (type subtype : Text) : Prop := type ≠ [] ∧ subtype ≠ [] ∧ (type = txt "*" → subtype = txt "*")

/-- The text `s` is a media type, perhaps between spaces, perhaps followed by
parameters, with this type and subtype; `*` alone stands for both. -/
def Parses (s type subtype : Text) : Prop :=
  ∃ (n m : Nat) (body parameters : Text),
    s = List.replicate n (chr ' ') ++ body ++ List.replicate m (chr ' ') ++ parameters ∧
    chr ';' ∉ body ∧ (parameters = [] ∨ ∃ p, parameters = chr ';' :: p) ∧
    body.head? ≠ some (chr ' ') ∧ body.getLast? ≠ some (chr ' ') ∧
    ((body = txt "*" ∧ type = txt "*" ∧ subtype = txt "*") ∨
      (body = type ++ [chr '/'] ++ subtype ∧ chr '/' ∉ type ∧ Valid type subtype))

/-- The texts that survive being written and read again. -/
def Clean (type subtype : Text) : Prop :=
  chr '/' ∉ type ∧ chr ';' ∉ type ∧ chr ';' ∉ subtype ∧ (0 : Byte) ∉ type ∧ (0 : Byte) ∉ subtype ∧
  type.head? ≠ some (chr ' ') ∧ subtype.getLast? ≠ some (chr ' ')

/-- `*+suffix` -/
def SuffixWildcard (sub suffix : Text) : Prop := sub = txt "*" ++ chr '+' :: suffix

/-- Two subtypes go together: they are equal, one is the wildcard, or one is a
wildcard with a suffix which is the suffix of the other. -/
def SubCompatible (a b : Text) : Prop :=
  a = b ∨ a = txt "*" ∨ b = txt "*" ∨
  (∃ x p, SuffixWildcard a x ∧ b = p ++ chr '+' :: x ∧ chr '+' ∉ p) ∨ (∃ x p, SuffixWildcard b x ∧ a = p ++ chr '+' :: x ∧ chr '+' ∉ p)

/-- Two media types go together. -/
def Compatible (t s t' s' : Text) : Prop := t = txt "*" ∨ t' = txt "*" ∨ (t = t' ∧ SubCompatible s s')

theorem compatible_symm (t s t' s' : Text) : Compatible t s t' s' ↔ Compatible t' s' t s := by
  unfold Compatible SubCompatible
  constructor
  · rintro (h | h | ⟨h, h' | h' | h' | h' | h'⟩)
    · exact Or.inr (Or.inl h)
    · exact Or.inl h
    · exact Or.inr (Or.inr ⟨h.symm, Or.inl h'.symm⟩)
    · exact Or.inr (Or.inr ⟨h.symm, Or.inr (Or.inr (Or.inl h'))⟩)
    · exact Or.inr (Or.inr ⟨h.symm, Or.inr (Or.inl h')⟩)
    · exact Or.inr (Or.inr ⟨h.symm, Or.inr (Or.inr (Or.inr (Or.inr h')))⟩)
    · exact Or.inr (Or.inr ⟨h.symm, Or.inr (Or.inr (Or.inr (Or.inl h')))⟩)
  · rintro (h | h | ⟨h, h' | h' | h' | h' | h'⟩)
    · exact Or.inr (Or.inl h)
    · exact Or.inl h
    · exact Or.inr (Or.inr ⟨h.symm, Or.inl h'.symm⟩)
    · exact Or.inr (Or.inr ⟨h.symm, Or.inr (Or.inr (Or.inl h'))⟩)
    · exact Or.inr (Or.inr ⟨h.symm, Or.inr (Or.inl h')⟩)
    · exact Or.inr (Or.inr ⟨h.symm, Or.inr (Or.inr (Or.inr (Or.inr h')))⟩)
    · exact Or.inr (Or.inr ⟨h.symm, Or.inr (Or.inr (Or.inr (Or.inl h')))⟩)

end Verif.MediaType.Spec
