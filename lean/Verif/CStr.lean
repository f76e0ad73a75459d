import Verif.Common
/-! Character strings shared by several areas. -/
namespace Verif

/-- A character literal as a byte. -/
def chr (c : Char) : Byte := BitVec.ofNat 8 c.toNat

/-- A string literal as bytes. -/
def txt (s : String) : List Byte := s.toList.map chr

/-- The characters before the first NUL: what `String(const char *)`,
`strlen`, `strcmp` see of the buffer of a `std::string`. -/
def cstr (l : List Byte) : List Byte := l.takeWhile (· ≠ 0)

/-- `std::string::operator[]` (String.hpp:303 `String::operator[]`): the
position `size()` reads the terminator, anything else outside is undefined. -/
def Str.at (l : List Byte) (i : Nat) : Outcome Byte :=
  match l[i]? with
  | some c => .ok c
  | none => if i = l.length then .ok 0 else .ub

theorem Str.at_lt {l : List Byte} {i : Nat} {c : Byte} (h : l[i]? = some c) : Str.at l i = .ok c := by
  simp [Str.at, h]

theorem Str.at_end {l : List Byte} : Str.at l l.length = .ok 0 := by
  simp [Str.at]

theorem cstr_nozero (l : List Byte) : ∀ c ∈ cstr l, c ≠ 0 := by
  induction l with
  | nil => simp [cstr]
  | cons a l ih =>
    by_cases ha : a = 0
    · subst ha; simp [cstr]
    · have : cstr (a :: l) = a :: cstr l := by
        unfold cstr; rw [List.takeWhile_cons_of_pos]; simpa using ha
      rw [this]
      intro c hc
      rcases List.mem_cons.mp hc with rfl | hc
      · exact ha
      · exact ih c hc

theorem cstr_eq_self {l : List Byte} (h : 0 ∉ l) : cstr l = l := by
  induction l with
  | nil => rfl
  | cons a l ih =>
    have ha : a ≠ 0 := by rintro rfl; simp at h
    have : cstr (a :: l) = a :: cstr l := by
        unfold cstr; rw [List.takeWhile_cons_of_pos]; simpa using ha
    rw [this, ih (fun h' => h (List.mem_cons_of_mem _ h'))]

/-- Ranges of the C character classes in the "C" locale. -/
def isDigit (c : Byte) : Bool := 48 ≤ c.toNat && c.toNat ≤ 57
def isUpper (c : Byte) : Bool := 65 ≤ c.toNat && c.toNat ≤ 90
def isLower (c : Byte) : Bool := 97 ≤ c.toNat && c.toNat ≤ 122
def isAlnum (c : Byte) : Bool := isDigit c || isUpper c || isLower c
/-- `toupper`/`tolower` in the "C" locale (bytes above 127, i.e. negative
chars, are outside the ASCII classes; glibc's tables cover them). -/
def toUpperB (c : Byte) : Byte := if isLower c then c - 32 else c
def toLowerB (c : Byte) : Byte := if isUpper c then c + 32 else c

/-- Checking a decidable fact about bytes on all 256 of them. -/
theorem byte_all {P : Byte → Prop} (h : ∀ n : Fin 256, P (BitVec.ofNat 8 n.val)) (c : Byte) : P c := by
  have := h ⟨c.toNat, c.isLt⟩
  simpa using this

theorem get?_of_drop {α : Type u} {l : List α} {i : Nat} {a : α} {t : List α}
    (h : l.drop i = a :: t) : l[i]? = some a := by
  have : (l.drop i)[0]? = some a := by simp [h]
  simpa using this

theorem drop_next {α : Type u} {l : List α} {i : Nat} {a : α} {t : List α}
    (h : l.drop i = a :: t) : l.drop (i + 1) = t := by
  rw [← List.drop_drop, h]; rfl

theorem lt_of_drop {α : Type u} {l : List α} {i : Nat} {a : α} {t : List α}
    (h : l.drop i = a :: t) : i < l.length := by
  rcases Nat.lt_or_ge i l.length with h' | h'
  · exact h'
  · rw [List.drop_eq_nil_of_le h'] at h; simp at h

theorem Str.at_drop {l : List Byte} {i : Nat} {c : Byte} {t : List Byte} (h : l.drop i = c :: t) :
    Str.at l i = .ok c := Str.at_lt (get?_of_drop h)

theorem Str.at_drop_nil {l : List Byte} {i : Nat} (hi : i ≤ l.length) (h : l.drop i = []) :
    Str.at l i = .ok 0 := by
  have : l.length ≤ i := by simpa using h
  have : i = l.length := by omega
  subst this; exact Str.at_end

end Verif
