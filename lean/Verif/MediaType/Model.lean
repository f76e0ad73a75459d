import Verif.JString.Model
/-!
# MediaType

`/repo/library/Javax/Ws/Rs/Core/MediaType.cpp`. The parameters of a media type play
no part in the modelled functions and are left out, as are the texts of exceptions.
-/
namespace Verif.MediaType
open Verif.JString

/-- MediaType.hpp:154-155: the fields. -/
structure MediaType where
  type : Str
  subtype : Str
deriving DecidableEq, Repr

/-- MediaType.cpp:43: `MEDIA_TYPE_WILDCARD`. -/
def star : Str := txt "*"

/-- MediaType.cpp:64-67: the constructor without arguments. -/
def any : MediaType := ⟨star, star⟩

/-- MediaType.cpp:69-84: the constructor; lines 86-103, with parameters, make the same
checks. -/
def make (type subtype : Str) : Outcome MediaType :=
  if type.isEmpty then .throw .mediaType
  else if subtype.isEmpty then .throw .mediaType
  else if equals type star && !equals subtype star then .throw .mediaType
  else .ok ⟨type, subtype⟩

/-- MediaType.cpp:157-159 `isWildcardSubtype`. -/
def isWildcardSubtype (m : MediaType) : Outcome Bool :=
  if equals m.subtype star then .ok true else startsWith m.subtype (txt "*+")

/-- MediaType.cpp:161-163 `isWildcardType`. -/
def isWildcardType (m : MediaType) : Bool := equals m.type star

/-- MediaType.cpp:130-147: the comparison of subtypes with a suffix. -/
def suffixes (this other : MediaType) : Outcome Bool :=
  let thisPlusIndex := indexOfChar this.subtype (BitVec.ofNat 32 43)
  let otherPlusIndex := indexOfChar other.subtype (BitVec.ofNat 32 43)
  if thisPlusIndex = -1 ∧ otherPlusIndex = -1 then .ok true
  else if thisPlusIndex ≠ -1 ∧ otherPlusIndex ≠ -1 then do
    let subtypeBeforePlus ← subString this.subtype 0 thisPlusIndex
    let otherSubtypeBeforePlus ← subString other.subtype 0 otherPlusIndex
    let subtypeAfterPlus ← subStringFrom this.subtype thisPlusIndex
    let otherSubtypeAfterPlus ← subStringFrom other.subtype otherPlusIndex
    .ok (equals subtypeAfterPlus otherSubtypeAfterPlus && (equals subtypeBeforePlus star || equals otherSubtypeBeforePlus star))
  else .ok false

/-- MediaType.cpp:117-150 `isCompatible`. -/
def isCompatible (this other : MediaType) : Outcome Bool :=
  if !isWildcardType this && !isWildcardType other && !equals this.type other.type then .ok false
  else do
    let otherWild ← isWildcardSubtype other
    if isWildcardType this || otherWild then .ok true
    else if equals this.type other.type && equals this.subtype other.subtype then .ok true
    else do
      let thisWild ← isWildcardSubtype this
      if thisWild || otherWild then suffixes this other
      else .ok false

/-- MediaType.cpp:152-155 `toString`: a C string. -/
def toString (m : MediaType) : Str := cstr (m.type ++ txt "/" ++ m.subtype)

/-- MediaType.cpp:165-203 `valueOf`. -/
def valueOf (type : Str) : Outcome MediaType :=
  if type.isEmpty then .throw .mediaType
  else do
    let indexOfSemicolon := indexOf type (txt ";")
    let beforeSemicolon ← if indexOfSemicolon ≥ 0 then subString type 0 indexOfSemicolon else .ok type
    let fullType ← trim beforeSemicolon
    if fullType.isEmpty then .throw .mediaType
    else
      let fullType := if equals fullType star then txt "*/*" else fullType
      let splashIndex := indexOfChar fullType (BitVec.ofNat 32 47)
      if splashIndex = -1 then .throw .mediaType
      else if splashIndex = (fullType.length : Int) - 1 then .throw .mediaType
      else do
        let getType ← subString fullType 0 splashIndex
        let getSubtype ← subStringFrom fullType (splashIndex + 1)
        if equals getType star && !equals getSubtype star then .throw .mediaType
        else make getType getSubtype

end Verif.MediaType
