import Verif.MediaType.Model
import Verif.MediaType.Spec
import Verif.JString.Props
/-! # Lemmas about MediaType -/
namespace Verif.MediaType
open Verif.JString Spec

/-! ## One character -/

theorem findAux_char (c : Byte) (b : Str) : ∀ (a : Str) (k : Nat), c ∉ a → findAux [c] (a ++ c :: b) k = some (k + a.length) := by
  intro a
  induction a with
  | nil => intro k _; simp [findAux, prefixB]
  | cons x a ih =>
    intro k h
    rw [List.mem_cons, not_or] at h
    rw [List.cons_append, findAux, if_neg (by simp [prefixB, h.1]), ih (k + 1) h.2, List.length_cons]
    congr 1
    omega

theorem findAux_absent (c : Byte) : ∀ (a : Str) (k : Nat), c ∉ a → findAux [c] a k = none := by
  intro a
  induction a with
  | nil => intro k _; rfl
  | cons x a ih =>
    intro k h
    rw [List.mem_cons, not_or] at h
    rw [findAux, if_neg (by simp [prefixB, h.1]), ih (k + 1) h.2]

theorem find_char (c : Byte) (a b : Str) (h : c ∉ a) : find (a ++ c :: b) [c] 0 = some a.length := by
  unfold find
  rw [if_pos (by omega), List.drop_zero, findAux_char c b a 0 h, Nat.zero_add]

theorem find_absent (c : Byte) (a : Str) (h : c ∉ a) : find a [c] 0 = none := by
  unfold find
  rw [if_pos (by omega), List.drop_zero, findAux_absent c a 0 h]

theorem indexOf_semi (a b : Str) (h : chr ';' ∉ a) : indexOf (a ++ chr ';' :: b) (txt ";") = a.length := by
  unfold indexOf
  rw [if_neg (by simp [txt])]
  show posOrNeg (find _ [chr ';'] 0) = _
  rw [find_char _ _ _ h]
  rfl

theorem indexOf_no_semi (a : Str) (h : chr ';' ∉ a) : indexOf a (txt ";") = -1 := by
  unfold indexOf
  by_cases h0 : a.length = 0
  · rw [if_pos (Or.inl h0)]
  · rw [if_neg (by simp [txt]; simpa using h0)]
    show posOrNeg (find _ [chr ';'] 0) = _
    rw [find_absent _ _ h]
    rfl

theorem indexOfChar_at (n : Nat) (c : Byte) (hc : (BitVec.ofNat 32 n).setWidth 8 = c) (h0 : c ≠ 0) (a b : Str) (h : c ∉ a) :
    indexOfChar (a ++ c :: b) (BitVec.ofNat 32 n) = a.length := by
  unfold indexOfChar
  rw [hc]
  simp only
  rw [if_neg h0, find_char _ _ _ h]
  rfl

theorem indexOfChar_absent (n : Nat) (c : Byte) (hc : (BitVec.ofNat 32 n).setWidth 8 = c) (h0 : c ≠ 0) (a : Str) (h : c ∉ a) :
    indexOfChar a (BitVec.ofNat 32 n) = -1 := by
  unfold indexOfChar
  rw [hc]
  simp only
  rw [if_neg h0, find_absent _ _ h]
  rfl

theorem subString_left (a b : Str) : subString (a ++ b) 0 a.length = .ok a := by
  unfold subString
  rw [if_neg (by simp only [List.length_append]; omega)]
  unfold substr
  rw [if_pos (by simp)]
  simp

theorem subString_right (a b : Str) : subStringFrom (a ++ b) a.length = .ok b := by
  unfold subStringFrom subString
  rw [if_neg (by simp only [List.length_append]; omega)]
  unfold substr
  rw [if_pos (by simp)]
  have : ((((a ++ b).length : Nat) : Int) - (a.length : Nat)).toNat = b.length := by rw [List.length_append]; omega
  rw [this]
  simp

/-- Cut at the first occurrence of a character. -/
theorem cut (c : Byte) (s : Str) : c ∉ s ∨ ∃ a b, s = a ++ c :: b ∧ c ∉ a := by
  induction s with
  | nil => exact Or.inl (by simp)
  | cons x s ih =>
    by_cases hx : x = c
    · exact Or.inr ⟨[], s, by simp [hx], by simp⟩
    · rcases ih with h | ⟨a, b, rfl, h⟩
      · exact Or.inl (by rw [List.mem_cons, not_or]; exact ⟨fun e => hx e.symm, h⟩)
      · exact Or.inr ⟨x :: a, b, rfl, by rw [List.mem_cons, not_or]; exact ⟨fun e => hx e.symm, h⟩⟩

/-- Every text is spaces, a text without spaces at its ends, and spaces. -/
theorem strip_left (s : Str) : ∃ n t, s = List.replicate n (chr ' ') ++ t ∧ t.head? ≠ some (chr ' ') := by
  induction s with
  | nil => exact ⟨0, [], rfl, by simp⟩
  | cons x s ih =>
    by_cases hx : x = chr ' '
    · obtain ⟨n, t, h1, h2⟩ := ih
      exact ⟨n + 1, t, by rw [List.replicate_succ, List.cons_append, ← h1, hx], h2⟩
    · exact ⟨0, x :: s, rfl, by simpa using hx⟩

theorem strip (s : Str) : ∃ n m t, s = List.replicate n (chr ' ') ++ t ++ List.replicate m (chr ' ') ∧ t.head? ≠ some (chr ' ') ∧
    t.getLast? ≠ some (chr ' ') := by
  obtain ⟨n, t, h1, h2⟩ := strip_left s
  obtain ⟨m, u, h3, h4⟩ := strip_left t.reverse
  have ht : t = u.reverse ++ List.replicate m (chr ' ') := by
    have := congrArg List.reverse h3
    rwa [List.reverse_reverse, List.reverse_append, List.reverse_replicate] at this
  refine ⟨n, m, u.reverse, by rw [h1, ht, List.append_assoc], ?_, by rw [List.getLast?_reverse]; exact h4⟩
  cases hu : u.reverse with
  | nil => simp
  | cons x r =>
    rw [ht, hu] at h2
    simpa using h2

/-! ## valueOf -/

/-- What `valueOf` does with the text between the spaces. -/
def parseBody (body : Str) : Outcome MediaType :=
  if body.isEmpty then .throw .mediaType
  else
    let fullType := if equals body star then txt "*/*" else body
    let splashIndex := indexOfChar fullType (BitVec.ofNat 32 47)
    if splashIndex = -1 then .throw .mediaType
    else if splashIndex = (fullType.length : Int) - 1 then .throw .mediaType
    else do
      let getType ← subString fullType 0 splashIndex
      let getSubtype ← subStringFrom fullType (splashIndex + 1)
      if equals getType star && !equals getSubtype star then .throw .mediaType
      else make getType getSubtype

theorem valueOf_body (n m : Nat) (body ps : Str) (hsemi : chr ';' ∉ body) (hp : ps = [] ∨ ∃ p, ps = chr ';' :: p)
    (hh : body.head? ≠ some (chr ' ')) (hl : body.getLast? ≠ some (chr ' ')) :
    valueOf (List.replicate n (chr ' ') ++ body ++ List.replicate m (chr ' ') ++ ps) = parseBody body := by
  have hno : chr ';' ∉ List.replicate n (chr ' ') ++ body ++ List.replicate m (chr ' ') := by
    rw [List.mem_append, List.mem_append, List.mem_replicate, List.mem_replicate]
    rintro ((⟨_, h⟩ | h) | ⟨_, h⟩)
    · exact absurd h (by decide)
    · exact hsemi h
    · exact absurd h (by decide)
  have htrim := C37_trim n m body hh hl
  generalize hq : List.replicate n (chr ' ') ++ body ++ List.replicate m (chr ' ') = q at *
  unfold valueOf
  by_cases he : (q ++ ps).isEmpty
  · rw [if_pos he]
    have h0 : q = [] := by
      rw [List.isEmpty_iff, List.append_eq_nil_iff] at he
      exact he.1
    have hb : body = [] := by
      rw [h0, List.append_eq_nil_iff, List.append_eq_nil_iff] at hq
      exact hq.1.2
    rw [hb]
    rfl
  · rw [if_neg he]
    rcases hp with rfl | ⟨p, rfl⟩
    · simp only [List.append_nil]
      rw [indexOf_no_semi q hno, if_neg (by decide), Outcome.bind_eq, Outcome.bind_ok, htrim, Outcome.bind_eq, Outcome.bind_ok]
      rfl
    · simp only
      rw [indexOf_semi q p hno, if_pos (by omega), subString_left, Outcome.bind_eq, Outcome.bind_ok, htrim, Outcome.bind_eq, Outcome.bind_ok]
      rfl

theorem parseBody_none (body : Str) (hs : body ≠ txt "*") (h : chr '/' ∉ body) : parseBody body = .throw .mediaType := by
  unfold parseBody
  by_cases he : body.isEmpty
  · rw [if_pos he]
  · rw [if_neg he]
    have hns : equals body star = false := by
      unfold equals star
      simpa using hs
    simp only [hns, Bool.false_eq_true, if_false]
    rw [if_pos (indexOfChar_absent 47 (chr '/') (by decide) (by decide) body h)]

theorem make_ok (t u : Str) (h : Valid t u) : make t u = .ok ⟨t, u⟩ := by
  obtain ⟨h1, h2, h3⟩ := h
  unfold make equals star
  rw [if_neg (by simpa using h1), if_neg (by simpa using h2), if_neg]
  simp only [Bool.and_eq_true, beq_iff_eq, Bool.not_eq_true', beq_eq_false_iff_ne, not_and, Classical.not_not]
  exact h3

theorem make_bad (t u : Str) (h : ¬ Valid t u) : make t u = .throw .mediaType := by
  unfold make equals star
  by_cases h1 : t = []
  · rw [if_pos (by simpa using h1)]
  · rw [if_neg (by simpa using h1)]
    by_cases h2 : u = []
    · rw [if_pos (by simpa using h2)]
    · rw [if_neg (by simpa using h2)]
      have h3 : t = txt "*" ∧ u ≠ txt "*" := by
        unfold Valid at h
        refine Classical.byContradiction fun hc => h ⟨h1, h2, fun ht => ?_⟩
        exact Classical.byContradiction fun hu => hc ⟨ht, hu⟩
      rw [if_pos (by simp [h3.1, h3.2])]

theorem make_ne (t u : Str) (h : ¬ make t u = .throw .mediaType) : Valid t u :=
  Classical.byContradiction fun hc => h (make_bad t u hc)

theorem parseBody_cut (t u : Str) (h : chr '/' ∉ t) : parseBody (t ++ [chr '/'] ++ u) = make t u := by
  unfold parseBody
  have he : ¬ (t ++ [chr '/'] ++ u).isEmpty := by simp
  have hns : equals (t ++ [chr '/'] ++ u) star = false := by
    unfold equals star
    cases t with
    | nil => simp [txt, chr]
    | cons x t => cases t <;> simp [txt]
  rw [if_neg he]
  simp only [hns, Bool.false_eq_true, if_false]
  have hi : indexOfChar (t ++ [chr '/'] ++ u) (BitVec.ofNat 32 47) = t.length := by
    rw [List.append_assoc]
    exact indexOfChar_at 47 (chr '/') (by decide) (by decide) t u h
  rw [hi, if_neg (by omega)]
  by_cases hu : u = []
  · subst hu
    rw [if_pos (by simp only [List.length_append, List.length_singleton, List.length_nil]; omega)]
    exact (make_bad t [] fun hv => hv.2.1 rfl).symm
  · have : 0 < u.length := List.length_pos_iff.mpr hu
    rw [if_neg (by simp only [List.length_append, List.length_singleton]; omega)]
    have e1 : subString (t ++ [chr '/'] ++ u) 0 t.length = .ok t := by rw [List.append_assoc]; exact subString_left t _
    have e2 : subStringFrom (t ++ [chr '/'] ++ u) ((t.length : Int) + 1) = .ok u := by
      have := subString_right (t ++ [chr '/']) u
      rwa [List.length_append, List.length_singleton, Int.natCast_add] at this
    rw [e1, Outcome.bind_eq, Outcome.bind_ok, e2, Outcome.bind_eq, Outcome.bind_ok]
    by_cases hc : equals t star && !equals u star
    · rw [if_pos hc]
      refine (make_bad t u ?_).symm
      unfold equals star at hc
      simp only [Bool.and_eq_true, beq_iff_eq, Bool.not_eq_true', beq_eq_false_iff_ne] at hc
      exact fun hv => hc.2 (hv.2.2 hc.1)
    · rw [if_neg hc]

theorem parseBody_star : parseBody (txt "*") = .ok any := by decide

end Verif.MediaType
