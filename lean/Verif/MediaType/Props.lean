import Verif.MediaType.Lemmas
/-! # Properties of MediaType -/
namespace Verif.MediaType
open Verif.JString Spec

/-! ## C86: reading -/

theorem valid_star : Valid (txt "*") (txt "*") := ⟨by decide, by decide, fun _ => rfl⟩

theorem parseBody_iff (body : Str) (m : MediaType) : parseBody body = .ok m ↔
    (body = txt "*" ∧ m.type = txt "*" ∧ m.subtype = txt "*") ∨
      (body = m.type ++ [chr '/'] ++ m.subtype ∧ chr '/' ∉ m.type ∧ Valid m.type m.subtype) := by
  constructor
  · intro h
    by_cases hs : body = txt "*"
    · rw [hs, parseBody_star] at h
      cases h
      exact Or.inl ⟨hs, rfl, rfl⟩
    · rcases cut (chr '/') body with hc | ⟨t, u, rfl, hc⟩
      · rw [parseBody_none body hs hc] at h; cases h
      · have e : t ++ chr '/' :: u = t ++ [chr '/'] ++ u := by simp
        rw [e, parseBody_cut t u hc] at h
        have hv := make_ne t u (by rw [h]; simp)
        rw [make_ok t u hv] at h
        cases h
        exact Or.inr ⟨e, hc, hv⟩
  · rintro (⟨rfl, h1, h2⟩ | ⟨rfl, h1, h2⟩)
    · rw [parseBody_star]
      obtain ⟨t, u⟩ := m
      simp only at h1 h2
      subst h1 h2
      rfl
    · rw [parseBody_cut _ _ h1, make_ok _ _ h2]

theorem parseBody_total (body : Str) : (∃ m, parseBody body = .ok m) ∨ parseBody body = .throw .mediaType := by
  by_cases hs : body = txt "*"
  · exact Or.inl ⟨any, by rw [hs, parseBody_star]⟩
  · rcases cut (chr '/') body with hc | ⟨t, u, rfl, hc⟩
    · exact Or.inr (parseBody_none body hs hc)
    · have e : t ++ chr '/' :: u = t ++ [chr '/'] ++ u := by simp
      rw [e, parseBody_cut t u hc]
      by_cases hv : Valid t u
      · exact Or.inl ⟨_, make_ok t u hv⟩
      · exact Or.inr (make_bad t u hv)

theorem decompose (s : Str) : ∃ (n m : Nat) (body ps : Str), s = List.replicate n (chr ' ') ++ body ++ List.replicate m (chr ' ') ++ ps ∧
    chr ';' ∉ body ∧ (ps = [] ∨ ∃ p, ps = chr ';' :: p) ∧ body.head? ≠ some (chr ' ') ∧ body.getLast? ≠ some (chr ' ') := by
  rcases cut (chr ';') s with hc | ⟨a, b, rfl, hc⟩
  · obtain ⟨n, m, t, h1, h2, h3⟩ := strip s
    refine ⟨n, m, t, [], by rw [List.append_nil]; exact h1, ?_, Or.inl rfl, h2, h3⟩
    rw [h1] at hc
    exact fun h => hc (List.mem_append_left _ (List.mem_append_right _ h))
  · obtain ⟨n, m, t, h1, h2, h3⟩ := strip a
    refine ⟨n, m, t, chr ';' :: b, by rw [← h1], ?_, Or.inr ⟨b, rfl⟩, h2, h3⟩
    rw [h1] at hc
    exact fun h => hc (List.mem_append_left _ (List.mem_append_right _ h))

/-- `valueOf` accepts exactly the texts of media types, and gives type and subtype. -/
theorem C86_valueOf (s : Str) (m : MediaType) : valueOf s = .ok m ↔ Parses s m.type m.subtype := by
  constructor
  · intro h
    obtain ⟨n, k, body, ps, h1, h2, h3, h4, h5⟩ := decompose s
    rw [h1, valueOf_body n k body ps h2 h3 h4 h5] at h
    exact ⟨n, k, body, ps, h1, h2, h3, h4, h5, (parseBody_iff body m).mp h⟩
  · rintro ⟨n, k, body, ps, h1, h2, h3, h4, h5, h6⟩
    rw [h1, valueOf_body n k body ps h2 h3 h4 h5]
    exact (parseBody_iff body m).mpr h6

/-- Every other text is refused with a MediaTypeException. -/
theorem C86_refuse (s : Str) (h : ∀ t u, ¬ Parses s t u) : valueOf s = .throw .mediaType := by
  obtain ⟨n, k, body, ps, h1, h2, h3, h4, h5⟩ := decompose s
  rcases parseBody_total body with ⟨m, hm⟩ | hm
  · exact absurd ((C86_valueOf s m).mp (by rw [h1, valueOf_body n k body ps h2 h3 h4 h5, hm])) (h _ _)
  · rw [h1, valueOf_body n k body ps h2 h3 h4 h5, hm]

example : Parses (txt "  text/plain ; charset=x") (txt "text") (txt "plain") :=
  ⟨2, 1, txt "text/plain", txt "; charset=x", by decide, by decide, Or.inr ⟨txt " charset=x", by decide⟩, by decide, by decide,
    Or.inr ⟨by decide, by decide, by decide, by decide, by decide⟩⟩
example : ∀ t u, ¬ Parses (txt "text") t u := by
  intro t u h
  have := (C86_valueOf (txt "text") ⟨t, u⟩).mpr h
  rw [show valueOf (txt "text") = .throw .mediaType by decide] at this
  cases this

/-- The constructor takes exactly the valid pairs. -/
theorem C86_make (t u : Str) : (Valid t u → make t u = .ok ⟨t, u⟩) ∧ (¬ Valid t u → make t u = .throw .mediaType) :=
  ⟨make_ok t u, make_bad t u⟩

/-! ## C53: writing and reading -/

theorem cstr_no_nul (s : Str) : (0 : Byte) ∉ cstr s := fun h => cstr_nozero s 0 h rfl

theorem valid_of_parses {s t u : Str} (h : Parses s t u) : Valid t u := by
  obtain ⟨_, _, _, _, _, _, _, _, _, h6 | h6⟩ := h
  · rw [h6.2.1, h6.2.2]; exact valid_star
  · exact h6.2.2

theorem clean_of_parses {s t u : Str} (h : Parses s t u) (hz : (0 : Byte) ∉ s) : Clean t u := by
  obtain ⟨n, m, body, ps, h1, h2, h3, h4, h5, h6⟩ := h
  rcases h6 with ⟨_, rfl, rfl⟩ | ⟨h6, h7, h8⟩
  · exact ⟨by decide, by decide, by decide, by decide, by decide, by decide, by decide⟩
  · have hb : (0 : Byte) ∉ body := by
      rw [h1] at hz
      exact fun h => hz (List.mem_append_left _ (List.mem_append_left _ (List.mem_append_right _ h)))
    rw [h6] at h2 hb h4 h5
    refine ⟨h7, fun h => h2 (by simp [h]), fun h => h2 (by simp [h]), fun h => hb (List.mem_append_left _ (List.mem_append_left _ h)), fun h => hb (List.mem_append_right _ h), ?_, ?_⟩
    · cases t with
      | nil => simp
      | cons x t => simpa using h4
    · intro hl
      apply h5
      rw [List.getLast?_append, hl]
      rfl

theorem parses_of_clean {t u : Str} (hv : Valid t u) (hc : Clean t u) : Parses (t ++ [chr '/'] ++ u) t u := by
  obtain ⟨c1, c2, c3, c4, c5, c6, c7⟩ := hc
  refine ⟨0, 0, t ++ [chr '/'] ++ u, [], by simp, ?_, Or.inl rfl, ?_, ?_, Or.inr ⟨rfl, c1, hv⟩⟩
  · rw [List.mem_append, List.mem_append, List.mem_singleton]
    rintro ((h | h) | h)
    · exact c2 h
    · exact absurd h (by decide)
    · exact c3 h
  · cases ht : t with
    | nil => exact absurd ht hv.1
    | cons x r =>
      rw [ht] at c6
      simpa using c6
  · rw [List.getLast?_append]
    cases hu : u.getLast? with
    | none => rw [List.getLast?_eq_none_iff] at hu; exact absurd hu hv.2.1
    | some x =>
      rw [hu] at c7
      simpa using c7

/-- A media type that can be constructed survives `valueOf(toString())` exactly if
its type holds no slash, neither part a semicolon or a NUL, and no space begins or ends it. -/
theorem C53_roundtrip_partial (t u : Str) (m : MediaType) (h : make t u = .ok m) : valueOf (toString m) = .ok m ↔ Clean t u := by
  have hv : Valid t u := make_ne t u (by rw [h]; simp)
  rw [make_ok t u hv] at h
  cases h
  rw [C86_valueOf]
  unfold toString
  simp only
  constructor
  · intro hp
    exact clean_of_parses hp (cstr_no_nul _)
  · intro hc
    have e : t ++ txt "/" ++ u = t ++ [chr '/'] ++ u := rfl
    rw [e, cstr_eq_self]
    · exact parses_of_clean hv hc
    · obtain ⟨_, _, _, c4, c5, _, _⟩ := hc
      rw [List.mem_append, List.mem_append, List.mem_singleton]
      rintro ((h | h) | h)
      · exact c4 h
      · exact absurd h (by decide)
      · exact c5 h

/-- So the claim is false, for instance of the type `a/b`. -/
theorem C53_roundtrip_wrong : ∃ t u m, make t u = .ok m ∧ valueOf (toString m) ≠ .ok m :=
  ⟨txt "a/b", txt "c", _, rfl, by decide⟩

example : Clean (txt "application") (txt "atom+xml") := ⟨by decide, by decide, by decide, by decide, by decide, by decide, by decide⟩

/-- What was read from a text without NUL is written and read back unchanged. -/
theorem C87_stable (s : Str) (hz : (0 : Byte) ∉ s) (m : MediaType) (h : valueOf s = .ok m) : valueOf (toString m) = .ok m := by
  have hp := (C86_valueOf s m).mp h
  exact (C53_roundtrip_partial m.type m.subtype m (make_ok _ _ (valid_of_parses hp))).mpr (clean_of_parses hp hz)

example : (0 : Byte) ∉ txt " */* " ∧ valueOf (txt " */* ") = .ok any := by decide

/-! ## C53: compatibility -/

theorem wildSub (m : MediaType) : ∃ b, isWildcardSubtype m = .ok b ∧ (b = true ↔ m.subtype = txt "*" ∨ ∃ x, SuffixWildcard m.subtype x) := by
  unfold isWildcardSubtype
  by_cases h : m.subtype = txt "*"
  · refine ⟨true, ?_, by simp [h]⟩
    unfold equals star
    rw [if_pos (by simpa using h)]
  · obtain ⟨b, h1, h2⟩ := C32_startsWith m.subtype (txt "*+")
    refine ⟨b, ?_, ?_⟩
    · unfold equals star
      rw [if_neg (by simpa using h)]
      exact h1
    · rw [h2]
      constructor
      · rintro ⟨a, c, hc, ha⟩
        rw [List.length_eq_zero_iff] at ha
        subst ha
        exact Or.inr ⟨c, by unfold SuffixWildcard; rw [hc]; rfl⟩
      · rintro (hc | ⟨x, hx⟩)
        · exact absurd hc h
        · exact ⟨[], x, by unfold SuffixWildcard at hx; rw [hx]; rfl, rfl⟩

/-- Compatible with itself. -/
theorem C88_reflexive (m : MediaType) : isCompatible m m = .ok true := by
  unfold isCompatible
  obtain ⟨b, h1, _⟩ := wildSub m
  have e : equals m.type m.type = true := by unfold equals; simp
  have e' : equals m.subtype m.subtype = true := by unfold equals; simp
  rw [e, h1]
  simp only [Bool.not_true, Bool.and_false, Bool.false_eq_true, if_false, Outcome.bind_eq, Outcome.bind_ok, e', Bool.and_self, if_true]
  cases isWildcardType m || b <;> rfl

theorem suffix_unique {p q x y : Str} (hp : chr '+' ∉ p) (hq : chr '+' ∉ q) (h : p ++ chr '+' :: x = q ++ chr '+' :: y) : p = q ∧ x = y := by
  have := find_char (chr '+') p x hp
  rw [h, find_char (chr '+') q y hq] at this
  have hl : p.length = q.length := (Option.some.inj this).symm
  obtain ⟨h1, h2⟩ := List.append_inj h hl
  exact ⟨h1, by simpa using h2⟩

theorem suffixes_both (t t' p q x y : Str) (hp : chr '+' ∉ p) (hq : chr '+' ∉ q) :
    suffixes ⟨t, p ++ chr '+' :: x⟩ ⟨t', q ++ chr '+' :: y⟩ = .ok (x == y && (p == star || q == star)) := by
  unfold suffixes
  simp only
  rw [indexOfChar_at 43 (chr '+') (by decide) (by decide) p x hp, indexOfChar_at 43 (chr '+') (by decide) (by decide) q y hq,
    if_neg (by omega), if_pos (by omega), subString_left, Outcome.bind_eq, Outcome.bind_ok, subString_left, Outcome.bind_eq, Outcome.bind_ok,
    subString_right, Outcome.bind_eq, Outcome.bind_ok, subString_right, Outcome.bind_eq, Outcome.bind_ok]
  have e : equals (chr '+' :: x) (chr '+' :: y) = (x == y) := by
    unfold equals
    rw [List.cons_beq_cons, beq_self_eq_true, Bool.true_and]
  rw [e]
  rfl

theorem suffixes_none (a b : MediaType) (h : chr '+' ∉ a.subtype) (h' : chr '+' ∉ b.subtype) : suffixes a b = .ok true := by
  unfold suffixes
  simp only
  rw [indexOfChar_absent 43 (chr '+') (by decide) (by decide) _ h, indexOfChar_absent 43 (chr '+') (by decide) (by decide) _ h', if_pos ⟨rfl, rfl⟩]

theorem suffixes_left (a b : MediaType) (p x : Str) (ha : a.subtype = p ++ chr '+' :: x) (hp : chr '+' ∉ p) (h' : chr '+' ∉ b.subtype) :
    suffixes a b = .ok false := by
  unfold suffixes
  simp only
  rw [ha, indexOfChar_at 43 (chr '+') (by decide) (by decide) p x hp, indexOfChar_absent 43 (chr '+') (by decide) (by decide) _ h', if_neg (by omega),
    if_neg (by omega)]

theorem suffixes_right (a b : MediaType) (p x : Str) (hb : b.subtype = p ++ chr '+' :: x) (hp : chr '+' ∉ p) (h' : chr '+' ∉ a.subtype) :
    suffixes a b = .ok false := by
  unfold suffixes
  simp only
  rw [hb, indexOfChar_at 43 (chr '+') (by decide) (by decide) p x hp, indexOfChar_absent 43 (chr '+') (by decide) (by decide) _ h', if_neg (by omega),
    if_neg (by omega)]

theorem wildType (m : MediaType) : isWildcardType m = true ↔ m.type = txt "*" := by
  unfold isWildcardType equals star
  simp

theorem compat_types (a b : MediaType) (h1 : a.type ≠ txt "*") (h2 : b.type ≠ txt "*") (h : a.type ≠ b.type) : isCompatible a b = .ok false := by
  have w1 : isWildcardType a = false := by rw [← Bool.not_eq_true, wildType]; exact h1
  have w2 : isWildcardType b = false := by rw [← Bool.not_eq_true, wildType]; exact h2
  have e : equals a.type b.type = false := by unfold equals; simpa using h
  unfold isCompatible
  rw [w1, w2, e]
  rfl

theorem compat_any (a b : MediaType) (h : a.type = txt "*") : isCompatible a b = .ok true := by
  have w1 : isWildcardType a = true := by rw [wildType]; exact h
  obtain ⟨b', hb, _⟩ := wildSub b
  unfold isCompatible
  rw [w1, hb]
  rfl

theorem compat_wild (a b : MediaType) (h : a.type = b.type ∨ b.type = txt "*") (hb : b.subtype = txt "*" ∨ ∃ x, SuffixWildcard b.subtype x) :
    isCompatible a b = .ok true := by
  obtain ⟨b', h1, h2⟩ := wildSub b
  have hb' : b' = true := h2.mpr hb
  subst hb'
  have hc : (!isWildcardType a && !isWildcardType b && !equals a.type b.type) = false := by
    rcases h with h | h
    · unfold equals; simp [h]
    · rw [(wildType b).mpr h]; simp
  unfold isCompatible
  rw [hc, h1]
  simp

theorem compat_same (a b : MediaType) (h : a.type = b.type) (hw : a.type ≠ txt "*") (hb : ¬ (b.subtype = txt "*" ∨ ∃ x, SuffixWildcard b.subtype x)) :
    isCompatible a b = if a.subtype = b.subtype then .ok true else
      (isWildcardSubtype a).bind fun w => if w then suffixes a b else .ok false := by
  obtain ⟨b', h1, h2⟩ := wildSub b
  have hb' : b' = false := by rw [← Bool.not_eq_true, h2]; exact hb
  subst hb'
  have w1 : isWildcardType a = false := by rw [← Bool.not_eq_true, wildType]; exact hw
  have e : equals a.type b.type = true := by unfold equals; simpa using h
  unfold isCompatible
  rw [e, h1, w1]
  simp only [Bool.not_true, Bool.and_false, Bool.false_eq_true, if_false, Outcome.bind_eq, Outcome.bind_ok, Bool.or_false, Bool.true_and]
  unfold equals
  simp only [beq_iff_eq]

/-- The rule holds where the right-hand side is no wildcard with a suffix, and the
left-hand side not the wildcard against a subtype with a suffix. -/
theorem C53_compatible_partial (a b : MediaType) (hb : Valid b.type b.subtype) (h1 : ∀ x, ¬ SuffixWildcard b.subtype x)
    (h2 : a.subtype = txt "*" → chr '+' ∉ b.subtype) :
    ∃ r, isCompatible a b = .ok r ∧ (r = true ↔ Compatible a.type a.subtype b.type b.subtype) := by
  by_cases ha : a.type = txt "*"
  · exact ⟨true, compat_any a b ha, by simp [Compatible, ha]⟩
  by_cases hbt : b.type = txt "*"
  · exact ⟨true, compat_wild a b (Or.inr hbt) (Or.inl (hb.2.2 hbt)), by simp [Compatible, hbt]⟩
  by_cases hty : a.type = b.type
  rotate_left
  · exact ⟨false, compat_types a b ha hbt hty, by simp [Compatible, ha, hbt, hty]⟩
  by_cases hbs : b.subtype = txt "*"
  · exact ⟨true, compat_wild a b (Or.inl hty) (Or.inl hbs), by simp [Compatible, SubCompatible, hty, hbs]⟩
  have hnb : ¬ (b.subtype = txt "*" ∨ ∃ x, SuffixWildcard b.subtype x) := by
    rintro (h | ⟨x, h⟩)
    · exact hbs h
    · exact h1 x h
  rw [compat_same a b hty ha hnb]
  by_cases hs : a.subtype = b.subtype
  · exact ⟨true, by rw [if_pos hs], by simp [Compatible, SubCompatible, hty, hs]⟩
  rw [if_neg hs]
  obtain ⟨w, w1, w2⟩ := wildSub a
  rw [w1, Outcome.bind_ok]
  have hcomp : Compatible a.type a.subtype b.type b.subtype ↔
      a.subtype = txt "*" ∨ ∃ x p, SuffixWildcard a.subtype x ∧ b.subtype = p ++ chr '+' :: x ∧ chr '+' ∉ p := by
    unfold Compatible SubCompatible
    constructor
    · rintro (h | h | ⟨_, h | h | h | h | ⟨x, p, h, _⟩⟩)
      · exact absurd h ha
      · exact absurd h hbt
      · exact absurd h hs
      · exact Or.inl h
      · exact absurd h hbs
      · exact Or.inr h
      · exact absurd h (h1 x)
    · rintro (h | h)
      · exact Or.inr (Or.inr ⟨hty, Or.inr (Or.inl h)⟩)
      · exact Or.inr (Or.inr ⟨hty, Or.inr (Or.inr (Or.inr (Or.inl h)))⟩)
  rw [hcomp]
  cases w with
  | false =>
    have hna : ¬ (a.subtype = txt "*" ∨ ∃ x, SuffixWildcard a.subtype x) := by
      rw [← w2]; simp
    refine ⟨false, rfl, ?_⟩
    simp only [Bool.false_eq_true, false_iff]
    rintro (h | ⟨x, p, h, _⟩)
    · exact hna (Or.inl h)
    · exact hna (Or.inr ⟨x, h⟩)
  | true =>
    simp only [if_true]
    rcases w2.mp rfl with h | ⟨x, hx⟩
    · refine ⟨true, suffixes_none a b (by rw [h]; decide) (h2 h), by simp [h]⟩
    · have hne : a.subtype ≠ txt "*" := by
        unfold SuffixWildcard at hx
        rw [hx]
        simp [txt]
      have hstar : chr '+' ∉ txt "*" := by decide
      rcases cut (chr '+') b.subtype with hc | ⟨p, y, hp, hc⟩
      · refine ⟨false, suffixes_left a b (txt "*") x hx hstar hc, ?_⟩
        simp only [Bool.false_eq_true, false_iff]
        rintro (h | ⟨z, q, _, h, _⟩)
        · exact hne h
        · apply hc
          rw [h]
          simp
      · have e := suffixes_both a.type b.type (txt "*") p x y hstar hc
        have ea : a = ⟨a.type, txt "*" ++ chr '+' :: x⟩ := by
          obtain ⟨at', as⟩ := a
          simp only at hx
          unfold SuffixWildcard at hx
          rw [hx]
        have eb : b = ⟨b.type, p ++ chr '+' :: y⟩ := by
          obtain ⟨bt, bs⟩ := b
          simp only at hp
          rw [hp]
        rw [← ea, ← eb] at e
        refine ⟨_, e, ?_⟩
        simp only [star, beq_self_eq_true, Bool.true_or, Bool.and_true, beq_iff_eq]
        constructor
        · intro hxy
          exact Or.inr ⟨x, p, hx, by rw [hp, hxy], hc⟩
        · rintro (h | ⟨z, q, hz, h, hq⟩)
          · exact absurd h hne
          · unfold SuffixWildcard at hx hz
            have h3 := (suffix_unique hstar hstar (hx.symm.trans hz)).2
            have h4 := (suffix_unique hc hq (hp.symm.trans h)).2
            rw [h3, h4]

example : Valid (txt "a") (txt "b+c") ∧ (∀ x, ¬ SuffixWildcard (txt "b+c") x) ∧ (txt "*+c" = txt "*" → chr '+' ∉ txt "b+c") := by
  refine ⟨⟨by decide, by decide, by decide⟩, fun x h => ?_, by decide⟩
  have : some (chr 'b') = some (chr '*') := congrArg List.head? h
  exact absurd this (by decide)

/-- Not symmetric: for every type and every subtype with a suffix, `t/*` is not
compatible with `t/p+x`, which is compatible with it. -/
theorem C53_symmetric_wrong (t p x : Str) (ht : t ≠ txt "*") (hp : chr '+' ∉ p) (hp' : p ≠ txt "*") :
    isCompatible ⟨t, txt "*"⟩ ⟨t, p ++ chr '+' :: x⟩ = .ok false ∧ isCompatible ⟨t, p ++ chr '+' :: x⟩ ⟨t, txt "*"⟩ = .ok true := by
  have hstar : chr '+' ∉ txt "*" := by decide
  have hne : txt "*" ≠ p ++ chr '+' :: x := by
    intro h
    apply hstar
    rw [h]
    simp
  refine ⟨?_, compat_wild _ _ (Or.inl rfl) (Or.inl rfl)⟩
  rw [compat_same ⟨t, txt "*"⟩ ⟨t, p ++ chr '+' :: x⟩ rfl ht, if_neg hne, suffixes_right ⟨t, txt "*"⟩ ⟨t, p ++ chr '+' :: x⟩ p x rfl hp hstar]
  · rfl
  · rintro (h | ⟨y, h⟩)
    · exact hne h.symm
    · exact hp' (suffix_unique hp hstar h).1

/-- A wildcard with a suffix on the right-hand side goes with every subtype,
whatever its suffix. -/
theorem C53_suffix_wrong (t s x : Str) : isCompatible ⟨t, s⟩ ⟨t, txt "*" ++ chr '+' :: x⟩ = .ok true :=
  compat_wild _ _ (Or.inl rfl) (Or.inr ⟨x, rfl⟩)

example : txt "application" ≠ txt "*" ∧ chr '+' ∉ txt "atom" ∧ txt "atom" ≠ txt "*" := by decide

/-- Every media type goes with the wildcard, on both sides. -/
theorem C88_any (m : MediaType) : isCompatible any m = .ok true ∧ isCompatible m any = .ok true :=
  ⟨compat_any _ _ rfl, compat_wild _ _ (Or.inr rfl) (Or.inl rfl)⟩

/-- Without wildcards, compatible means equal. -/
theorem C88_plain (a b : MediaType) (ha : a.type ≠ txt "*") (hb : b.type ≠ txt "*") (ha1 : a.subtype ≠ txt "*") (hb1 : b.subtype ≠ txt "*")
    (ha2 : ∀ x, ¬ SuffixWildcard a.subtype x) (hb2 : ∀ x, ¬ SuffixWildcard b.subtype x) :
    ∃ r, isCompatible a b = .ok r ∧ (r = true ↔ a = b) := by
  by_cases hty : a.type = b.type
  rotate_left
  · exact ⟨false, compat_types a b ha hb hty, by simp only [Bool.false_eq_true, false_iff]; exact fun e => hty (by rw [e])⟩
  have hna : ¬ (a.subtype = txt "*" ∨ ∃ x, SuffixWildcard a.subtype x) := by
    rintro (h | ⟨x, h⟩)
    · exact ha1 h
    · exact ha2 x h
  have hnb : ¬ (b.subtype = txt "*" ∨ ∃ x, SuffixWildcard b.subtype x) := by
    rintro (h | ⟨x, h⟩)
    · exact hb1 h
    · exact hb2 x h
  obtain ⟨w, w1, w2⟩ := wildSub a
  have hw : w = false := by rw [← Bool.not_eq_true, w2]; exact hna
  subst hw
  rw [compat_same a b hty ha hnb]
  by_cases hs : a.subtype = b.subtype
  · refine ⟨true, by rw [if_pos hs], by simp only [true_iff]; cases a; cases b; simp_all⟩
  · refine ⟨false, by rw [if_neg hs, w1]; rfl, ?_⟩
    simp only [Bool.false_eq_true, false_iff]
    exact fun e => hs (by rw [e])

example : (∀ x, ¬ SuffixWildcard (txt "plain") x) := fun x h => absurd (show some (chr 'p') = some (chr '*') from congrArg List.head? h) (by decide)

end Verif.MediaType
