import Verif.UrlCodec.Model
import Verif.UrlCodec.Spec
/-! # Property theorems C05-C07 (URLEncoder / URLDecoder) -/
namespace Verif.UrlCodec
open Spec

/-! ## lemmas -/

/-- What one character contributes. -/
def enc1 (c : Byte) : List Byte :=
  if unreserved c then [c] else if c = chr ' ' then [chr '+']
  else [chr '%', charToHex (BitVec.ofNat 8 (c.toNat / 16)), charToHex c]

theorem enc_run (t : List Byte) : ∀ (rest : List Byte) (i : Nat) (res : List Byte) (fuel : Nat),
    t.drop i = rest → rest.length < fuel →
    iter (encBody t) fuel (i, res) = .ok (res ++ rest.flatMap enc1) := by
  intro rest
  induction rest with
  | nil =>
    intro i res fuel hd hf
    obtain ⟨f, rfl⟩ : ∃ f, fuel = f + 1 := ⟨fuel - 1, by simp at hf; omega⟩
    have : ¬ i < t.length := by have : t.length ≤ i := by simpa using hd
                                omega
    simp [iter, encBody, this]
  | cons c rest ih =>
    intro i res fuel hd hf
    obtain ⟨f, rfl⟩ : ∃ f, fuel = f + 1 := ⟨fuel - 1, by simp at hf; omega⟩
    have hlt := lt_of_drop hd
    have hat := Str.at_drop hd
    have ih' := fun r => ih (i + 1) r f (drop_next hd) (by simp at hf; omega)
    have hstep : encBody t (i, res) = .ok (.next (i + 1, res ++ enc1 c)) := by
      simp only [encBody, hlt, if_true, Outcome.bind_eq, hat, Outcome.bind_ok, enc1]
      split
      · rfl
      · split <;> rfl
    simp only [iter, hstep, ih', List.flatMap_cons, List.append_assoc]

theorem encode_eq (s : List Byte) : encode s = .ok ((cstr s).flatMap enc1) := by
  have h : (cstr (txt "UTF-8")).map toUpperB = txt "UTF-8" := by decide
  simp only [encode, encodeWith, h, if_true, urlEncode]
  rw [enc_run (cstr s) (cstr s) 0 [] _ rfl (by omega)]
  simp

theorem dec_esc : ∀ c : Byte,
    charToHex (BitVec.ofNat 8 (c.toNat / 16)) ≠ 0 ∧ charToHex c ≠ 0 ∧
    unhex .strict (charToHex (BitVec.ofNat 8 (c.toNat / 16))) (charToHex c) = .ok c ∧
    unhex .wrap (charToHex (BitVec.ofNat 8 (c.toNat / 16))) (charToHex c) = .ok c ∧
    Hex (charToHex (BitVec.ofNat 8 (c.toNat / 16))) ∧ Hex (charToHex c) := by
  refine byte_all ?_
  decide +kernel

theorem unres_facts : ∀ c : Byte,
    unreserved c = true → c ≠ chr '%' ∧ c ≠ chr '+' ∧ Plain c := by
  refine byte_all ?_
  decide +kernel

theorem dec_enc_run (m : Sem) (t : List Byte) : ∀ (s : List Byte) (i : Nat) (res : List Byte) (fuel : Nat),
    t.drop i = s.flatMap enc1 → (s.flatMap enc1).length < fuel →
    iter (decBody m t) fuel (i, res) = .ok (res ++ s) := by
  intro s
  induction s with
  | nil =>
    intro i res fuel hd hf
    obtain ⟨f, rfl⟩ : ∃ f, fuel = f + 1 := ⟨fuel - 1, by simp at hf; omega⟩
    have : ¬ i < t.length := by have : t.length ≤ i := by simpa using hd
                                omega
    simp [iter, decBody, this]
  | cons c s ih =>
    intro i res fuel hd hf
    obtain ⟨f, rfl⟩ : ∃ f, fuel = f + 1 := ⟨fuel - 1, by simp at hf; omega⟩
    have huf := unres_facts c
    have hde := dec_esc c
    simp only [List.flatMap_cons, enc1] at hd hf
    by_cases hu : unreserved c
    · simp only [hu, if_true, List.cons_append, List.nil_append] at hd hf
      obtain ⟨h1, h2, _⟩ := huf hu
      have hlt := lt_of_drop hd
      have hstep : decBody m t (i, res) = .ok (.next (i + 1, res ++ [c])) := by
        simp only [decBody, hlt, if_true, Outcome.bind_eq, Str.at_drop hd, Outcome.bind_ok, h1, h2, if_false]
      simp only [iter, hstep]
      rw [ih (i + 1) _ f (drop_next hd) (by simp only [List.length_cons] at hf; omega)]
      simp
    · by_cases hs : c = chr ' '
      · subst hs
        simp only [hu, Bool.false_eq_true, if_true, if_false, List.cons_append, List.nil_append] at hd hf
        have hlt := lt_of_drop hd
        have h1 : ¬ chr '+' = chr '%' := by decide
        have hstep : decBody m t (i, res) = .ok (.next (i + 1, res ++ [chr ' '])) := by
          simp only [decBody, hlt, if_true, Outcome.bind_eq, Str.at_drop hd, Outcome.bind_ok, h1, if_false]
        simp only [iter, hstep]
        rw [ih (i + 1) _ f (drop_next hd) (by simp only [List.length_cons] at hf; omega)]
        simp
      · simp only [hu, Bool.false_eq_true, hs, if_false, List.cons_append, List.nil_append] at hd hf
        have hlt := lt_of_drop hd
        have d1 := drop_next hd
        have d2 := drop_next d1
        obtain ⟨ha, hb, hv1, hv2, _⟩ := hde
        have hv : unhex m (charToHex (BitVec.ofNat 8 (c.toNat / 16))) (charToHex c) = .ok c := by
          cases m
          · exact hv1
          · exact hv2
        have hstep : decBody m t (i, res) = .ok (.next (i + 3, res ++ [c])) := by
          simp only [decBody, hlt, if_true, Outcome.bind_eq, Str.at_drop hd, Outcome.bind_ok, Str.at_drop d1,
            Str.at_drop d2, ne_eq, ha, hb, not_false_eq_true, hv]
        simp only [iter, hstep]
        rw [ih (i + 3) _ f (drop_next d2) (by simp only [List.length_cons] at hf; omega)]
        simp

theorem enc1_nozero : ∀ c : Byte, c ≠ 0 → (0 : Byte) ∉ enc1 c := by
  refine byte_all ?_
  decide +kernel

theorem enc_nozero (s : List Byte) (h : ∀ c ∈ s, c ≠ 0) : (0 : Byte) ∉ s.flatMap enc1 := by
  intro h0
  obtain ⟨c, hc, h0⟩ := List.mem_flatMap.mp h0
  exact enc1_nozero c (h c hc) h0

theorem decode_encode (m : Sem) (s : List Byte) (hs : ∀ c ∈ s, c ≠ 0) :
    decode m (s.flatMap enc1) = .ok s := by
  have h : (cstr (txt "UTF-8")).map toUpperB = txt "UTF-8" := by decide
  simp only [decode, decodeWith, h, if_true, urlDecode]
  rw [cstr_eq_self (enc_nozero s hs), dec_enc_run m (s.flatMap enc1) s 0 [] _ rfl (by omega)]
  simp

/-! ## C05 -/

/-- Full statement: `decode (encode s) = s` for every string.  It fails for
strings containing NUL (`C05_nul_truncates`); proved for all NUL-free strings,
under both readings of the C++ arithmetic. -/
theorem C05_url_round_trip_partial (m : Sem) (s : List Byte) (hs : (0 : Byte) ∉ s) :
    ∃ e, encode s = .ok e ∧ decode m e = .ok s := by
  refine ⟨_, encode_eq s, ?_⟩
  rw [cstr_eq_self hs]
  exact decode_encode m s (by intro c hc h; exact hs (h ▸ hc))

/-- In general the text before the first NUL comes back. -/
theorem C05_url_round_trip_cstr (m : Sem) (s : List Byte) :
    ∃ e, encode s = .ok e ∧ decode m e = .ok (s.takeWhile (· ≠ 0)) :=
  ⟨_, encode_eq s, decode_encode m _ (cstr_nozero s)⟩

theorem C05_nul_truncates : ∃ s e, encode s = .ok e ∧ decode .wrap e ≠ .ok s :=
  ⟨[65, 0, 66], [65], by decide +kernel, by decide +kernel⟩

example : encode (txt "a b&c") = .ok (txt "a+b%26c") ∧ decode .strict (txt "a+b%26c") = .ok (txt "a b&c") := by
  decide +kernel

/-- Any other encoding name is refused; names are compared case-insensitively. For names
in ASCII without NUL: `CaseText.C219_encoding_partial` and `C219_tail_wrong` have the others. -/
theorem C05_encoding_name (s e : List Byte) (m : Sem) (ha : ∀ b ∈ e, b ≠ 0 ∧ b.toNat < 128) :
    (e.map toUpperB = txt "UTF-8" → encodeWith s e = encode s ∧ decodeWith m s e = decode m s) ∧
    (e.map toUpperB ≠ txt "UTF-8" → encodeWith s e = .throw .unsupportedEncoding ∧
      decodeWith m s e = .throw .unsupportedEncoding) := by
  have h : (cstr (txt "UTF-8")).map toUpperB = txt "UTF-8" := by decide
  have hc : cstr e = e := by
    clear s m h
    induction e with
    | nil => rfl
    | cons a e ih =>
      have ha' := (ha a List.mem_cons_self).1
      have := ih fun b hb => ha b (List.mem_cons_of_mem _ hb)
      unfold cstr at this ⊢
      rw [List.takeWhile_cons_of_pos (by simpa using ha'), this]
  constructor
  · intro he; simp [encodeWith, encode, decodeWith, decode, hc, he, h]
  · intro he; simp [encodeWith, decodeWith, hc, he]

example : (txt "utf-8").map toUpperB = txt "UTF-8" ∧ ∀ b ∈ txt "utf-8", b ≠ 0 ∧ b.toNat < 128 := by decide

/-! ## C06 -/

theorem C06_url_safe_output (s e : List Byte) (h : encode s = .ok e) : WellFormed e := by
  rw [encode_eq] at h
  have : e = (cstr s).flatMap enc1 := (Outcome.ok.inj h).symm
  subst this
  induction cstr s with
  | nil => exact .nil
  | cons c s ih =>
    simp only [List.flatMap_cons, enc1]
    by_cases hu : unreserved c
    · simp only [hu, if_true, List.cons_append, List.nil_append]
      exact .plain _ _ (unres_facts c hu).2.2 ih
    · by_cases hsp : c = chr ' '
      · simp only [hu, Bool.false_eq_true, hsp, if_false, if_true, List.cons_append, List.nil_append]
        have : unreserved (chr ' ') = false := by decide
        simp only [this, Bool.false_eq_true, if_false]
        exact .plain _ _ (by decide) ih
      · simp only [hu, Bool.false_eq_true, hsp, if_false, List.cons_append, List.nil_append]
        obtain ⟨_, _, _, _, h1, h2⟩ := dec_esc c
        exact .escape _ _ _ h1 h2 ih

theorem C06_url_encode_total (s : List Byte) : ∃ e, encode s = .ok e := ⟨_, encode_eq s⟩

theorem C06_url_injective (s t : List Byte) (hs : (0 : Byte) ∉ s) (ht : (0 : Byte) ∉ t)
    (h : encode s = encode t) : s = t := by
  obtain ⟨e, he, hd⟩ := C05_url_round_trip_partial .wrap s hs
  obtain ⟨e', he', hd'⟩ := C05_url_round_trip_partial .wrap t ht
  rw [he, he'] at h
  have : e = e' := Outcome.ok.inj h
  subst this
  rw [hd] at hd'
  exact Outcome.ok.inj hd'

example : encode (txt "50% + x_y~z") = .ok (txt "50%25+%2b+x_y~z") := by decide +kernel

/-! ## C07 -/

/-- Decoding arbitrary text never leaves the string (an index beyond the
terminator is `ub` in the model), terminates, and never lengthens the text. -/
theorem C07_url_decode_safe (s : List Byte) :
    ∃ out, decode .wrap s = .ok out ∧ out.length ≤ s.length := by
  have h : (cstr (txt "UTF-8")).map toUpperB = txt "UTF-8" := by decide
  simp only [decode, decodeWith, h, if_true, urlDecode]
  have hlen : (cstr s).length ≤ s.length := (List.takeWhile_sublist _).length_le
  have := iter_ok (body := decBody .wrap (cstr s))
    (I := fun st => st.1 ≤ (cstr s).length ∧ st.2.length ≤ st.1)
    (Q := fun r => r.length ≤ (cstr s).length) (μ := fun st => (cstr s).length - st.1)
    (by
      rintro ⟨i, res⟩ ⟨h1, h2⟩
      simp only at h1 h2
      by_cases hi : i < (cstr s).length
      · left
        have hat : ∀ j, j ≤ (cstr s).length → ∃ c, Str.at (cstr s) j = .ok c ∧ (c ≠ 0 → j < (cstr s).length) := by
          intro j hj
          rcases Nat.lt_or_ge j (cstr s).length with hlt | hge
          · exact ⟨(cstr s)[j], Str.at_lt (by simp [hlt]), fun _ => hlt⟩
          · have : j = (cstr s).length := by omega
            subst this
            exact ⟨0, Str.at_end, fun h => absurd rfl h⟩
        obtain ⟨c, hc, _⟩ := hat i (by omega)
        obtain ⟨a, ha, ha'⟩ := hat (i + 1) (by omega)
        simp only [decBody, hi, if_true, Outcome.bind_eq, hc, Outcome.bind_ok, ha]
        by_cases hp : c = chr '%'
        · simp only [hp, if_true]
          by_cases ha0 : a = 0
          · subst ha0
            simp only [ne_eq, not_true_eq_false, if_false]
            exact ⟨_, rfl, ⟨by simp only; omega, by simp only; omega⟩, by simp only; omega⟩
          · simp only [ne_eq, ha0, not_false_eq_true, if_true]
            have := ha' ha0
            obtain ⟨b, hb, hb'⟩ := hat (i + 2) (by omega)
            simp only [hb, Outcome.bind_ok]
            by_cases hb0 : b = 0
            · subst hb0
              simp only [not_true_eq_false, if_false]
              exact ⟨_, rfl, ⟨by simp only; omega, by simp only; omega⟩, by simp only; omega⟩
            · have := hb' hb0
              simp only [hb0, not_false_eq_true, if_true, unhex, reduceCtorEq, false_and, if_false, Outcome.bind_ok]
              exact ⟨_, rfl, ⟨by simp only; omega, by simp; omega⟩, by simp only; omega⟩
        · by_cases hq : c = chr '+'
          · have : ¬ chr '+' = chr '%' := by decide
            simp only [hq, this, if_false, if_true]
            exact ⟨_, rfl, ⟨by simp only; omega, by simp; omega⟩, by simp only; omega⟩
          · simp only [hp, hq, if_false]
            exact ⟨_, rfl, ⟨by simp only; omega, by simp; omega⟩, by simp only; omega⟩
      · right
        simp only [decBody, hi, if_false]
        exact ⟨_, rfl, by omega⟩)
    ((cstr s).length + 1) (0, []) ⟨by simp, by simp⟩ (by simp)
  obtain ⟨r, hr, hq⟩ := this
  exact ⟨r, hr, by omega⟩

/-- Under ISO C++ a malformed escape can shift a negative value left. -/
theorem C07_strict_malformed_undefined : decode .strict (txt "%!0") = .ub := by decide +kernel

/-- What malformed escapes give: a trailing `%` or `%x` loses its percent sign,
and letters beyond `f` are accepted. -/
theorem C07_malformed_accepted : decode .wrap (txt "100%") = .ok (txt "100") ∧
    decode .wrap (txt "%4") = .ok (txt "4") ∧ decode .wrap (txt "%zz") = .ok [0x33] := by decide +kernel

end Verif.UrlCodec
