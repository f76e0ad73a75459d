import Verif.Base64.DecMain
/-!
# Property theorems C01-C04 (java.util.Base64)
-/
namespace Verif.Base64
open Spec

/-- ASCII text as bytes (for the worked examples). -/
def ascii (s : String) : List Byte := s.toList.map fun c => BitVec.ofNat 8 c.toNat

/-! ## C01 -/

/-- Decoding what a non-MIME encoder produced gives back the input, for both
alphabets, padded or not, for every input whose encoding fits a Java array. -/
theorem C01_base64_round_trip (url pad : Bool) (src : List Byte)
    (hmax : ((Spec.encode url pad src).length : Int) + 3 ≤ INT_MAX) :
    ∃ text, Encoder.encode .wrap ⟨url, [], -1, pad⟩ src = .ok text ∧
      Decoder.decode ⟨url, false⟩ text = .ok src := by
  refine ⟨Spec.encode url pad src, ?_, ?_⟩
  · exact encode_basic ⟨url, [], -1, pad⟩ src (show (-1 : Int) < 0 by decide)
      (show ((Spec.encode url pad src).length : Int) ≤ INT_MAX by omega)
  · exact (denotes_iff url _ src hmax).mpr (denotes_encode url pad src)

/-- The four public encoder/decoder pairs are instances. -/
example (src : List Byte) (h : ((Spec.encode true false src).length : Int) + 3 ≤ INT_MAX) :
    ∃ text, encRFC4648Url.withoutPadding.encode .wrap src = .ok text ∧
      decRFC4648Url.decode text = .ok src := C01_base64_round_trip true false src h

example : encRFC4648.encode .wrap (ascii "hello world") = .ok (ascii "aGVsbG8gd29ybGQ=") ∧
    decRFC4648.decode (ascii "aGVsbG8gd29ybGQ=") = .ok (ascii "hello world") := by decide +kernel

/-! ## C02 -/

/-- The encoder's output is the RFC 4648 encoding (`Spec.encode`). -/
theorem C02_base64_is_rfc4648 (url pad : Bool) (src : List Byte)
    (hmax : ((Spec.encode url pad src).length : Int) ≤ INT_MAX) :
    Encoder.encode .wrap ⟨url, [], -1, pad⟩ src = .ok (Spec.encode url pad src) :=
  encode_basic ⟨url, [], -1, pad⟩ src (show (-1 : Int) < 0 by decide) hmax

/-- Output length: `4*ceil(n/3)`, or without padding the unpadded length. -/
theorem C02_base64_length (url pad : Bool) (src : List Byte) :
    (Spec.encode url pad src).length =
      if pad then 4 * ((src.length + 2) / 3) else 4 * (src.length / 3) + (if src.length % 3 = 0 then 0 else src.length % 3 + 1) := by
  rw [encode_length]; split <;> (try split) <;> omega

/-- `withoutPadding` only drops the padding. -/
theorem C02_without_padding (url : Bool) (src : List Byte)
    (hmax : ((Spec.encode url true src).length : Int) ≤ INT_MAX) :
    ∃ n, (Encoder.encode .wrap ⟨url, [], -1, true⟩ src) = .ok (Spec.encode url false src ++ List.replicate n padChar) ∧
      (Encoder.withoutPadding ⟨url, [], -1, true⟩).encode .wrap src = .ok (Spec.encode url false src) ∧ n ≤ 2 := by
  have hle : (Spec.encode url false src).length ≤ (Spec.encode url true src).length := by
    simp [Spec.encode]
  refine ⟨(4 - (body url src).length % 4) % 4, ?_, ?_, ?_⟩
  · rw [C02_base64_is_rfc4648 url true src hmax]; simp [Spec.encode]
  · exact C02_base64_is_rfc4648 url false src (by omega)
  · rw [body_eq_enc, enc_length]; omega

example : Spec.encode false true (ascii "fo") = ascii "Zm8=" := by decide +kernel
example : Spec.encode true false [0xfb, 0xff] = ascii "-_8" := by decide +kernel

/-- What the source says under ISO C++: `destination[pos++]` is evaluated in a
sequence of statements reading `source[sp++]` several times in one expression
(Base64.cpp:169-171), which is unsequenced, so every input of three or more
bytes has undefined behaviour.  The theorems above use the order every
mainstream compiler emits. -/
theorem C02_strict_is_undefined : encRFC4648.encode .strict (ascii "abc") = .ub := by decide +kernel

/-! ## C03 -/

/-- Exact functional behaviour of the non-MIME decoders: they succeed exactly
on well-formed Base64 text and then return the bytes it denotes. -/
theorem C03_decode_exact (url : Bool) (src out : List Byte) (hmax : (src.length : Int) + 3 ≤ INT_MAX) :
    Decoder.decode ⟨url, false⟩ src = .ok out ↔ Denotes url src out :=
  denotes_iff url src out hmax

/-- Full statement: decoding is always a normal return or the documented
exception.  It is false (see `C03_decode_unsafe`): trailing input after the
padding at a position beyond 46 makes the code read outside a string literal.
Proved: that is the only way. -/
theorem C03_decode_safe_partial (url : Bool) (src : List Byte) (hmax : (src.length : Int) + 3 ≤ INT_MAX) :
    (∃ out, Decoder.decode ⟨url, false⟩ src = .ok out) ∨
    Decoder.decode ⟨url, false⟩ src = .throw .interrupted ∨
    (Decoder.decode ⟨url, false⟩ src = .ub ∧ 46 < src.length ∧
      ∃ i, i + 1 < src.length ∧ src[i]? = some padChar) := by
  obtain ⟨vs, rest, hv, hs, hns⟩ := split_syms url src
  have := decode_split url src hmax vs rest hv hs hns
  by_cases hg : GoodEnd vs.length rest
  · exact Or.inl ⟨_, this.1 hg⟩
  · exact Or.inr (this.2 hg)

/-- Inputs of at most 46 bytes, and inputs without `=`, are always safe. -/
theorem C03_decode_safe_short (url : Bool) (src : List Byte) (hmax : (src.length : Int) + 3 ≤ INT_MAX)
    (h : src.length ≤ 46 ∨ padChar ∉ src) : (Decoder.decode ⟨url, false⟩ src).Safe := by
  rcases C03_decode_safe_partial url src hmax with ⟨o, ho⟩ | ho | ⟨_, hl, i, _, hi⟩
  · rw [ho]; trivial
  · rw [ho]; trivial
  · rcases h with h | h
    · omega
    · exact absurd (List.mem_of_getElem? hi) h

/-- A byte outside the alphabet (and not `=`) anywhere makes decoding fail. -/
theorem C03_illegal_rejected (url : Bool) (src : List Byte) (hmax : (src.length : Int) + 3 ≤ INT_MAX)
    (c : Byte) (hc : c ∈ src) (hsym : ¬ IsSymbol url c) (hp : c ≠ padChar) :
    ∀ out, Decoder.decode ⟨url, false⟩ src ≠ .ok out := by
  intro out h
  obtain ⟨vs, pad, hv, hs, -, hpad, -⟩ := (denotes_iff url src out hmax).mp h
  rw [hs, List.mem_append] at hc
  rcases hc with hc | hc
  · obtain ⟨v, hv', rfl⟩ := List.mem_map.mp hc
    exact hsym ⟨v, hv v hv', rfl⟩
  · rcases hpad with rfl | rfl
    · simp at hc
    · exact hp (List.eq_of_mem_replicate hc)

/-- The counterexample to unrestricted safety: 48 symbols-and-padding followed
by one more character. -/
theorem C03_decode_unsafe :
    decRFC4648.decode (List.replicate 46 (ch 'A') ++ [ch '=', ch '=', ch 'A']) = .ub := by
  decide +kernel

example : decRFC4648.decode (ascii "QUJD*") = .throw .interrupted := by decide +kernel
example : (decRFC4648.decode (ascii "QQ==QQ==")).Safe :=
  C03_decode_safe_short false _ (by decide) (Or.inl (by decide))

/-! ## C04 -/

/-- The default MIME encoder, and every MIME encoder with a positive line
length (rounded down to a multiple of four) and separator, emits the RFC 4648
text cut into such lines.  The size bounds say that the result is an array. -/
theorem C04_mime_layout (sep src : List Byte) (K : Nat) (hK : 0 < K)
    (hmax : ((wrapped (4 * K) sep (Spec.encode false true src)).length : Int) ≤ INT_MAX)
    (hmax2 : (src.length : Int) + 3 * K ≤ INT_MAX) :
    Encoder.encode .wrap ⟨false, sep, ((4 * K : Nat) : Int), true⟩ src =
      .ok (wrapped (4 * K) sep (Spec.encode false true src)) :=
  encode_mime _ src K hK rfl hmax hmax2

/-- What `getMimeEncoder` returns for a legal separator and `lineLength ≥ 4`. -/
theorem C04_getMimeEncoder (n : Nat) (sep : List Byte)
    (hsep : ∀ b ∈ sep, ¬ IsSymbol false b ∧ b ≠ padChar) :
    getMimeEncoder n sep = .ok ⟨false, sep, ((4 * (n / 4) : Nat) : Int), true⟩ := by
  have hbad : sep.any (fun b => decide (fromBase64.getD b.toNat 0 ≠ -1)) = false := by
    rw [List.any_eq_false]
    intro b hb
    obtain ⟨h1, h2⟩ := hsep b hb
    have hof : BitVec.ofNat 8 b.toNat = b := by simp
    have hf : fromBase64[b.toNat]? = some (-1) := by
      rcases dec_table_facts false ⟨b.toNat, b.isLt⟩ with ⟨_, h⟩ | h | ⟨v, _, h⟩
      · exact absurd (hof ▸ h) h2
      · exact h
      · exact absurd ⟨v.val, v.isLt, hof ▸ h⟩ h1
    simp [List.getD, hf]
  unfold getMimeEncoder
  rw [hbad]
  simp only [Bool.false_eq_true, if_false]
  rw [if_neg (by omega)]
  congr 2; omega

/-- A separator containing an alphabet character is refused. -/
theorem C04_bad_separator (n : Int) (sep : List Byte) (b : Byte) (hb : b ∈ sep)
    (h : IsSymbol false b ∨ b = padChar) : getMimeEncoder n sep = .throw .interrupted := by
  have : sep.any (fun b => decide (fromBase64.getD b.toNat 0 ≠ -1)) = true := by
    rw [List.any_eq_true]
    refine ⟨b, hb, ?_⟩
    rcases h with ⟨v, hv, rfl⟩ | rfl
    · have := dec_symbol false ⟨v, hv⟩
      simp only [Decoder.table] at this
      have h2 : fromBase64[(symbol false v).toNat]? = some (v : Int) := this
      simp only [List.getD, h2]
      simp
    · decide +kernel
  unfold getMimeEncoder
  rw [this]; rfl

/-- No line of the layout is longer than `n`, and removing the separators
gives the text back. -/
theorem C04_lines (n : Nat) (hn : 0 < n) (text : List Byte) :
    (lines n text.length text).flatten = text ∧ (∀ l ∈ lines n text.length text, l.length ≤ n ∧ l ≠ []) := by
  have : ∀ (f : Nat) (l : List Byte), l.length ≤ f →
      (lines n f l).flatten = l ∧ (∀ x ∈ lines n f l, x.length ≤ n ∧ x ≠ []) := by
    intro f
    induction f with
    | zero => intro l h; have : l = [] := List.eq_nil_of_length_eq_zero (by omega); subst this; simp [lines]
    | succ f ih =>
      intro l h
      by_cases hl : l = []
      · subst hl; simp [lines]
      · have hpos : 0 < l.length := List.length_pos_iff.mpr hl
        have := ih (l.drop n) (by simp; omega)
        simp only [lines, hl, if_false, List.flatten_cons, this.1, List.take_append_drop, true_and,
          List.mem_cons]
        rintro x (rfl | hx)
        · refine ⟨by simp; omega, ?_⟩
          intro h0
          have := congrArg List.length h0
          simp at this
          rcases this with h1 | h1
          · omega
          · exact hl h1
        · exact this.2 x hx
  exact this _ _ (Nat.le_refl _)

/-- `getMimeEncoder(lineLength, sep)` with `0 ≤ lineLength < 4` gives an encoder
that fails on ordinary inputs. -/
theorem C04_small_line_fails :
    (Encoder.encode .wrap ⟨false, [ch '\r', ch '\n'], 0, true⟩ (ascii "1234567")) = .throw .outOfRange := by
  decide +kernel

theorem symbol_big : ∀ v : Fin 64, 43 ≤ (symbol false v.val).toNat ∧ symbol false v.val ≠ ch '=' := by
  decide +kernel

/-- The MIME decoder does not invert the MIME encoder: it rejects (with
`std::out_of_range`) every encoding of 1 to 30 bytes, i.e. of at most 40
characters. -/
theorem C04_mime_decoder_fails (bs : List Byte) (h1 : bs ≠ []) (h2 : bs.length ≤ 30) :
    ∃ text, encRFC2045.encode .wrap bs = .ok text ∧ decRFC2045.decode text = .throw .outOfRange := by
  have hlen : (Spec.encode false true bs).length ≤ 40 := by rw [C02_base64_length]; simp; omega
  have hw : wrapped 76 [ch '\r', ch '\n'] (Spec.encode false true bs) = Spec.encode false true bs :=
    wrapped_short _ _ _ (by omega)
  have henc := encode_mime encRFC2045 bs 19 (by omega) rfl
    (by
      show ((wrapped 76 [ch '\r', ch '\n'] (Spec.encode false true bs)).length : Int) ≤ INT_MAX
      rw [hw]; have : INT_MAX = 2147483647 := rfl
      omega)
    (by have : INT_MAX = 2147483647 := rfl
        omega)
  refine ⟨_, henc, ?_⟩
  show decRFC2045.decode (wrapped 76 [ch '\r', ch '\n'] (Spec.encode false true bs)) = _
  rw [hw]
  obtain ⟨vs, pad, hv, hs, hm, -, ho⟩ := denotes_encode false true bs
  match vs, hv, hs, hm, ho with
  | [], hv, hs, hm, ho => exact absurd (by simpa [octets] using ho) h1
  | v :: vs, hv, hs, hm, ho =>
    have hv0 : v < 64 := hv v (by simp)
    have hge : 2 ≤ (Spec.encode false true bs).length := by
      rw [C02_base64_length]
      have : 0 < bs.length := List.length_pos_iff.mpr h1
      simp; omega
    generalize Spec.encode false true bs = text at hs hlen hge
    subst hs
    have hbig := symbol_big ⟨v, hv0⟩
    simp only at hbig
    have hget : Arr.get (List.map (symbol false) (v :: vs) ++ pad) ((symbol false v).toNat : Int) = .throw .outOfRange :=
      Arr.get_nat_ge (by omega)
    have hscan : ∀ f n, iter (mimeScanBody (List.map (symbol false) (v :: vs) ++ pad)) (f + 1) (0, n, 0) =
        .throw .outOfRange := by
      intro f n
      have hg0 : Arr.get (List.map (symbol false) (v :: vs) ++ pad) ((0 : Nat) : Int) = .ok (symbol false v) :=
        Arr.get_ok (by omega) (by simp)
      simp only [iter, mimeScanBody]
      rw [if_pos (by omega), hg0]
      simp only [Outcome.bind_eq, Outcome.bind_ok, hbig.2, if_false, hget, Outcome.bind_throw]
    have hout : decRFC2045.outLength (List.map (symbol false) (v :: vs) ++ pad) = .throw .outOfRange := by
      unfold Decoder.outLength
      rw [if_neg (by omega), if_neg (by omega)]
      unfold Decoder.outLengthLong
      have : decRFC2045.isMime = true := rfl
      simp only [this, if_true, hscan, Outcome.bind_eq, Outcome.bind_throw]
    unfold Decoder.decode
    rw [hout]; rfl

example : getMimeEncoder 9 [ch '\n'] = .ok ⟨false, [ch '\n'], 8, true⟩ := by decide +kernel
example : Encoder.encode .wrap ⟨false, [ch '\n'], 8, true⟩ (ascii "hello world") =
    .ok (ascii "aGVsbG8g\nd29ybGQ=") := by decide +kernel
example : decRFC2045.decode (ascii "aGVsbG8gd29ybGQ=") = .throw .outOfRange := by decide +kernel

end Verif.Base64
