import Verif.CaseText.Lemmas
/-! # C217 to C219: upper and lower case -/
namespace Verif.CaseText

open Verif.JString (Str)

theorem cstr_nonzero : ∀ s : Str, (0 : Byte) ∉ cstr s := by
  intro s
  induction s with
  | nil => exact fun q => nomatch q
  | cons a s ih =>
    unfold cstr at ih ⊢
    by_cases ha : a = 0
    · rw [List.takeWhile_cons_of_neg (by simpa using ha)]
      exact fun q => nomatch q
    · rw [List.takeWhile_cons_of_pos (by simpa using ha)]
      intro q
      rcases List.mem_cons.mp q with q | q
      · exact ha q.symm
      · exact ih q

theorem cstr_id : ∀ s : Str, (0 : Byte) ∉ s → cstr s = s := by
  intro s
  induction s with
  | nil => intro _; rfl
  | cons a s ih =>
    intro h
    have ha : a ≠ 0 := fun e => h (e ▸ List.mem_cons_self)
    have := ih fun q => h (List.mem_cons_of_mem _ q)
    unfold cstr at this ⊢
    rw [List.takeWhile_cons_of_pos (by simpa using ha), this]

theorem cstr_cut : ∀ (s t : Str), (0 : Byte) ∉ s → cstr (s ++ 0 :: t) = s := by
  intro s
  induction s with
  | nil => intro t _; rfl
  | cons a s ih =>
    intro t h
    have ha : a ≠ 0 := fun e => h (e ▸ List.mem_cons_self)
    have := ih t fun q => h (List.mem_cons_of_mem _ q)
    unfold cstr at this ⊢
    rw [List.cons_append, List.takeWhile_cons_of_pos (by simpa using ha), this]

theorem table_map {tow : Nat → Nat} {up : Char → Char} (ht : Table tow up) (cs : List Char) :
    (cs.map Char.toNat).map tow = (cs.map up).map Char.toNat := by
  rw [List.map_map, List.map_map]
  exact List.map_congr_left fun c _ => ht.1 c

theorem narrow_chars (lib : Lib) {cs : List Char} (h : Char.ofNat 0 ∉ cs) : narrow lib (cs.map Char.toNat) = utf8 cs := by
  unfold narrow
  rw [takeWhile_nonzero _ (zero_chars h), encode_chars]
  rfl

theorem map_nonzero {tow : Nat → Nat} {up : Char → Char} (ht : Table tow up) {cs : List Char} (h : Char.ofNat 0 ∉ cs) : Char.ofNat 0 ∉ cs.map up := by
  intro q
  obtain ⟨c, hc, e⟩ := List.mem_map.mp q
  exact h (ht.2 c e ▸ hc)

/-- What conversion does to a text whose part before the first NUL reads as these
characters. -/
theorem convert_of (lib : Lib) {tow : Nat → Nat} {up : Char → Char} (ht : Table tow up) {cs : List Char} (h : Char.ofNat 0 ∉ cs) {s : Str}
    (hs : decode lib (cstr s).length (cstr s) = some (cs.map Char.toNat)) : convert lib tow s = utf8 (cs.map up) := by
  unfold convert widen
  rw [hs]
  show narrow lib ((cs.map Char.toNat).map tow) = _
  rw [table_map ht, narrow_chars lib (map_nonzero ht h)]

theorem decode_text (lib : Lib) (cs : List Char) : decode lib (utf8 cs).length (utf8 cs) = some (cs.map Char.toNat) :=
  decode_encode lib (chars_good lib cs) (encode_chars lib cs)

/-! ## C217: every character of the text is converted -/

/-- C217: the text in upper (or lower) case has the same characters, each of them
converted, whatever the number of bytes of each before and after. Partial: the text is
well-formed UTF-8 and has no NUL. -/
theorem C217_converts_partial (lib : Lib) (tow : Nat → Nat) (up : Char → Char) (ht : Table tow up) (cs : List Char) (h : Char.ofNat 0 ∉ cs) :
    convert lib tow (utf8 cs) = utf8 (cs.map up) := by
  refine convert_of lib ht h ?_
  rw [cstr_id _ (utf8_nonzero h)]
  exact decode_text lib cs

/-- A table with letters whose two cases have different lengths in UTF-8. -/
def sampleUp (c : Char) : Char := if c = 'ı' then 'I' else if c = 'é' then 'É' else if c = 'ⱥ' then 'Ⱥ' else c
def sampleTow (n : Nat) : Nat := if n = 'ı'.toNat then 'I'.toNat else if n = 'é'.toNat then 'É'.toNat else if n = 'ⱥ'.toNat then 'Ⱥ'.toNat else n

theorem sample_table : Table sampleTow sampleUp := by
  refine ⟨fun c => ?_, fun c h => ?_⟩
  · unfold sampleTow sampleUp
    by_cases a : c = 'ı'
    · subst a; rfl
    by_cases b : c = 'é'
    · subst b; rfl
    by_cases d : c = 'ⱥ'
    · subst d; rfl
    rw [if_neg (fun e => a (toNat_inj e)), if_neg (fun e => b (toNat_inj e)), if_neg (fun e => d (toNat_inj e)), if_neg a, if_neg b, if_neg d]
  · unfold sampleUp at h
    split at h
    · exact absurd h (by decide)
    · split at h
      · exact absurd h (by decide)
      · split at h
        · exact absurd h (by decide)
        · exact h

example (lib : Lib) : convert lib sampleTow (utf8 "vé ıⱥ".toList) = utf8 "vÉ IȺ".toList :=
  C217_converts_partial lib sampleTow sampleUp sample_table "vé ıⱥ".toList (by decide)

/-- Refuted for texts with a NUL: the rest is lost. -/
theorem C217_nul_wrong (lib : Lib) (tow : Nat → Nat) (up : Char → Char) (ht : Table tow up) (cs : List Char) (h : Char.ofNat 0 ∉ cs) (rest : Str) :
    convert lib tow (utf8 cs ++ 0 :: rest) = utf8 (cs.map up) := by
  refine convert_of lib ht h ?_
  rw [cstr_cut _ _ (utf8_nonzero h)]
  exact decode_text lib cs

/-- Refuted for other encodings: one byte that cannot begin a character, anywhere, and
the result is the empty text. -/
theorem C217_illformed_wrong (lib : Lib) (tow : Nat → Nat) (cs : List Char) (h : Char.ofNat 0 ∉ cs) (b : Byte)
    (hb : 0x80 ≤ b.toNat ∧ b.toNat < 0xC2 ∨ 0xF5 ≤ b.toNat) (rest : Str) (hr : (0 : Byte) ∉ rest) :
    convert lib tow (utf8 cs ++ b :: rest) = [] := by
  have hz : (0 : Byte) ∉ utf8 cs ++ b :: rest := by
    intro q
    rcases List.mem_append.mp q with q | q
    · exact utf8_nonzero h q
    · rcases List.mem_cons.mp q with q | q
      · subst q
        have e0 : (0 : Byte).toNat = 0 := rfl
        omega
      · exact hr q
  obtain ⟨v, e1, e2, _, _⟩ := encode_ok lib _ (chars_good lib cs)
  rw [encode_chars] at e1
  cases e1
  rw [List.length_map] at e2
  have hd : ∀ n, decode lib (n + 1) (b :: rest) = none := by
    intro n
    have hr : readCode lib (b :: rest) = .invalid := by
      rw [readCode]
      rcases hb with hb | hb
      · rw [if_neg (by omega), if_pos hb.2]
      · rw [if_neg (by omega), if_neg (by omega), if_neg (by omega), if_neg (by omega), if_neg (by omega)]
    rw [decode, hr]
  unfold convert widen
  rw [cstr_id _ hz, decode_chars]
  have hl : (utf8 cs ++ b :: rest).length - cs.length = ((utf8 cs).length - cs.length + rest.length) + 1 := by
    simp only [List.length_append, List.length_cons]
    omega
  rw [hl, hd]
  rfl

/-- Refuted for a text that ends inside a character: the piece is lost. -/
theorem C217_tail_wrong (lib : Lib) (tow : Nat → Nat) (up : Char → Char) (ht : Table tow up) (cs : List Char) (h : Char.ofNat 0 ∉ cs) (b : Byte)
    (hb : 0xC2 ≤ b.toNat ∧ b.toNat < 0xF5) : convert lib tow (utf8 cs ++ [b]) = utf8 (cs.map up) := by
  have hz : (0 : Byte) ∉ utf8 cs ++ [b] := by
    intro q
    rcases List.mem_append.mp q with q | q
    · exact utf8_nonzero h q
    · have := List.mem_singleton.mp q
      subst this
      have e0 : (0 : Byte).toNat = 0 := rfl
      omega
  refine convert_of lib ht h ?_
  rw [cstr_id _ hz, decode_chars]
  have hd : ∀ n, decode lib n [b] = some [] := by
    intro n
    cases n with
    | zero => rfl
    | succ n =>
      have hr : readCode lib [b] = .incomplete := by
        rw [readCode, if_neg (by omega), if_neg (by omega)]
        split
        · rfl
        · split
          · rfl
          · rw [if_pos hb.2]
            rfl
      rw [decode, hr]
  rw [hd]
  simp

/-- "caf\xE9 noir", Latin-1, is lost; "caf\xE9" loses its last letter. -/
example (lib : Lib) : convert lib sampleTow (txt "caf" ++ 0xE9#8 :: txt " noir") = [] ∧ convert lib sampleTow (txt "caf" ++ [0xE9#8]) = txt "caf" := by
  obtain ⟨b⟩ := lib
  cases b <;> exact ⟨by decide +kernel, by decide +kernel⟩

/-! ## ASCII -/

theorem decode_ascii (lib : Lib) : ∀ s : Str, (∀ b ∈ s, b.toNat < 128) → decode lib s.length s = some (s.map BitVec.toNat) := by
  intro s
  induction s with
  | nil => intro _; rfl
  | cons b s ih =>
    intro h
    have hr : readCode lib (b :: s) = .got b.toNat s := by
      rw [readCode, if_pos (h b List.mem_cons_self)]
    rw [List.length_cons, decode, hr]
    simp only
    rw [ih fun x hx => h x (List.mem_cons_of_mem _ hx)]
    rfl

theorem encode_ascii (lib : Lib) : ∀ s : Str, (∀ b ∈ s, b.toNat < 128) → encode lib (s.map BitVec.toNat) = some s := by
  intro s
  induction s with
  | nil => intro _; rfl
  | cons b s ih =>
    intro h
    have hb := h b List.mem_cons_self
    have hw : writeCode lib b.toNat = some [b] := by
      unfold writeCode
      rw [if_neg (by omega), if_pos (by omega)]
      congr 2
      apply BitVec.eq_of_toNat_eq
      rw [BitVec.toNat_ofNat]
      omega
    rw [List.map_cons, encode, hw, ih fun x hx => h x (List.mem_cons_of_mem _ hx)]
    rfl

theorem convert_ascii (lib : Lib) (tow : Nat → Nat) (f : Byte → Byte) (hf : ∀ b : Byte, b.toNat < 128 → tow b.toNat = (f b).toNat ∧ (f b).toNat < 128 ∧ (f b = 0 → b = 0))
    (s : Str) (h : ∀ b ∈ s, b.toNat < 128) : convert lib tow s = (cstr s).map f := by
  have hc : ∀ b ∈ cstr s, b.toNat < 128 := fun b hb => h b (List.takeWhile_sublist _ |>.mem hb)
  have hm : ((cstr s).map BitVec.toNat).map tow = ((cstr s).map f).map BitVec.toNat := by
    rw [List.map_map, List.map_map]
    exact List.map_congr_left fun b hb => (hf b (hc b hb)).1
  unfold convert widen
  rw [decode_ascii lib _ hc]
  show narrow lib (((cstr s).map BitVec.toNat).map tow) = _
  rw [hm]
  unfold narrow
  rw [takeWhile_nonzero, encode_ascii]
  · rfl
  · intro b hb
    obtain ⟨c, hc', rfl⟩ := List.mem_map.mp hb
    exact (hf c (hc c hc')).2.1
  · intro q
    obtain ⟨b, hb, e⟩ := List.mem_map.mp q
    obtain ⟨c, hc', rfl⟩ := List.mem_map.mp hb
    have h0 : f c = 0 := BitVec.eq_of_toNat_eq e
    exact cstr_nonzero s ((hf c (hc c hc')).2.2 h0 ▸ hc')

/-- C217: in ASCII, the letters change case and nothing else does. -/
theorem C217_ascii (lib : Lib) (towupper towlower : Nat → Nat) (hu : ∀ b : Byte, b.toNat < 128 → towupper b.toNat = (toUpperB b).toNat)
    (hl : ∀ b : Byte, b.toNat < 128 → towlower b.toNat = (toLowerB b).toNat) (s : Str) (h : ∀ b ∈ s, b.toNat < 128) :
    convert lib towupper s = JString.toUpperCase s ∧ convert lib towlower s = JString.toLowerCase s := by
  have hU : ∀ b : Byte, b.toNat < 128 → (toUpperB b).toNat < 128 ∧ (toUpperB b = 0 → b = 0) := by
    have : ∀ n : Fin 256, (BitVec.ofNat 8 n.val).toNat < 128 → (toUpperB (BitVec.ofNat 8 n.val)).toNat < 128 ∧ (toUpperB (BitVec.ofNat 8 n.val) = 0 → BitVec.ofNat 8 n.val = 0) := by
      decide +kernel
    exact byte_all (P := fun b : Byte => b.toNat < 128 → (toUpperB b).toNat < 128 ∧ (toUpperB b = 0 → b = 0)) this
  have hL : ∀ b : Byte, b.toNat < 128 → (toLowerB b).toNat < 128 ∧ (toLowerB b = 0 → b = 0) := by
    have : ∀ n : Fin 256, (BitVec.ofNat 8 n.val).toNat < 128 → (toLowerB (BitVec.ofNat 8 n.val)).toNat < 128 ∧ (toLowerB (BitVec.ofNat 8 n.val) = 0 → BitVec.ofNat 8 n.val = 0) := by
      decide +kernel
    exact byte_all (P := fun b : Byte => b.toNat < 128 → (toLowerB b).toNat < 128 ∧ (toLowerB b = 0 → b = 0)) this
  exact ⟨convert_ascii lib towupper toUpperB (fun b hb => ⟨hu b hb, hU b hb⟩) s h, convert_ascii lib towlower toLowerB (fun b hb => ⟨hl b hb, hL b hb⟩) s h⟩

example (lib : Lib) : convert lib (fun n => (toUpperB (BitVec.ofNat 8 n)).toNat) (txt "Ab1-z") = txt "AB1-Z" := by
  have h := C217_ascii lib (fun n => (toUpperB (BitVec.ofNat 8 n)).toNat) (fun n => (toLowerB (BitVec.ofNat 8 n)).toNat)
    (fun b _ => by simp) (fun b _ => by simp) (txt "Ab1-z") (by decide)
  rw [h.1]
  decide

/-! ## C218: converting twice is converting once -/

/-- C218: for every text, well-formed or not: converting again changes nothing. -/
theorem C218_twice (lib : Lib) (tow : Nat → Nat) (h0 : ∀ n, tow n = 0 → n = 0) (hi : ∀ n, tow (tow n) = tow n) (hm : ∀ n, n ≤ 0x10FFFF → tow n ≤ 0x10FFFF)
    (hs : ∀ n, 0xD800 ≤ tow n ∧ tow n ≤ 0xDFFF → tow n = n) (s : Str) : convert lib tow (convert lib tow s) = convert lib tow s := by
  suffices hw : ∀ w : List Nat, (∀ c ∈ w, Good lib c) → 0 ∉ w → ∃ b, narrow lib (w.map tow) = b ∧ widen lib b = w.map tow by
    have : ∃ b, convert lib tow s = b ∧ ∃ w : List Nat, widen lib b = w.map tow ∧ narrow lib (w.map tow) = b := by
      unfold convert
      cases hd : decode lib (cstr s).length (cstr s) with
      | none =>
        have : widen lib s = [] := by unfold widen; rw [hd]; rfl
        rw [this]
        exact ⟨[], rfl, [], rfl, rfl⟩
      | some w =>
        have : widen lib s = w := by unfold widen; rw [hd]; rfl
        rw [this]
        obtain ⟨g1, g2⟩ := decode_good lib _ _ _ hd
        obtain ⟨b, b1, b2⟩ := hw w g1 fun q => cstr_nonzero s (g2 q)
        exact ⟨b, b1, w, b2, b1⟩
    obtain ⟨b, e1, w, e2, e3⟩ := this
    rw [e1]
    unfold convert
    rw [e2, List.map_map]
    have : w.map (tow ∘ tow) = w.map tow := List.map_congr_left fun c _ => hi c
    rw [this, e3]
  intro w hg hz
  have hg' : ∀ c ∈ w.map tow, Good lib c := by
    intro c hc
    obtain ⟨a, ha, rfl⟩ := List.mem_map.mp hc
    obtain ⟨a1, a2⟩ := hg a ha
    refine ⟨hm a a1, fun hl q => ?_⟩
    rw [hs a q] at q
    exact a2 hl q
  have hz' : 0 ∉ w.map tow := by
    intro q
    obtain ⟨a, ha, e⟩ := List.mem_map.mp q
    exact hz (h0 a e ▸ ha)
  obtain ⟨b, e1, _, e3, _⟩ := encode_ok lib _ hg'
  refine ⟨b, ?_, ?_⟩
  · unfold narrow
    rw [takeWhile_nonzero _ hz', e1]
    rfl
  · unfold widen
    rw [cstr_id b fun q => hz' (e3 q), decode_encode lib hg' e1]
    rfl

example (lib : Lib) (s : Str) : convert lib (fun n => if 97 ≤ n ∧ n ≤ 122 then n - 32 else n) (convert lib (fun n => if 97 ≤ n ∧ n ≤ 122 then n - 32 else n) s)
    = convert lib (fun n => if 97 ≤ n ∧ n ≤ 122 then n - 32 else n) s :=
  C218_twice lib _ (fun n => by split <;> omega) (fun n => by (repeat' split) <;> omega)
    (fun n => by split <;> omega) (fun n => by split <;> omega) s

/-! ## C219: words read without regard to case -/

theorem spells_iff {up : Char → Char} : ∀ (word : List (Char × Char)), Folds up word → ∀ cs : List Char, cs.map up = word.map Prod.fst ↔ Spells word cs := by
  intro word
  induction word with
  | nil =>
    intro _ cs
    cases cs with
    | nil => exact ⟨fun _ => trivial, fun _ => rfl⟩
    | cons c cs => exact ⟨(fun e => nomatch e), fun e => False.elim e⟩
  | cons w word ih =>
    intro hf cs
    cases cs with
    | nil => exact ⟨(fun e => nomatch e), fun e => False.elim e⟩
    | cons c cs =>
      have := ih (fun w hw => hf w (List.mem_cons_of_mem _ hw)) cs
      rw [List.map_cons, List.map_cons, List.cons.injEq, this, hf w List.mem_cons_self c]
      rfl

theorem true_text : txt "true" = utf8 (trueWord.map Prod.fst) := by decide +kernel
theorem utf_text : txt "UTF-8" = utf8 (utfWord.map Prod.fst) := by decide +kernel

/-- C219: a text is read as true exactly when it spells "true" in any mix of cases.
Partial: well-formed UTF-8 without NUL. -/
theorem C219_boolean_partial (lib : Lib) (towlower : Nat → Nat) (low : Char → Char) (ht : Table towlower low) (hf : Folds low trueWord)
    (cs : List Char) (h : Char.ofNat 0 ∉ cs) : parseBoolean lib towlower (utf8 cs) = true ↔ Spells trueWord cs := by
  unfold parseBoolean
  rw [cstr_id _ (utf8_nonzero h), C217_converts_partial lib towlower low ht cs h, beq_iff_eq, true_text]
  constructor
  · intro e
    exact (spells_iff _ hf cs).mp (utf8_inj e)
  · intro e
    rw [(spells_iff _ hf cs).mpr e]

/-- C219: an encoding name is taken exactly when it spells "UTF-8" in any mix of cases,
and then it makes no difference; every other one is refused. -/
theorem C219_encoding_partial (lib : Lib) (m : Sem) (towupper : Nat → Nat) (up : Char → Char) (ht : Table towupper up) (hf : Folds up utfWord)
    (cs : List Char) (h : Char.ofNat 0 ∉ cs) (source : Str) :
    (Spells utfWord cs → encodeWith lib towupper source (utf8 cs) = UrlCodec.encode source ∧ decodeWith m lib towupper source (utf8 cs) = UrlCodec.decode m source) ∧
    (¬ Spells utfWord cs → encodeWith lib towupper source (utf8 cs) = .throw .unsupportedEncoding ∧
      decodeWith m lib towupper source (utf8 cs) = .throw .unsupportedEncoding) := by
  have hc : convert lib towupper (utf8 cs) = txt "UTF-8" ↔ Spells utfWord cs := by
    rw [C217_converts_partial lib towupper up ht cs h, utf_text]
    exact ⟨fun e => (spells_iff _ hf cs).mp (utf8_inj e), fun e => by rw [(spells_iff _ hf cs).mpr e]⟩
  have hu : (cstr (txt "UTF-8")).map toUpperB = txt "UTF-8" := by decide
  constructor
  · intro hs
    unfold encodeWith decodeWith UrlCodec.encode UrlCodec.decode UrlCodec.encodeWith UrlCodec.decodeWith
    rw [if_pos (hc.mpr hs), if_pos (hc.mpr hs), if_pos hu, if_pos hu]
    exact ⟨rfl, rfl⟩
  · intro hs
    unfold encodeWith decodeWith
    rw [if_neg fun q => hs (hc.mp q), if_neg fun q => hs (hc.mp q)]
    exact ⟨rfl, rfl⟩

/-- Refuted: "true" with a piece of a character behind it is true, and a name that
goes on after "utf-8" is taken. -/
theorem C219_tail_wrong (lib : Lib) (m : Sem) (towlower towupper : Nat → Nat) (low up : Char → Char) (hl : Table towlower low) (hu : Table towupper up)
    (hfl : Folds low trueWord) (hfu : Folds up utfWord) (source : Str) :
    parseBoolean lib towlower (txt "true" ++ [0xC3#8]) = true ∧
    encodeWith lib towupper source (txt "utf-8" ++ [0xC3#8]) = UrlCodec.encode source ∧
    (∀ rest : Str, encodeWith lib towupper source (txt "utf-8" ++ 0 :: rest) = UrlCodec.encode source ∧
      decodeWith m lib towupper source (txt "utf-8" ++ 0 :: rest) = UrlCodec.decode m source) := by
  have e1 : txt "true" = utf8 "true".toList := by decide +kernel
  have e2 : txt "utf-8" = utf8 "utf-8".toList := by decide +kernel
  have hx : (cstr (txt "UTF-8")).map toUpperB = txt "UTF-8" := by decide
  have s1 : "true".toList.map low = trueWord.map Prod.fst := (spells_iff _ hfl "true".toList).mpr (by simp [trueWord, Spells])
  have s2 : "utf-8".toList.map up = utfWord.map Prod.fst := (spells_iff _ hfu "utf-8".toList).mpr (by simp [utfWord, Spells])
  have hz : cstr (txt "true" ++ [0xC3#8]) = txt "true" ++ [0xC3#8] := by decide
  refine ⟨?_, ?_, fun rest => ?_⟩
  · unfold parseBoolean
    rw [hz, e1, C217_tail_wrong lib towlower low hl "true".toList (by decide) 0xC3#8 (by decide)]
    exact beq_iff_eq.mpr (congrArg utf8 s1)
  · unfold encodeWith UrlCodec.encode UrlCodec.encodeWith
    rw [e2, C217_tail_wrong lib towupper up hu "utf-8".toList (by decide) 0xC3#8 (by decide), if_pos hx, utf_text, if_pos (congrArg utf8 s2)]
  · have hc : convert lib towupper (txt "utf-8" ++ 0 :: rest) = txt "UTF-8" := by
      rw [e2, C217_nul_wrong lib towupper up hu "utf-8".toList (by decide) rest, utf_text]
      exact congrArg utf8 s2
    unfold encodeWith decodeWith UrlCodec.encode UrlCodec.decode UrlCodec.encodeWith UrlCodec.decodeWith
    rw [if_pos hc, if_pos hc, if_pos hx, if_pos hx]
    exact ⟨rfl, rfl⟩

/-- Tables that meet the hypotheses. -/
def sampleLow (c : Char) : Char := if c = 'T' then 't' else if c = 'R' then 'r' else if c = 'U' then 'u' else if c = 'E' then 'e' else c
def sampleTowlower (n : Nat) : Nat := if n = 'T'.toNat then 't'.toNat else if n = 'R'.toNat then 'r'.toNat else if n = 'U'.toNat then 'u'.toNat else if n = 'E'.toNat then 'e'.toNat else n

theorem lower_table : Table sampleTowlower sampleLow ∧ Folds sampleLow trueWord := by
  refine ⟨⟨fun c => ?_, fun c h => ?_⟩, ?_⟩
  · unfold sampleTowlower sampleLow
    by_cases a : c = 'T'
    · subst a; rfl
    by_cases b : c = 'R'
    · subst b; rfl
    by_cases d : c = 'U'
    · subst d; rfl
    by_cases e : c = 'E'
    · subst e; rfl
    rw [if_neg (fun q => a (toNat_inj q)), if_neg (fun q => b (toNat_inj q)), if_neg (fun q => d (toNat_inj q)), if_neg (fun q => e (toNat_inj q)), if_neg a, if_neg b, if_neg d, if_neg e]
  · unfold sampleLow at h
    repeat' split at h
    all_goals first | exact h | exact absurd h (by decide)
  · intro w hw c
    unfold sampleLow
    simp only [trueWord, List.mem_cons, List.not_mem_nil, or_false] at hw
    rcases hw with rfl | rfl | rfl | rfl <;> (repeat' split) <;> simp_all

example (lib : Lib) : parseBoolean lib sampleTowlower (utf8 "TrUe".toList) = true :=
  (C219_boolean_partial lib _ _ lower_table.1 lower_table.2 "TrUe".toList (by decide)).mpr (by simp [trueWord, Spells])

/-- Tables that meet the hypotheses. -/
def sampleUp8 (c : Char) : Char := if c = 'u' then 'U' else if c = 't' then 'T' else if c = 'f' then 'F' else c
def sampleTowupper (n : Nat) : Nat := if n = 'u'.toNat then 'U'.toNat else if n = 't'.toNat then 'T'.toNat else if n = 'f'.toNat then 'F'.toNat else n

theorem upper_table : Table sampleTowupper sampleUp8 ∧ Folds sampleUp8 utfWord := by
  refine ⟨⟨fun c => ?_, fun c h => ?_⟩, ?_⟩
  · unfold sampleTowupper sampleUp8
    by_cases a : c = 'u'
    · subst a; rfl
    by_cases b : c = 't'
    · subst b; rfl
    by_cases d : c = 'f'
    · subst d; rfl
    rw [if_neg (fun q => a (toNat_inj q)), if_neg (fun q => b (toNat_inj q)), if_neg (fun q => d (toNat_inj q)), if_neg a, if_neg b, if_neg d]
  · unfold sampleUp8 at h
    repeat' split at h
    all_goals first | exact h | exact absurd h (by decide)
  · intro w hw c
    unfold sampleUp8
    simp only [utfWord, List.mem_cons, List.not_mem_nil, or_false] at hw
    rcases hw with rfl | rfl | rfl | rfl | rfl <;> (repeat' split) <;> simp_all

example (lib : Lib) : encodeWith lib sampleTowupper (txt "a b") (utf8 "Utf-8".toList) = UrlCodec.encode (txt "a b") ∧
    encodeWith lib sampleTowupper (txt "a b") (utf8 "latin1".toList) = .throw .unsupportedEncoding :=
  ⟨((C219_encoding_partial lib .strict _ _ upper_table.1 upper_table.2 "Utf-8".toList (by decide) _).1 (by simp [utfWord, Spells])).1,
    ((C219_encoding_partial lib .strict _ _ upper_table.1 upper_table.2 "latin1".toList (by decide) _).2 (by simp [utfWord, Spells])).1⟩

end Verif.CaseText
