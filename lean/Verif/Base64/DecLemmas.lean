import Verif.Base64.EncMain
/-! The decoder loop. -/
namespace Verif.Base64
open Spec

/-- The three bytes of four 6-bit values. -/
def bytes3 (v0 v1 v2 v3 : Nat) : List Byte :=
  [BitVec.ofNat 8 (v0 * 4 + v1 / 16), BitVec.ofNat 8 (v1 % 16 * 16 + v2 / 4),
   BitVec.ofNat 8 (v2 % 4 * 64 + v3)]

/-- Bytes denoted by a list of 6-bit values. -/
def dec : List Nat → List Byte
  | v0 :: v1 :: v2 :: v3 :: vs => bytes3 v0 v1 v2 v3 ++ dec vs
  | [v0, v1, v2] => [BitVec.ofNat 8 (v0 * 4 + v1 / 16), BitVec.ofNat 8 (v1 % 16 * 16 + v2 / 4)]
  | [v0, v1] => [BitVec.ofNat 8 (v0 * 4 + v1 / 16)]
  | _ => []

theorem dec_length (vs : List Nat) : (dec vs).length = 3 * vs.length / 4 := by
  fun_induction dec vs with
  | case1 v0 v1 v2 v3 vs ih => simp [bytes3, ih]; omega
  | case2 => simp
  | case3 => simp
  | case4 t h1 h2 h3 =>
    match t, h1, h2, h3 with
    | [], _, _, _ => rfl
    | [a], _, _, _ => simp
    | [a, b], _, _, h3 => exact absurd rfl (h3 a b)
    | [a, b, c], _, h2, _ => exact absurd rfl (h2 a b c)
    | a :: b :: c :: d :: t, h1, _, _ => exact absurd rfl (h1 a b c d t)

theorem value8 (a b c d e f g h : Bool) : value [a, b, c, d, e, f, g, h] =
    128 * a.toNat + 64 * b.toNat + 32 * c.toNat + 16 * d.toNat + 8 * e.toNat + 4 * f.toNat +
      2 * g.toNat + h.toNat := by
  simp only [value, List.foldl]; omega

theorem octets_eq_dec (vs : List Nat) (h : ∀ v ∈ vs, v < 64) :
    octets (vs.flatMap sextetBits) = dec vs := by
  fun_induction dec vs with
  | case1 v0 v1 v2 v3 vs ih =>
    have h0 : v0 < 64 := h _ (by simp)
    have h1 : v1 < 64 := h _ (by simp)
    have h2 : v2 < 64 := h _ (by simp)
    have h3 : v3 < 64 := h _ (by simp)
    simp only [List.flatMap_cons, sextetBits, List.cons_append, List.nil_append, octets, value8,
      Nat.toNat_testBit, bytes3]
    rw [ih (by intro v hv; exact h v (by simp [hv]))]
    congr 1
    · congr 1; omega
    congr 1
    · congr 1; omega
    congr 1
    · congr 1; omega
  | case2 v0 v1 v2 =>
    have h0 : v0 < 64 := h _ (by simp)
    have h1 : v1 < 64 := h _ (by simp)
    have h2 : v2 < 64 := h _ (by simp)
    simp only [List.flatMap_cons, List.flatMap_nil, sextetBits, List.cons_append, List.nil_append, octets, value8,
      Nat.toNat_testBit]
    congr 1
    · congr 1; omega
    congr 1
    · congr 1; omega
  | case3 v0 v1 =>
    have h0 : v0 < 64 := h _ (by simp)
    have h1 : v1 < 64 := h _ (by simp)
    simp only [List.flatMap_cons, List.flatMap_nil, sextetBits, List.cons_append, List.nil_append, octets, value8,
      Nat.toNat_testBit]
    congr 1
    · congr 1; omega
  | case4 t h1 h2 h3 =>
    match t, h1, h2, h3 with
    | [], _, _, _ => rfl
    | [a], _, _, _ => rfl
    | [a, b], _, _, h3 => exact absurd rfl (h3 a b)
    | [a, b, c], _, h2, _ => exact absurd rfl (h2 a b c)
    | a :: b :: c :: d :: t, h1, _, _ => exact absurd rfl (h1 a b c d t)

theorem get_dec_symbol (url : Bool) (v : Nat) (h : v < 64) :
    Arr.get (Decoder.table ⟨url, false⟩) ((symbol url v).toNat : Int) = .ok (v : Int) :=
  Arr.get_ok (by omega) (by simpa using dec_symbol url ⟨v, h⟩)

theorem iter_next {σ ρ : Type} (body : σ → Outcome (Step σ ρ)) (n : Nat) (s s' : σ)
    (h : body s = .ok (.next s')) : iter body (n + 1) s = iter body n s' := by
  simp only [iter, h]

theorem decBody_sym (url : Bool) (src : List Byte) (spos dpos bits : Nat) (shift : Int) (dst : List Byte) (v : Nat) (rest : List Byte)
    (hv : v < 64) (hd : src.drop spos = symbol url v :: rest) :
    decBody ⟨url, false⟩ src ⟨spos, dpos, bits, shift, dst⟩ =
      if shift - 6 < 0 then
        (writeAll dst dpos
          [BitVec.ofNat 8 ((bits ||| (v <<< shift.toNat)) >>> 16),
           BitVec.ofNat 8 ((bits ||| (v <<< shift.toNat)) >>> 8),
           BitVec.ofNat 8 (bits ||| (v <<< shift.toNat))]).bind fun r =>
          .ok (.next { spos := spos + 1, dst := r.1, dpos := r.2, bits := 0, shift := 18 })
      else .ok (.next ⟨spos + 1, dpos, bits ||| (v <<< shift.toNat), shift - 6, dst⟩) := by
  have hlt : spos < src.length := by
    rcases Nat.lt_or_ge spos src.length with h | h
    · exact h
    · rw [List.drop_eq_nil_of_le h] at hd; simp at hd
  have hg : Arr.get src (spos : Int) = .ok (symbol url v) := get_of_drop hd
  have ht := get_dec_symbol url v hv
  have hnn : ¬ ((v : Int) < 0) := by omega
  unfold decBody
  simp only [hlt, if_true, Outcome.bind_eq, hg, Outcome.bind, ht, hnn, if_false, Int.toNat_natCast]

theorem step1 (url : Bool) (src : List Byte) (n spos dpos bits : Nat) (shift : Int) (dst : List Byte)
    (v : Nat) (rest : List Byte) (hv : v < 64) (hd : src.drop spos = symbol url v :: rest)
    (hs : 6 ≤ shift) :
    iter (decBody ⟨url, false⟩ src) (n + 1) ⟨spos, dpos, bits, shift, dst⟩ =
    iter (decBody ⟨url, false⟩ src) n ⟨spos + 1, dpos, bits ||| (v <<< shift.toNat), shift - 6, dst⟩ := by
  apply iter_next
  rw [decBody_sym url src _ _ _ _ _ v rest hv hd, if_neg (by omega)]

theorem or_shift (a b n : Nat) (h : b < 2 ^ n) (hn : 2 ^ n ∣ a) : a ||| b = a + b := by
  obtain ⟨q, rfl⟩ := hn
  rw [Nat.mul_comm, ← Nat.shiftLeft_eq, Nat.shiftLeft_add_eq_or_of_lt h]

theorem acc2 (v0 v1 : Nat) (h1 : v1 < 64) : v0 <<< 18 ||| v1 <<< 12 = v0 * 262144 + v1 * 4096 := by
  rw [or_shift _ _ 18 (by rw [Nat.shiftLeft_eq]; omega) ⟨v0, by rw [Nat.shiftLeft_eq]; omega⟩]
  simp only [Nat.shiftLeft_eq]

theorem acc3 (v0 v1 v2 : Nat) (h1 : v1 < 64) (h2 : v2 < 64) :
    v0 <<< 18 ||| v1 <<< 12 ||| v2 <<< 6 = v0 * 262144 + v1 * 4096 + v2 * 64 := by
  rw [acc2 _ _ h1, or_shift _ _ 12 (by rw [Nat.shiftLeft_eq]; omega) ⟨v0 * 64 + v1, by omega⟩]
  simp only [Nat.shiftLeft_eq]

theorem acc4 (v0 v1 v2 v3 : Nat) (h1 : v1 < 64) (h2 : v2 < 64) (h3 : v3 < 64) :
    v0 <<< 18 ||| v1 <<< 12 ||| v2 <<< 6 ||| v3 = v0 * 262144 + v1 * 4096 + v2 * 64 + v3 := by
  rw [acc3 _ _ _ h1 h2, or_shift _ _ 6 (by omega) ⟨v0 * 4096 + v1 * 64 + v2, by omega⟩]

theorem ofNat8_congr {a b : Nat} (h : a % 256 = b % 256) : BitVec.ofNat 8 a = BitVec.ofNat 8 b := by
  apply BitVec.eq_of_toNat_eq; simpa using h

/-- One step over a character that is not a symbol. -/
theorem decBody_other (url : Bool) (src : List Byte) (spos dpos bits : Nat) (shift : Int) (dst : List Byte) (c : Byte) (rest : List Byte)
    (hd : src.drop spos = c :: rest) (hc : ∀ v, v < 64 → symbol url v ≠ c) (hp : c ≠ padChar) :
    decBody ⟨url, false⟩ src ⟨spos, dpos, bits, shift, dst⟩ = .throw .interrupted := by
  have hlt : spos < src.length := by
    rcases Nat.lt_or_ge spos src.length with h | h
    · exact h
    · rw [List.drop_eq_nil_of_le h] at hd; simp at hd
  have hg : Arr.get src (spos : Int) = .ok c := get_of_drop hd
  have hof : BitVec.ofNat 8 c.toNat = c := by simp
  have ht : Arr.get (Decoder.table ⟨url, false⟩) (c.toNat : Int) = .ok (-1) := by
    rcases dec_table_facts url ⟨c.toNat, c.isLt⟩ with ⟨_, h⟩ | h | ⟨v, _, h⟩
    · exact absurd (hof ▸ h) hp
    · exact Arr.get_ok (by omega) (by simpa using h)
    · exact absurd (hof ▸ h) (hc v.val v.isLt)
  unfold decBody
  simp [hlt, hg, ht]

theorem get_dec_pad : ∀ url : Bool, Arr.get (Decoder.table ⟨url, false⟩) (padChar.toNat : Int) = .ok (-2) := by
  decide +kernel

/-- One step over `=`. -/
theorem decBody_pad (url : Bool) (src : List Byte) (spos dpos bits : Nat) (shift : Int) (dst : List Byte) (rest : List Byte)
    (hd : src.drop spos = padChar :: rest) :
    decBody ⟨url, false⟩ src ⟨spos, dpos, bits, shift, dst⟩ =
      if shift = 6 then
        match rest with
        | [] => .throw .interrupted
        | c :: _ => if c ≠ padChar then .throw .interrupted
            else .ok (.done ⟨spos + 2, dpos, bits, shift, dst⟩)
      else if shift = 18 then .throw .interrupted
      else .ok (.done ⟨spos + 1, dpos, bits, shift, dst⟩) := by
  have hlt : spos < src.length := by
    rcases Nat.lt_or_ge spos src.length with h | h
    · exact h
    · rw [List.drop_eq_nil_of_le h] at hd; simp at hd
  have hg : Arr.get src (spos : Int) = .ok padChar := get_of_drop hd
  have hd1 := drop_succ_of hd
  have hlen : (src.drop (spos + 1)).length = src.length - (spos + 1) := by simp
  unfold decBody
  simp only [hlt, if_true, Outcome.bind_eq, hg, Outcome.bind, get_dec_pad]
  have : ((-2 : Int) < 0) := by decide
  simp only [this, if_true]
  match rest, hd1 with
  | [], hd1 =>
    rw [hd1] at hlen
    have : spos + 1 = src.length := by simp at hlen; omega
    simp [this]
  | c :: r, hd1 =>
    rw [hd1] at hlen
    have : ¬ spos + 1 = src.length := by simp at hlen; omega
    have hg1 : Arr.get src ((spos + 1 : Nat) : Int) = .ok c := get_of_drop hd1
    simp only [this, if_false, hg1]
    have : ch '=' = padChar := rfl
    rw [this]

theorem decBody_end (url : Bool) (src : List Byte) (spos dpos bits : Nat) (shift : Int) (dst : List Byte) (hd : src.drop spos = []) :
    decBody ⟨url, false⟩ src ⟨spos, dpos, bits, shift, dst⟩ = .ok (.done ⟨spos, dpos, bits, shift, dst⟩) := by
  have : ¬ spos < src.length := by
    intro h; have := congrArg List.length hd; simp at this; omega
  simp [decBody, this]

/-- Everything after the main loop (Base64.cpp:402-423). -/
def afterLoop (url : Bool) (src : List Byte) (s : DecSt) : Outcome (List Byte × Nat) := do
  let (dst, dpos) ←
    if s.shift = 6 then writeAll s.dst s.dpos [BitVec.ofNat 8 (s.bits >>> 16)]
    else if s.shift = 0 then
      writeAll s.dst s.dpos [BitVec.ofNat 8 (s.bits >>> 16), BitVec.ofNat 8 (s.bits >>> 8)]
    else if s.shift = 12 then .throw .interrupted
    else .ok (s.dst, s.dpos)
  let _ ← iter (trailBody ⟨url, false⟩ src) (src.length + 1) s.spos
  .ok (dst, dpos)

theorem decoding_eq (url : Bool) (src dst : List Byte) :
    Decoder.decoding ⟨url, false⟩ src dst =
      (iter (decBody ⟨url, false⟩ src) (src.length + 1) ⟨0, 0, 0, 18, dst⟩).bind (afterLoop url src) := rfl

theorem trail_end (url : Bool) (src : List Byte) (pos : Nat) (h : src.drop pos = []) :
    iter (trailBody ⟨url, false⟩ src) (src.length + 1) pos = .ok () := by
  have : ¬ pos < src.length := by
    intro h'; have := congrArg List.length h; simp at this; omega
  simp [iter, trailBody, this]

theorem trail_more (url : Bool) (src : List Byte) (pos : Nat) (c : Byte) (r : List Byte)
    (h : src.drop pos = c :: r) :
    iter (trailBody ⟨url, false⟩ src) (src.length + 1) pos =
      if pos ≤ endingMessageLength then .throw .interrupted else .ub := by
  have hlt : pos < src.length := by
    rcases Nat.lt_or_ge pos src.length with h' | h'
    · exact h'
    · rw [List.drop_eq_nil_of_le h'] at h; simp at h
  simp only [iter, trailBody, hlt, if_true, Bool.false_eq_true, if_false]
  by_cases hp : pos ≤ endingMessageLength <;> simp [hp]

/-- Admissible bad outcomes: the documented exception, or the out-of-bounds
message read, which needs more than 46 characters and a `=` before the end. -/
def Rejects (src : List Byte) (o : Outcome α) : Prop :=
  o = .throw .interrupted ∨
  (o = .ub ∧ endingMessageLength < src.length ∧ ∃ i, i + 1 < src.length ∧ src[i]? = some padChar)

/-- A continuation of symbols: either the end, or a non-symbol. -/
def NoSym (url : Bool) (rest : List Byte) : Prop :=
  ∀ c r, rest = c :: r → ∀ v, v < 64 → symbol url v ≠ c

/-- `rest` completes `k` symbols to well-formed text. -/
def GoodEnd (k : Nat) (rest : List Byte) : Prop :=
  k % 4 ≠ 1 ∧ (rest = [] ∨ rest = List.replicate ((4 - k % 4) % 4) padChar)

theorem step4 (url : Bool) (src : List Byte) (v0 v1 v2 v3 : Nat) (tl pre : List Byte) (r fuel spos : Nat)
    (h0 : v0 < 64) (h1 : v1 < 64) (h2 : v2 < 64) (h3 : v3 < 64) (hr : 3 ≤ r)
    (hd : src.drop spos = symbol url v0 :: symbol url v1 :: symbol url v2 :: symbol url v3 :: tl) :
    iter (decBody ⟨url, false⟩ src) (fuel + 4) ⟨spos, pre.length, 0, 18, pre ++ List.replicate r 0⟩ =
    iter (decBody ⟨url, false⟩ src) fuel ⟨spos + 4, (pre ++ bytes3 v0 v1 v2 v3).length, 0, 18,
      pre ++ bytes3 v0 v1 v2 v3 ++ List.replicate (r - 3) 0⟩ := by
  have d1 := drop_succ_of hd
  have d2 := drop_succ_of d1
  have d3 := drop_succ_of d2
  rw [show fuel + 4 = fuel + 1 + 1 + 1 + 1 from rfl,
    step1 url src _ _ _ _ _ _ v0 _ h0 hd (by omega), step1 url src _ _ _ _ _ _ v1 _ h1 d1 (by omega),
    step1 url src _ _ _ _ _ _ v2 _ h2 d2 (by omega)]
  simp only [iter]
  rw [decBody_sym url src _ _ _ _ _ v3 _ h3 d3, if_pos (by simp)]
  have hb : (0 ||| v0 <<< (18 : Int).toNat ||| v1 <<< (18 - 6 : Int).toNat |||
      v2 <<< (18 - 6 - 6 : Int).toNat ||| v3 <<< (18 - 6 - 6 - 6 : Int).toNat) =
      v0 * 262144 + v1 * 4096 + v2 * 64 + v3 := by
    rw [← acc4 v0 v1 v2 v3 h1 h2 h3]; simp
  rw [hb]
  have hbytes : [BitVec.ofNat 8 ((v0 * 262144 + v1 * 4096 + v2 * 64 + v3) >>> 16),
      BitVec.ofNat 8 ((v0 * 262144 + v1 * 4096 + v2 * 64 + v3) >>> 8),
      BitVec.ofNat 8 (v0 * 262144 + v1 * 4096 + v2 * 64 + v3)] = bytes3 v0 v1 v2 v3 := by
    simp only [bytes3, Nat.shiftRight_eq_div_pow]
    rw [ofNat8_congr (a := (v0 * 262144 + v1 * 4096 + v2 * 64 + v3) / 2 ^ 16) (b := v0 * 4 + v1 / 16) (by omega),
      ofNat8_congr (a := (v0 * 262144 + v1 * 4096 + v2 * 64 + v3) / 2 ^ 8) (b := v1 % 16 * 16 + v2 / 4) (by omega),
      ofNat8_congr (a := v0 * 262144 + v1 * 4096 + v2 * 64 + v3) (b := v2 % 4 * 64 + v3) (by omega)]
  rw [hbytes, writeAll_zeros _ _ _ (by simpa [bytes3] using hr)]
  simp [bytes3]

/-- Outcome of the decoder from a state at a group boundary. -/
theorem dec_run (url : Bool) (src : List Byte) : ∀ (n : Nat) (vs : List Nat), vs.length ≤ n →
    ∀ (rest pre : List Byte) (r spos fuel : Nat),
    (∀ v ∈ vs, v < 64) → src.drop spos = vs.map (symbol url) ++ rest → NoSym url rest →
    vs.length < fuel → 3 * vs.length / 4 ≤ r →
    (GoodEnd vs.length rest →
      (iter (decBody ⟨url, false⟩ src) fuel ⟨spos, pre.length, 0, 18, pre ++ List.replicate r 0⟩).bind
        (afterLoop url src) =
      .ok (pre ++ dec vs ++ List.replicate (r - (dec vs).length) 0, pre.length + (dec vs).length)) ∧
    (¬ GoodEnd vs.length rest → Rejects src
      ((iter (decBody ⟨url, false⟩ src) fuel ⟨spos, pre.length, 0, 18, pre ++ List.replicate r 0⟩).bind
        (afterLoop url src))) := by
  intro n
  induction n with
  | zero =>
    intro vs hvs
    have : vs = [] := List.eq_nil_of_length_eq_zero (by omega)
    subst this
    intro rest pre r spos fuel _ hd hns hf _
    match fuel, hf with
    | fuel + 1, _ =>
      simp only [List.map_nil, List.nil_append] at hd
      match rest, hd with
      | [], hd =>
        have hit : iter (decBody ⟨url, false⟩ src) (fuel + 1) ⟨spos, pre.length, 0, 18, pre ++ List.replicate r 0⟩
            = .ok ⟨spos, pre.length, 0, 18, pre ++ List.replicate r 0⟩ := by
          simp only [iter, decBody_end url src _ _ _ _ _ hd]
        constructor
        · intro _
          rw [hit]
          simp [afterLoop, trail_end url src spos hd, dec]
        · intro hbad; exact absurd ⟨by simp, Or.inl rfl⟩ hbad
      | c :: rest, hd =>
        constructor
        · intro hgood
          rcases hgood.2 with h | h <;> simp at h
        · intro _
          left
          by_cases hc : c = padChar
          · subst hc
            simp [iter, decBody_pad url src _ _ _ _ _ _ hd]
          · simp [iter, decBody_other url src _ _ _ _ _ c rest hd (hns c rest rfl) hc]
  | succ n ih =>
    intro vs hvs rest pre r spos fuel hv hd hns hf hr
    have hsrclen : (src.drop spos).length = vs.length + rest.length := by rw [hd]; simp
    match vs, hvs with
    | [], _ => exact ih [] (by simp) rest pre r spos fuel hv hd hns hf hr
    | v0 :: v1 :: v2 :: v3 :: vs, hvs =>
      obtain ⟨f, rfl⟩ : ∃ f, fuel = f + 4 := ⟨fuel - 4, by simp at hf; omega⟩
      have h0 : v0 < 64 := hv _ (by simp)
      have h1 : v1 < 64 := hv _ (by simp)
      have h2 : v2 < 64 := hv _ (by simp)
      have h3 : v3 < 64 := hv _ (by simp)
      simp only [List.map_cons, List.cons_append] at hd
      have d4 := drop_succ_of (drop_succ_of (drop_succ_of (drop_succ_of hd)))
      have hr3 : 3 ≤ r := by simp at hr; omega
      rw [step4 url src v0 v1 v2 v3 _ pre r f spos h0 h1 h2 h3 hr3 hd]
      have hge : GoodEnd (v0 :: v1 :: v2 :: v3 :: vs).length rest ↔ GoodEnd vs.length rest := by
        simp only [GoodEnd, List.length_cons]
        have : (vs.length + 1 + 1 + 1 + 1) % 4 = vs.length % 4 := by omega
        rw [this]
      rw [hge]
      have := ih vs (by simp at hvs; omega) rest (pre ++ bytes3 v0 v1 v2 v3) (r - 3) (spos + 4) f
        (fun v hv' => hv v (by simp [hv'])) d4 hns (by simp at hf; omega) (by simp at hr; omega)
      refine ⟨fun hg => ?_, this.2⟩
      rw [this.1 hg]
      simp only [dec, List.append_assoc, List.length_append, bytes3, List.length_cons, List.length_nil]
      refine congrArg Outcome.ok (Prod.ext ?_ ?_)
      · simp only [List.append_assoc, List.cons_append, List.nil_append]
        have hh : r - 3 - (dec vs).length = r - (0 + 1 + 1 + 1 + (dec vs).length) := by omega
        rw [hh]
      · simp only; omega
    | [v0], _ =>
      have h0 : v0 < 64 := hv _ (by simp)
      obtain ⟨f, rfl⟩ : ∃ f, fuel = f + 2 := ⟨fuel - 2, by simp at hf; omega⟩
      simp only [List.map_cons, List.map_nil, List.cons_append, List.nil_append] at hd
      have d1 := drop_succ_of hd
      have hst : iter (decBody ⟨url, false⟩ src) (f + 2) ⟨spos, pre.length, 0, 18, pre ++ List.replicate r 0⟩ =
          iter (decBody ⟨url, false⟩ src) (f + 1) ⟨spos + 1, pre.length, 0 ||| v0 <<< (18 : Int).toNat, 18 - 6, pre ++ List.replicate r 0⟩ := by
        rw [show f + 2 = f + 1 + 1 from rfl, step1 url src _ _ _ _ _ _ v0 _ h0 hd (by omega)]
      rw [hst]
      constructor
      · intro hg; exact absurd rfl hg.1
      · intro _
        left
        match rest, d1 with
        | [], d1 => simp [iter, decBody_end url src _ _ _ _ _ d1, afterLoop]
        | c :: rest, d1 =>
          by_cases hc : c = padChar
          · subst hc
            simp [iter, decBody_pad url src _ _ _ _ _ _ d1, afterLoop]
          · simp [iter, decBody_other url src _ _ _ _ _ c rest d1 (hns c rest rfl) hc]
    | [v0, v1], _ =>
      have h0 : v0 < 64 := hv _ (by simp)
      have h1 : v1 < 64 := hv _ (by simp)
      obtain ⟨f, rfl⟩ : ∃ f, fuel = f + 3 := ⟨fuel - 3, by simp at hf; omega⟩
      simp only [List.map_cons, List.map_nil, List.cons_append, List.nil_append] at hd
      have d1 := drop_succ_of hd
      have d2 := drop_succ_of d1
      have hst : iter (decBody ⟨url, false⟩ src) (f + 3) ⟨spos, pre.length, 0, 18, pre ++ List.replicate r 0⟩ =
          iter (decBody ⟨url, false⟩ src) (f + 1) ⟨spos + 2, pre.length, v0 * 262144 + v1 * 4096, 6, pre ++ List.replicate r 0⟩ := by
        rw [show f + 3 = f + 1 + 1 + 1 from rfl, step1 url src _ _ _ _ _ _ v0 _ h0 hd (by omega),
          step1 url src _ _ _ _ _ _ v1 _ h1 d1 (by omega)]
        rw [← acc2 v0 v1 h1]
        simp
      rw [hst]
      have hw : ∀ p, afterLoop url src ⟨p, pre.length, v0 * 262144 + v1 * 4096, 6, pre ++ List.replicate r 0⟩ =
          (iter (trailBody ⟨url, false⟩ src) (src.length + 1) p).bind fun _ =>
            .ok (pre ++ dec [v0, v1] ++ List.replicate (r - (dec [v0, v1]).length) 0, pre.length + (dec [v0, v1]).length) := by
        intro p
        unfold afterLoop
        simp only [Outcome.bind_eq, if_true]
        have hb : BitVec.ofNat 8 ((v0 * 262144 + v1 * 4096) >>> 16) = BitVec.ofNat 8 (v0 * 4 + v1 / 16) := by
          apply ofNat8_congr; rw [Nat.shiftRight_eq_div_pow]; omega
        rw [hb, writeAll_zeros _ _ _ (by simp at hr; simpa using hr)]
        rfl
      match rest, d2 with
      | [], d2 =>
        constructor
        · intro _
          simp only [iter, decBody_end url src _ _ _ _ _ d2, Outcome.bind]
          rw [hw, trail_end url src _ d2]; rfl
        · intro hb; exact absurd ⟨by simp, Or.inl rfl⟩ hb
      | c :: rest, d2 =>
        by_cases hc : c = padChar
        · subst hc
          match rest, d2 with
          | [], d2 =>
            constructor
            · intro hg; rcases hg.2 with h | h <;> simp [List.replicate] at h
            · intro _; left; simp [iter, decBody_pad url src _ _ _ _ _ _ d2]
          | c2 :: rest, d2 =>
            by_cases hc2 : c2 = padChar
            · subst hc2
              have d4 := drop_succ_of (drop_succ_of d2)
              match rest, d4 with
              | [], d4 =>
                constructor
                · intro _
                  simp only [iter, decBody_pad url src _ _ _ _ _ _ d2, if_true, ne_eq, not_true_eq_false, if_false, Outcome.bind]
                  rw [hw, trail_end url src _ d4]; rfl
                · intro hb; exact absurd ⟨by simp, Or.inr (by simp [List.replicate])⟩ hb
              | c3 :: rest, d4 =>
                constructor
                · intro hg; rcases hg.2 with h | h <;> simp [List.replicate] at h
                · intro _
                  simp only [iter, decBody_pad url src _ _ _ _ _ _ d2, if_true, ne_eq, not_true_eq_false, if_false, Outcome.bind]
                  rw [hw, trail_more url src _ _ _ d4]
                  have hl4 : (src.drop (spos + 2 + 1 + 1)).length = rest.length + 1 := by rw [d4]; simp
                  simp only [List.length_drop] at hl4
                  by_cases hm : spos + 2 + 2 ≤ endingMessageLength
                  · left; rw [if_pos hm]; rfl
                  · right; rw [if_neg hm]
                    refine ⟨rfl, by omega, spos + 2, by omega, ?_⟩
                    have : (src.drop (spos + 2))[0]? = some padChar := by
                      rw [d2]; rfl
                    simpa using this
            · constructor
              · intro hg; rcases hg.2 with h | h <;> simp [List.replicate] at h
                exact absurd h.1 hc2
              · intro _; left; simp [iter, decBody_pad url src _ _ _ _ _ _ d2, hc2]
        · constructor
          · intro hg; rcases hg.2 with h | h <;> simp [List.replicate] at h
            exact absurd h.1 hc
          · intro _; left; simp [iter, decBody_other url src _ _ _ _ _ c rest d2 (hns c rest rfl) hc]
    | [v0, v1, v2], _ =>
      have h0 : v0 < 64 := hv _ (by simp)
      have h1 : v1 < 64 := hv _ (by simp)
      have h2 : v2 < 64 := hv _ (by simp)
      obtain ⟨f, rfl⟩ : ∃ f, fuel = f + 4 := ⟨fuel - 4, by simp at hf; omega⟩
      simp only [List.map_cons, List.map_nil, List.cons_append, List.nil_append] at hd
      have d1 := drop_succ_of hd
      have d2 := drop_succ_of d1
      have d3 := drop_succ_of d2
      have hst : iter (decBody ⟨url, false⟩ src) (f + 4) ⟨spos, pre.length, 0, 18, pre ++ List.replicate r 0⟩ =
          iter (decBody ⟨url, false⟩ src) (f + 1) ⟨spos + 3, pre.length, v0 * 262144 + v1 * 4096 + v2 * 64, 0, pre ++ List.replicate r 0⟩ := by
        rw [show f + 4 = f + 1 + 1 + 1 + 1 from rfl, step1 url src _ _ _ _ _ _ v0 _ h0 hd (by omega),
          step1 url src _ _ _ _ _ _ v1 _ h1 d1 (by omega), step1 url src _ _ _ _ _ _ v2 _ h2 d2 (by omega)]
        rw [← acc3 v0 v1 v2 h1 h2]
        simp
      rw [hst]
      have hw : ∀ p, afterLoop url src ⟨p, pre.length, v0 * 262144 + v1 * 4096 + v2 * 64, 0, pre ++ List.replicate r 0⟩ =
          (iter (trailBody ⟨url, false⟩ src) (src.length + 1) p).bind fun _ =>
            .ok (pre ++ dec [v0, v1, v2] ++ List.replicate (r - (dec [v0, v1, v2]).length) 0, pre.length + (dec [v0, v1, v2]).length) := by
        intro p
        unfold afterLoop
        simp only [Outcome.bind_eq, if_true]
        have hb : BitVec.ofNat 8 ((v0 * 262144 + v1 * 4096 + v2 * 64) >>> 16) = BitVec.ofNat 8 (v0 * 4 + v1 / 16) := by
          apply ofNat8_congr; rw [Nat.shiftRight_eq_div_pow]; omega
        have hb2 : BitVec.ofNat 8 ((v0 * 262144 + v1 * 4096 + v2 * 64) >>> 8) = BitVec.ofNat 8 (v1 % 16 * 16 + v2 / 4) := by
          apply ofNat8_congr; rw [Nat.shiftRight_eq_div_pow]; omega
        have h06 : ¬ ((0 : Int) = 6) := by decide
        rw [if_neg h06, hb, hb2, writeAll_zeros _ _ _ (by simp at hr; simpa using hr)]
        rfl
      match rest, d3 with
      | [], d3 =>
        constructor
        · intro _
          simp only [iter, decBody_end url src _ _ _ _ _ d3, Outcome.bind]
          rw [hw, trail_end url src _ d3]; rfl
        · intro hb; exact absurd ⟨by simp, Or.inl rfl⟩ hb
      | c :: rest, d3 =>
        by_cases hc : c = padChar
        · subst hc
          have d4 := drop_succ_of d3
          have h06 : ¬ ((0 : Int) = 6) := by decide
          have h018 : ¬ ((0 : Int) = 18) := by decide
          match rest, d4 with
          | [], d4 =>
            constructor
            · intro _
              simp only [iter, decBody_pad url src _ _ _ _ _ _ d3, h06, h018, if_false, Outcome.bind]
              rw [hw, trail_end url src _ d4]; rfl
            · intro hb; exact absurd ⟨by simp, Or.inr (by simp [List.replicate])⟩ hb
          | c3 :: rest, d4 =>
            constructor
            · intro hg; rcases hg.2 with h | h <;> simp [List.replicate] at h
            · intro _
              simp only [iter, decBody_pad url src _ _ _ _ _ _ d3, h06, h018, if_false, Outcome.bind]
              rw [hw, trail_more url src _ _ _ d4]
              have hl4 : (src.drop (spos + 3 + 1)).length = rest.length + 1 := by rw [d4]; simp
              simp only [List.length_drop] at hl4
              by_cases hm : spos + 3 + 1 ≤ endingMessageLength
              · left; rw [if_pos hm]; rfl
              · right; rw [if_neg hm]
                refine ⟨rfl, by omega, spos + 3, by omega, ?_⟩
                have : (src.drop (spos + 3))[0]? = some padChar := by
                  rw [d3]; rfl
                simpa using this
        · constructor
          · intro hg; rcases hg.2 with h | h <;> simp [List.replicate] at h
            exact absurd h.1 hc
          · intro _; left; simp [iter, decBody_other url src _ _ _ _ _ c rest d3 (hns c rest rfl) hc]

end Verif.Base64
