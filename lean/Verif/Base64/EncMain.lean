import Verif.Base64.EncLoop
/-! `Encoder.encode` equals the specification. -/
namespace Verif.Base64
open Spec

theorem outLength_base (e : Encoder) (src : List Byte)
    (hmax : ((Spec.encode e.isUrl e.doPadding src).length : Int) ≤ INT_MAX) :
    e.baseLength src.length =
    .ok ((Spec.encode e.isUrl e.doPadding src).length : Int) := by
  unfold Encoder.baseLength
  rw [encode_length] at hmax ⊢
  have hm : INT_MAX = 2147483647 := rfl
  have hmi : INT_MIN = -2147483648 := rfl
  cases hp : e.doPadding
  · simp only [hp, Bool.false_eq_true, if_false] at hmax ⊢
    have e1 : (src.length : Int).tmod 3 = ((src.length % 3 : Nat) : Int) := rfl
    have e2 : (src.length : Int).tdiv 3 = ((src.length / 3 : Nat) : Int) := rfl
    rw [e1, e2]
    by_cases h0 : ((src.length % 3 : Nat) : Int) = 0
    · rw [if_pos h0, chk32_ok (by omega) (by omega)]; congr 1; omega
    · rw [if_neg h0, chk32_ok (by omega) (by omega)]; congr 1; omega
  · simp only [hp, if_true] at hmax ⊢
    rw [chk32_ok (by omega) (by omega)]
    simp only [Outcome.bind_eq, Outcome.bind]
    have e2 : ((src.length : Int) + 2).tdiv 3 = (((src.length + 2) / 3 : Nat) : Int) := rfl
    rw [e2, chk32_ok (by omega) (by omega)]; congr 1

/-- Common tail: once the output list is known and fits. -/
theorem encode_of (e : Encoder) (src out : List Byte) (c : Nat)
    (hl : e.lineMax ≠ 0) (hc : src.length / 3 * 3 ≠ 0 → 0 < c)
    (hchunk : (if e.lineMax > 0 ∧ src.length / 3 * 3 > (e.lineMax.tdiv 4 * 3).toNat
      then (e.lineMax.tdiv 4 * 3).toNat else src.length / 3 * 3) = 3 * c)
    (hmax : ∀ k : Nat, 3 * c * k < src.length / 3 * 3 → ((3 * c * k + 3 * c : Nat) : Int) ≤ INT_MAX)
    (hlen : e.outLength src.length = .ok (out.length : Int))
    (hout : layout e src (src.length / 3 * 3) (3 * c) (src.length + 1) 0 ++
        tailOut e.isUrl e.doPadding (src.drop (src.length / 3 * 3)) = out) :
    e.encode .wrap src = .ok out := by
  have hmod : src.length / 3 * 3 ≤ src.length := Nat.div_mul_le_self _ _
  have hol : (layout e src (src.length / 3 * 3) (3 * c) (src.length + 1) 0).length +
      (tailOut e.isUrl e.doPadding (src.drop (src.length / 3 * 3))).length = out.length := by
    rw [← hout]; simp
  have hloop : ∃ s', iter (outerBody .wrap e (tableOf e.isUrl) src src.length
        (src.length / 3 * 3) (3 * c)) (src.length + 1) ⟨0, 0, 0, 0, List.replicate out.length 0⟩ = .ok s' ∧
      s'.spos = src.length / 3 * 3 ∧
      s'.dpos = (layout e src (src.length / 3 * 3) (3 * c) (src.length + 1) 0).length ∧
      s'.dst = layout e src (src.length / 3 * 3) (3 * c) (src.length + 1) 0 ++
        List.replicate (out.length - (layout e src (src.length / 3 * 3) (3 * c) (src.length + 1) 0).length) 0 := by
    by_cases h0 : src.length / 3 * 3 = 0
    · refine ⟨⟨0, 0, 0, 0, List.replicate out.length 0⟩, ?_, by simp [h0], ?_, ?_⟩
      · simp [iter, outerBody, h0]
      · simp [layout, h0]
      · simp [layout, h0]
    · obtain ⟨s', h1, h2, h3, h4⟩ := outer_loop e src (src.length / 3 * 3) c hl hmod (hc h0) hmax
        (src.length / 3) (src.length + 1) ⟨0, 0, 0, 0, List.replicate out.length 0⟩ []
        out.length (by omega) (by simp; omega) (by intro _; exact ⟨0, by simp⟩) rfl rfl
        (by simp; omega)
      exact ⟨s', h1, h2, by simpa using h3, by simpa using h4⟩
  obtain ⟨s', h1, h2, h3, h4⟩ := hloop
  have ht := encTail_eq e src s' _ _ (by omega) (by omega) h3 h4 (by rw [h2]; omega)
  rw [h2] at ht
  have hz : out.length - (layout e src (src.length / 3 * 3) (3 * c) (src.length + 1) 0).length -
      (tailOut e.isUrl e.doPadding (src.drop (src.length / 3 * 3))).length = 0 := by omega
  rw [hz, hout, hol] at ht
  unfold Encoder.encode
  simp only [Outcome.bind_eq, hlen, Outcome.bind, newArray]
  have hnn : ¬ ((out.length : Int) < 0) := by omega
  simp only [hnn, if_false, Outcome.bind, Int.toNat_natCast]
  have henc : e.encoding .wrap src (List.replicate out.length 0) = .ok (out, out.length) := by
    unfold Encoder.encoding
    simp only [Outcome.bind_eq]
    rw [hchunk]
    have : (if e.isUrl = true then toBase64Url else toBase64) = tableOf e.isUrl := rfl
    rw [this, h1]
    simp only [Outcome.bind]
    rw [ht]; simp
  rw [henc]
  simp

theorem encode_basic (e : Encoder) (src : List Byte) (hl : e.lineMax < 0)
    (hmax : ((Spec.encode e.isUrl e.doPadding src).length : Int) ≤ INT_MAX) :
    e.encode .wrap src = .ok (Spec.encode e.isUrl e.doPadding src) := by
  have hpos : ¬ e.lineMax > 0 := by omega
  have hbase := outLength_base e src hmax
  have hm : INT_MAX = 2147483647 := rfl
  apply encode_of e src _ (src.length / 3) (by omega)
  · intro h; omega
  · simp only [hpos, false_and, if_false]; omega
  · intro k hk
    have hk0 : k = 0 := by
      rcases Nat.eq_zero_or_pos k with h | h
      · exact h
      · exfalso
        have : 3 * (src.length / 3) * 1 ≤ 3 * (src.length / 3) * k := Nat.mul_le_mul_left _ h
        omega
    subst hk0
    rw [encode_length] at hmax
    have : src.length / 3 * 3 ≤ src.length := Nat.div_mul_le_self _ _
    split at hmax <;> omega
  · unfold Encoder.outLength
    simp only [Outcome.bind_eq]
    rw [hbase]
    simp [hpos]
  · rcases Nat.eq_zero_or_pos src.length with h0 | h0
    · have hs : src = [] := List.eq_nil_of_length_eq_zero h0
      subst hs
      simp [layout, tailOut, (encode_nil_iff e.isUrl e.doPadding []).mpr rfl]
    · have := layout_tail_nolines e src hl (src.length + 1) (by omega)
      rw [Nat.mul_comm (src.length / 3) 3] at this ⊢
      exact this

theorem encode_mime (e : Encoder) (src : List Byte) (K : Nat) (hK : 0 < K)
    (hl : e.lineMax = ((4 * K : Nat) : Int))
    (hmax : ((wrapped (4 * K) e.newLine (Spec.encode e.isUrl e.doPadding src)).length : Int) ≤ INT_MAX)
    (hmax2 : (src.length : Int) + 3 * K ≤ INT_MAX) :
    e.encode .wrap src =
      .ok (wrapped (4 * K) e.newLine (Spec.encode e.isUrl e.doPadding src)) := by
  have hm : INT_MAX = 2147483647 := rfl
  have hmi : INT_MIN = -2147483648 := rfl
  have hpos : e.lineMax > 0 := by omega
  have hwl := wrapped_length (4 * K) (by omega) e.newLine _
    (Spec.encode e.isUrl e.doPadding src) (Nat.le_refl _)
  have hlm : (e.lineMax.tdiv 4 * 3).toNat = 3 * K := by
    rw [hl]
    have : ((4 * K : Nat) : Int).tdiv 4 = ((4 * K / 4 : Nat) : Int) := rfl
    rw [this]; omega
  have hmod : src.length / 3 * 3 ≤ src.length := Nat.div_mul_le_self _ _
  have hbase := outLength_base e src (by omega)
  let c := if src.length / 3 * 3 > 3 * K then K else src.length / 3
  have hcdef : 3 * c = if src.length / 3 * 3 > 3 * K then 3 * K else src.length / 3 * 3 := by
    simp only [c]; split <;> omega
  apply encode_of e src _ c (by omega)
  · intro h; simp only [c]; split <;> omega
  · rw [hlm, hcdef]; simp [hpos]
  · intro k hk
    have : c ≤ K := by simp only [c]; split <;> omega
    omega
  · unfold Encoder.outLength
    simp only [Outcome.bind_eq]
    rw [hbase]
    simp only [Outcome.bind, hpos, if_true]
    have hdiv : (((Spec.encode e.isUrl e.doPadding src).length : Int) - 1).tdiv e.lineMax =
        ((((Spec.encode e.isUrl e.doPadding src).length - 1) / (4 * K) : Nat) : Int) := by
      rw [hl]
      rcases Nat.eq_zero_or_pos (Spec.encode e.isUrl e.doPadding src).length with h0 | h0
      · rw [h0]
        have : ((0 : Nat) : Int) - 1 = -1 := rfl
        rw [this, Int.neg_tdiv]
        have h1 : (1 : Int).tdiv ((4 * K : Nat) : Int) = ((1 / (4 * K) : Nat) : Int) := rfl
        rw [h1]
        have h2 : 1 / (4 * K) = 0 := Nat.div_eq_of_lt (by omega)
        rw [h2]; simp
      · have : ((Spec.encode e.isUrl e.doPadding src).length : Int) - 1 =
          (((Spec.encode e.isUrl e.doPadding src).length - 1 : Nat) : Int) := by omega
        rw [this]; rfl
    rw [hdiv, ← Int.natCast_mul, chk32_ok (by omega) (by omega)]
    simp only [Outcome.bind]
    rw [chk32_ok (by omega) (by omega), hwl]; congr 1
  · have := layout_tail_eq e src K (3 * c) hK hl hcdef (src.length / 3) (src.length + 1) 0
      (by omega) (by omega)
    simpa using this

end Verif.Base64
