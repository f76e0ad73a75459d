import Verif.Base64.DecLemmas
/-! Whole-decoder facts. -/
namespace Verif.Base64
open Spec

/-- Every text splits into a maximal prefix of symbols and the rest. -/
theorem split_syms (url : Bool) : ∀ src : List Byte, ∃ (vs : List Nat) (rest : List Byte),
    (∀ v ∈ vs, v < 64) ∧ src = vs.map (symbol url) ++ rest ∧ NoSym url rest := by
  intro src
  induction src with
  | nil => exact ⟨[], [], by simp, rfl, by intro c r h; simp at h⟩
  | cons c t ih =>
    by_cases hc : ∃ v, v < 64 ∧ symbol url v = c
    · obtain ⟨v, hv, hs⟩ := hc
      obtain ⟨vs, rest, h1, h2, h3⟩ := ih
      exact ⟨v :: vs, rest, by simpa using ⟨hv, h1⟩, by simp [hs, h2], h3⟩
    · refine ⟨[], c :: t, by simp, rfl, ?_⟩
      intro c' r h v hv hs
      simp only [List.cons.injEq] at h
      exact hc ⟨v, hv, by rw [hs, h.1]⟩

theorem symbol_ne_pad : ∀ url : Bool, ∀ v : Fin 64, symbol url v.val ≠ padChar := by decide +kernel

theorem symbol_inj : ∀ url : Bool, ∀ v w : Fin 64, symbol url v.val = symbol url w.val → v = w := by
  decide +kernel

theorem get_last {l : List Byte} {k : Nat} (h1 : k < l.length) :
    ∃ c, l[k]? = some c ∧ Arr.get l (k : Int) = .ok c :=
  ⟨l[k], List.getElem?_eq_getElem h1, Arr.get_ok (by omega) (by simp [h1])⟩

theorem not_pad_at (url : Bool) (vs : List Nat) (rest : List Byte) (hv : ∀ v ∈ vs, v < 64) (k : Nat)
    (h : (vs.map (symbol url) ++ rest)[k]? = some padChar) : vs.length ≤ k := by
  rcases Nat.lt_or_ge k vs.length with hk | hk
  · exfalso
    rw [List.getElem?_append_left (by simpa using hk)] at h
    simp only [List.getElem?_map, List.getElem?_eq_getElem hk, Option.map_some, Option.some.injEq] at h
    exact symbol_ne_pad url ⟨vs[k], hv _ (List.getElem_mem hk)⟩ h
  · exact hk

theorem outLength_dec (url : Bool) (src : List Byte) (hmax : (src.length : Int) + 3 ≤ INT_MAX)
    (h2 : 2 ≤ src.length) (vs : List Nat) (rest : List Byte) (hv : ∀ v ∈ vs, v < 64)
    (hs : src = vs.map (symbol url) ++ rest) :
    ∃ L : Nat, Decoder.outLength ⟨url, false⟩ src = .ok (L : Int) ∧ 3 * vs.length / 4 ≤ L := by
  have hm : INT_MAX = 2147483647 := rfl
  have hmi : INT_MIN = -2147483648 := rfl
  have hk : vs.length ≤ src.length := by rw [hs]; simp
  obtain ⟨c1, hc1, hg1⟩ := get_last (l := src) (k := src.length - 1) (by omega)
  obtain ⟨c2, hc2, hg2⟩ := get_last (l := src) (k := src.length - 2) (by omega)
  have e1 : ((src.length : Int) - 1) = ((src.length - 1 : Nat) : Int) := by omega
  have e2 : ((src.length : Int) - 2) = ((src.length - 2 : Nat) : Int) := by omega
  have hdiv : ((src.length : Int) + 3).tdiv 4 = (((src.length + 3) / 4 : Nat) : Int) := by
    rw [Int.tdiv_eq_ediv_of_nonneg (by omega)]; omega
  have hmod : (src.length : Int) % 4 = ((src.length % 4 : Nat) : Int) := by omega
  have hpadc : ch '=' = padChar := rfl
  have p1 : c1 = ch '=' → vs.length ≤ src.length - 1 := by
    intro h; rw [h, hpadc, hs] at hc1; rw [hs]; exact not_pad_at url vs rest hv _ hc1
  have p2 : c2 = ch '=' → vs.length ≤ src.length - 2 := by
    intro h; rw [h, hpadc, hs] at hc2; rw [hs]; exact not_pad_at url vs rest hv _ hc2
  unfold Decoder.outLength
  have n0 : ¬ (src.length = 0) := by omega
  have n1 : ¬ (src.length < 2) := by omega
  rw [if_neg n0, if_neg n1]
  unfold Decoder.outLengthLong
  simp only [ Bool.false_eq_true, Outcome.bind_eq, e1, e2, hg1, hg2, Outcome.bind_ok]
  have chka : chk32 ((src.length : Int) + 3) = .ok ((src.length : Int) + 3) := chk32_ok (by omega) (by omega)
  by_cases q1 : c1 = ch '='
  · by_cases q2 : c2 = ch '='
    · have := p2 q2
      simp only [q1, q2, if_true, Outcome.pure_eq, Outcome.bind_ok, chka, hdiv]
      have z2 : ¬ ((2 : Int) = 0) := by omega
      simp only [z2, false_and, if_false]
      have hL : ∀ x : Int, x = ((3 * ((src.length + 3) / 4) - 2 : Nat) : Int) → chk32 x = .ok ((3 * ((src.length + 3) / 4) - 2 : Nat) : Int) := by
        intro x hx; rw [hx]; exact chk32_ok (by omega) (by omega)
      exact ⟨3 * ((src.length + 3) / 4) - 2, hL _ (by omega), by omega⟩
    · have := p1 q1
      simp only [q1, q2, if_true, if_false, Outcome.pure_eq, Outcome.bind_ok, chka, hdiv]
      have z2 : ¬ ((1 : Int) = 0) := by omega
      simp only [z2, false_and, if_false]
      have hL : ∀ x : Int, x = ((3 * ((src.length + 3) / 4) - 1 : Nat) : Int) → chk32 x = .ok ((3 * ((src.length + 3) / 4) - 1 : Nat) : Int) := by
        intro x hx; rw [hx]; exact chk32_ok (by omega) (by omega)
      exact ⟨3 * ((src.length + 3) / 4) - 1, hL _ (by omega), by omega⟩
  · simp only [q1, if_false, Outcome.pure_eq, Outcome.bind_ok, chka, hdiv, true_and, hmod]
    by_cases q3 : src.length % 4 = 0
    · have : ¬ (((src.length % 4 : Nat) : Int) ≠ 0) := by omega
      rw [if_neg this]
      have hL : ∀ x : Int, x = ((3 * ((src.length + 3) / 4) : Nat) : Int) → chk32 x = .ok ((3 * ((src.length + 3) / 4) : Nat) : Int) := by
        intro x hx; rw [hx]; exact chk32_ok (by omega) (by omega)
      exact ⟨3 * ((src.length + 3) / 4), hL _ (by omega), by omega⟩
    · have : ((src.length % 4 : Nat) : Int) ≠ 0 := by omega
      simp only [ne_eq, this, not_false_eq_true, if_true]
      have hL : ∀ x : Int, x = ((3 * ((src.length + 3) / 4) - (4 - src.length % 4) : Nat) : Int) → chk32 x = .ok ((3 * ((src.length + 3) / 4) - (4 - src.length % 4) : Nat) : Int) := by
        intro x hx; rw [hx]; exact chk32_ok (by omega) (by omega)
      exact ⟨3 * ((src.length + 3) / 4) - (4 - src.length % 4), hL _ (by omega), by omega⟩

/-- The decoder on text `symbols ++ rest`. -/
theorem decode_split (url : Bool) (src : List Byte) (hmax : (src.length : Int) + 3 ≤ INT_MAX)
    (vs : List Nat) (rest : List Byte) (hv : ∀ v ∈ vs, v < 64)
    (hs : src = vs.map (symbol url) ++ rest) (hns : NoSym url rest) :
    (GoodEnd vs.length rest → Decoder.decode ⟨url, false⟩ src = .ok (dec vs)) ∧
    (¬ GoodEnd vs.length rest → Rejects src (Decoder.decode ⟨url, false⟩ src)) := by
  rcases Nat.lt_or_ge src.length 2 with hshort | hlong
  · cases src with
    | nil =>
      have h0 : vs = [] ∧ rest = [] := by
        simpa using hs.symm
      obtain ⟨rfl, rfl⟩ := h0
      refine ⟨fun _ => ?_, fun hb => absurd ⟨by simp, Or.inl rfl⟩ hb⟩
      have : Decoder.outLength ⟨url, false⟩ [] = .ok 0 := rfl
      simp [Decoder.decode, this, newArray, decoding_eq, iter, decBody, afterLoop, trailBody, dec]
    | cons c t =>
      have htn : t = [] := by
        cases t with
        | nil => rfl
        | cons a b => simp at hshort; omega
      subst htn
      have hout : Decoder.outLength ⟨url, false⟩ [c] = .throw .interrupted := by
        have ht : ∃ t, Arr.get (Decoder.table ⟨url, false⟩) 0 = .ok t := by
          cases url
          · exact ⟨-1, by decide +kernel⟩
          · exact ⟨-1, by decide +kernel⟩
        obtain ⟨t, ht⟩ := ht
        simp [Decoder.outLength, ht]
      have hdec : Decoder.decode ⟨url, false⟩ [c] = .throw .interrupted := by
        simp [Decoder.decode, hout]
      refine ⟨fun hg => ?_, fun _ => Or.inl hdec⟩
      exfalso
      have hl : vs.length + rest.length = 1 := by
        have := congrArg List.length hs; simpa using this.symm
      rcases hg.2 with h | h
      · subst h; apply hg.1; simp at hl; omega
      · have hr : rest.length = (4 - vs.length % 4) % 4 := by rw [h]; simp
        have := hg.1
        omega
  · obtain ⟨L, hL, hcap⟩ := outLength_dec url src hmax hlong vs rest hv hs
    have hnew : newArray (L : Int) = .ok (List.replicate L 0) := by
      simp [newArray]
    have hfuel : vs.length < src.length + 1 := by rw [hs]; simp; omega
    have := dec_run url src vs.length vs (Nat.le_refl _) rest [] L 0 (src.length + 1) hv (by simpa using hs)
      hns hfuel hcap
    simp only [List.length_nil, List.nil_append, Nat.zero_add] at this
    rw [← decoding_eq] at this
    constructor
    · intro hg
      simp only [Decoder.decode, Outcome.bind_eq, hL, Outcome.bind, hnew, this.1 hg]
      have hlen := dec_length vs
      by_cases hn : ((dec vs).length : Int) ≠ (L : Int)
      · rw [if_pos hn]
        simp only [copyOf, List.take_left', List.length_append, pure]
        have : (dec vs).length - ((dec vs).length + (List.replicate (L - (dec vs).length) (0 : Byte)).length) = 0 := by omega
        rw [this]; simp
      · rw [if_neg hn]
        have : L - (dec vs).length = 0 := by omega
        simp [this]
    · intro hb
      simp only [Decoder.decode, Outcome.bind_eq, hL, Outcome.bind, hnew]
      rcases this.2 hb with h | ⟨h, h2⟩
      · left; rw [h]
      · right; rw [h]; exact ⟨rfl, h2⟩

theorem noSym_pad (url : Bool) (n : Nat) : NoSym url (List.replicate n padChar) := by
  intro c r h v hv hs
  have : c ∈ List.replicate n padChar := by rw [h]; simp
  rw [List.eq_of_mem_replicate this] at hs
  exact symbol_ne_pad url ⟨v, hv⟩ hs

theorem denotes_iff (url : Bool) (src out : List Byte) (hmax : (src.length : Int) + 3 ≤ INT_MAX) :
    Decoder.decode ⟨url, false⟩ src = .ok out ↔ Denotes url src out := by
  constructor
  · intro h
    obtain ⟨vs, rest, hv, hs, hns⟩ := split_syms url src
    have := decode_split url src hmax vs rest hv hs hns
    by_cases hg : GoodEnd vs.length rest
    · rw [this.1 hg] at h
      refine ⟨vs, rest, hv, hs, hg.1, hg.2, ?_⟩
      rw [octets_eq_dec vs hv]
      exact (Outcome.ok.inj h).symm
    · rcases this.2 hg with h' | ⟨h', _⟩ <;> rw [h'] at h <;> simp at h
  · rintro ⟨vs, pad, hv, hs, hk, hp, ho⟩
    have hns : NoSym url pad := by
      rcases hp with rfl | rfl
      · intro c r h; simp at h
      · exact noSym_pad url _
    rw [(decode_split url src hmax vs pad hv hs hns).1 ⟨hk, hp⟩, ho, octets_eq_dec vs hv]

theorem cons_congr {α : Type} {a b : α} {s t : List α} (h : a = b) (h2 : s = t) : a :: s = b :: t := by
  rw [h, h2]

/-- The 6-bit values of a byte string. -/
theorem enc_dec (url : Bool) (bs : List Byte) : ∃ vs : List Nat, (∀ v ∈ vs, v < 64) ∧
    enc url bs = vs.map (symbol url) ∧ dec vs = bs ∧ vs.length % 4 ≠ 1 := by
  fun_induction enc url bs with
  | case1 b0 b1 b2 rest ih =>
    obtain ⟨vs, h1, h2, h3, h4⟩ := ih
    have l0 := b0.isLt
    have l1 := b1.isLt
    have l2 := b2.isLt
    let g := b0.toNat * 65536 + b1.toNat * 256 + b2.toNat
    have hg : g = b0.toNat * 65536 + b1.toNat * 256 + b2.toNat := rfl
    refine ⟨g / 262144 :: g / 4096 % 64 :: g / 64 % 64 :: g % 64 :: vs, ?_, ?_, ?_, ?_⟩
    · intro v hv
      simp only [List.mem_cons] at hv
      rcases hv with rfl | rfl | rfl | rfl | hv
      · omega
      · omega
      · omega
      · omega
      · exact h1 v hv
    · simp [grp, h2, hg]
    · simp only [dec, bytes3, h3, List.cons_append, List.nil_append]
      refine cons_congr ?_ (cons_congr ?_ (cons_congr ?_ rfl)) <;>
        apply BitVec.eq_of_toNat_eq <;> simp only [BitVec.toNat_ofNat] <;> omega
    · simp; omega
  | case2 b0 b1 =>
    have l0 := b0.isLt
    have l1 := b1.isLt
    refine ⟨_, ?_, show tail2 url b0 b1 = List.map (symbol url) [_, _, _] from rfl, ?_, by simp⟩
    · intro v hv
      simp only [List.mem_cons, List.not_mem_nil, or_false] at hv
      rcases hv with rfl | rfl | rfl <;> omega
    · simp only [dec]
      refine cons_congr ?_ (cons_congr ?_ rfl) <;>
        apply BitVec.eq_of_toNat_eq <;> simp only [BitVec.toNat_ofNat] <;> omega
  | case3 b0 =>
    have l0 := b0.isLt
    refine ⟨_, ?_, show tail1 url b0 = List.map (symbol url) [_, _] from rfl, ?_, by simp⟩
    · intro v hv
      simp only [List.mem_cons, List.not_mem_nil, or_false] at hv
      rcases hv with rfl | rfl <;> omega
    · simp only [dec]
      refine cons_congr ?_ rfl <;>
        apply BitVec.eq_of_toNat_eq <;> simp only [BitVec.toNat_ofNat] <;> omega
  | case4 => exact ⟨[], by simp, rfl, rfl, by simp⟩

theorem denotes_encode (url pad : Bool) (bs : List Byte) : Denotes url (Spec.encode url pad bs) bs := by
  obtain ⟨vs, h1, h2, h3, h4⟩ := enc_dec url bs
  have hb : body url bs = vs.map (symbol url) := by rw [body_eq_enc, h2]
  refine ⟨vs, if pad then List.replicate ((4 - vs.length % 4) % 4) padChar else [], h1, ?_, h4, ?_, ?_⟩
  · simp only [Spec.encode, hb, List.length_map]
  · cases pad
    · left; rfl
    · right; rfl
  · rw [octets_eq_dec vs h1, h3]

end Verif.Base64
