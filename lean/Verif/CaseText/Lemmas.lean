import Verif.CaseText.Model
import Verif.CaseText.Spec
/-! # Reading what was written -/
namespace Verif.CaseText

open Verif.JString (Str)

/-- Wide characters that the library reads and writes. -/
def Good (lib : Lib) (c : Nat) : Prop := c ≤ 0x10FFFF ∧ (lib.surrogates = false → ¬ (0xD800 ≤ c ∧ c ≤ 0xDFFF))

theorem notCont_iff (c : Byte) : notCont c = false ↔ 128 ≤ c.toNat ∧ c.toNat < 192 := by
  have : ∀ n : Fin 256, notCont (BitVec.ofNat 8 n.val) = false ↔ 128 ≤ (BitVec.ofNat 8 n.val).toNat ∧ (BitVec.ofNat 8 n.val).toNat < 192 := by
    decide +kernel
  exact byte_all (P := fun c => notCont c = false ↔ 128 ≤ c.toNat ∧ c.toNat < 192) this c

theorem cont_ofNat (v : Nat) : notCont (BitVec.ofNat 8 (v % 64 + 0x80)) = false := by
  rw [notCont_iff, BitVec.toNat_ofNat]
  omega

theorem toNat_small {n : Nat} (h : n < 256) : (BitVec.ofNat 8 n).toNat = n := by
  rw [BitVec.toNat_ofNat]
  exact Nat.mod_eq_of_lt h

theorem got_eq {a b : Nat} {r : Str} (h : a = b) : Read.got a r = .got b r := by rw [h]

theorem write_read (lib : Lib) {c : Nat} (h : Good lib c) (rest : Str) :
    ∃ b bs, writeCode lib c = some (b :: bs) ∧ readCode lib (b :: bs ++ rest) = .got c rest ∧ ((0 : Byte) ∈ b :: bs → c = 0) := by
  obtain ⟨h1, h2⟩ := h
  unfold writeCode
  have hs : ¬ (lib.surrogates = false ∧ 0xD800 ≤ c ∧ c ≤ 0xDFFF) := fun q => h2 q.1 q.2
  rw [if_neg hs]
  have hz : ∀ n, 0 < n → n < 256 → (0 : Byte) ≠ BitVec.ofNat 8 n := by
    intro n a b e
    have := congrArg BitVec.toNat e
    rw [toNat_small b] at this
    have e0 : (0 : Byte).toNat = 0 := rfl
    omega
  by_cases a1 : c < 0x80
  · rw [if_pos a1]
    refine ⟨_, _, rfl, ?_, ?_⟩
    · show readCode lib (BitVec.ofNat 8 c :: rest) = _
      rw [readCode]
      rw [toNat_small (by omega), if_pos a1]
    · intro q
      rcases List.mem_singleton.mp q with q
      have := congrArg BitVec.toNat q
      rw [toNat_small (by omega)] at this
      exact this.symm
  rw [if_neg a1]
  by_cases a2 : c ≤ 0x7FF
  · rw [if_pos a2]
    refine ⟨_, _, rfl, ?_, ?_⟩
    · show readCode lib (_ :: _ :: rest) = _
      rw [readCode]
      rw [toNat_small (show c / 64 + 0xC0 < 256 by omega), if_neg (by omega), if_neg (by omega), if_pos (by omega)]
      rw [read2]
      rw [cont_ofNat, toNat_small (show c / 64 + 0xC0 < 256 by omega), toNat_small (by omega)]
      simp only [Bool.false_eq_true, if_false]
      exact got_eq (by omega)
    · intro q
      simp only [List.mem_cons, List.not_mem_nil, or_false] at q
      rcases q with q | q
      · exact absurd q (hz _ (by omega) (by omega))
      · exact absurd q (hz _ (by omega) (by omega))
  rw [if_neg a2]
  by_cases a3 : c ≤ 0xFFFF
  · rw [if_pos a3]
    refine ⟨_, _, rfl, ?_, ?_⟩
    · show readCode lib (_ :: _ :: _ :: rest) = _
      rw [readCode]
      rw [toNat_small (show c / 4096 + 0xE0 < 256 by omega), if_neg (by omega), if_neg (by omega), if_neg (by omega), if_pos (by omega)]
      rw [read3]
      rw [cont_ofNat, cont_ofNat, toNat_small (show c / 4096 + 0xE0 < 256 by omega), toNat_small (show c / 64 % 64 + 0x80 < 256 by omega),
        toNat_small (show c % 64 + 0x80 < 256 by omega)]
      simp only [Bool.false_eq_true, if_false]
      rw [if_neg (by omega), if_neg (fun q => h2 q.1 (by omega))]
      exact got_eq (by omega)
    · intro q
      simp only [List.mem_cons, List.not_mem_nil, or_false] at q
      rcases q with q | q | q
      · exact absurd q (hz _ (by omega) (by omega))
      · exact absurd q (hz _ (by omega) (by omega))
      · exact absurd q (hz _ (by omega) (by omega))
  rw [if_neg a3, if_pos h1]
  refine ⟨_, _, rfl, ?_, ?_⟩
  · show readCode lib (_ :: _ :: _ :: _ :: rest) = _
    rw [readCode]
    rw [toNat_small (show c / 262144 + 0xF0 < 256 by omega), if_neg (by omega), if_neg (by omega), if_neg (by omega), if_neg (by omega), if_pos (by omega)]
    rw [read4]
    rw [cont_ofNat, cont_ofNat, cont_ofNat, toNat_small (show c / 262144 + 0xF0 < 256 by omega), toNat_small (show c / 4096 % 64 + 0x80 < 256 by omega),
      toNat_small (show c / 64 % 64 + 0x80 < 256 by omega), toNat_small (show c % 64 + 0x80 < 256 by omega)]
    simp only [Bool.false_eq_true, if_false]
    rw [if_neg (by omega), if_neg (by omega)]
    exact got_eq (by omega)
  · intro q
    simp only [List.mem_cons, List.not_mem_nil, or_false] at q
    rcases q with q | q | q | q
    · exact absurd q (hz _ (by omega) (by omega))
    · exact absurd q (hz _ (by omega) (by omega))
    · exact absurd q (hz _ (by omega) (by omega))
    · exact absurd q (hz _ (by omega) (by omega))

/-- What a reading gives. -/
theorem read_good (lib : Lib) {s rest : Str} {c : Nat} (h : readCode lib s = .got c rest) :
    Good lib c ∧ (c = 0 → (0 : Byte) ∈ s) ∧ (∀ x ∈ rest, x ∈ s) ∧ rest.length < s.length := by
  unfold readCode at h
  split at h
  · cases h
  · rename_i c1 r
    have hc1 := c1.isLt
    split at h
    · rename_i a
      obtain ⟨e1, e2⟩ := Read.got.inj h
      subst e2
      refine ⟨⟨by omega, by omega⟩, ?_, fun x hx => List.mem_cons_of_mem _ hx, by simp only [List.length_cons]; omega⟩
      intro q
      have : c1 = 0 := BitVec.eq_of_toNat_eq (e1.trans q)
      rw [this]
      exact List.mem_cons_self
    · split at h
      · cases h
      · split at h
        · unfold read2 at h
          split at h
          · cases h
          · rename_i c2 r
            split at h
            · cases h
            · rename_i k2
              rw [Bool.not_eq_true, notCont_iff] at k2
              obtain ⟨e1, e2⟩ := Read.got.inj h
              subst e2
              exact ⟨⟨by omega, by omega⟩, by omega, fun x hx => List.mem_cons_of_mem _ (List.mem_cons_of_mem _ hx), by simp only [List.length_cons]; omega⟩
        · split at h
          · unfold read3 at h
            split at h
            · cases h
            · rename_i c2 r
              split at h
              · cases h
              · rename_i k2
                rw [Bool.not_eq_true, notCont_iff] at k2
                split at h
                · cases h
                · split at h
                  · cases h
                  · rename_i k4
                    split at h
                    · cases h
                    · rename_i c3 r
                      split at h
                      · cases h
                      · rename_i k3
                        rw [Bool.not_eq_true, notCont_iff] at k3
                        obtain ⟨e1, e2⟩ := Read.got.inj h
                        subst e2
                        refine ⟨⟨by omega, fun q z => k4 ⟨q, by omega⟩⟩, by omega,
                          fun x hx => List.mem_cons_of_mem _ (List.mem_cons_of_mem _ (List.mem_cons_of_mem _ hx)), by simp only [List.length_cons]; omega⟩
          · split at h
            · unfold read4 at h
              split at h
              · cases h
              · rename_i c2 r
                split at h
                · cases h
                · rename_i k2
                  rw [Bool.not_eq_true, notCont_iff] at k2
                  split at h
                  · cases h
                  · split at h
                    · cases h
                    · split at h
                      · cases h
                      · rename_i c3 r
                        split at h
                        · cases h
                        · rename_i k3
                          rw [Bool.not_eq_true, notCont_iff] at k3
                          split at h
                          · cases h
                          · rename_i c4 r
                            split at h
                            · cases h
                            · rename_i k5
                              rw [Bool.not_eq_true, notCont_iff] at k5
                              obtain ⟨e1, e2⟩ := Read.got.inj h
                              subst e2
                              exact ⟨⟨by omega, by omega⟩, by omega,
                                fun x hx => List.mem_cons_of_mem _ (List.mem_cons_of_mem _ (List.mem_cons_of_mem _ (List.mem_cons_of_mem _ hx))), by simp only [List.length_cons]; omega⟩
            · cases h

/-- Wide characters written are read back, and what follows is read then. -/
theorem encode_ok (lib : Lib) : ∀ w : List Nat, (∀ c ∈ w, Good lib c) → ∃ b, encode lib w = some b ∧ w.length ≤ b.length ∧ ((0 : Byte) ∈ b → 0 ∈ w) ∧
    ∀ (rest : Str) (n : Nat), (b ++ rest).length ≤ n → decode lib n (b ++ rest) = (decode lib (n - w.length) rest).map (w ++ ·) := by
  intro w
  induction w with
  | nil =>
    intro _
    refine ⟨[], rfl, Nat.le_refl _, (fun q => nomatch q), fun rest n _ => ?_⟩
    simp
  | cons c w ih =>
    intro h
    obtain ⟨b, e1, e2, e3, e4⟩ := ih fun x hx => h x (List.mem_cons_of_mem _ hx)
    obtain ⟨x, xs, _, _, _⟩ := write_read lib (h c List.mem_cons_self) []
    have key : ∀ rest, ∃ x xs, writeCode lib c = some (x :: xs) ∧ readCode lib (x :: xs ++ rest) = .got c rest ∧ ((0 : Byte) ∈ x :: xs → c = 0) :=
      write_read lib (h c List.mem_cons_self)
    obtain ⟨y, ys, w1, _, w3⟩ := key []
    refine ⟨(y :: ys) ++ b, ?_, ?_, ?_, ?_⟩
    · rw [encode, w1, e1]
      rfl
    · simp only [List.length_append, List.length_cons]
      omega
    · intro q
      rcases List.mem_append.mp q with q | q
      · rw [w3 q]; exact List.mem_cons_self
      · exact List.mem_cons_of_mem _ (e3 q)
    · intro rest n hn
      obtain ⟨y', ys', v1, v2, _⟩ := key (b ++ rest)
      rw [w1] at v1
      cases v1
      cases n with
      | zero => simp at hn
      | succ n =>
        rw [List.append_assoc, List.cons_append] at *
        rw [decode]
        rw [v2]
        simp only
        rw [e4 rest n (by simp only [List.length_cons, List.length_append] at hn ⊢; omega), Option.map_map, List.length_cons, Nat.add_sub_add_right]
        rfl

theorem decode_good (lib : Lib) : ∀ (n : Nat) (s : Str) (w : List Nat), decode lib n s = some w → (∀ c ∈ w, Good lib c) ∧ (0 ∈ w → (0 : Byte) ∈ s) := by
  intro n
  induction n with
  | zero => intro s w h; cases h; exact ⟨(fun _ q => nomatch q), fun q => nomatch q⟩
  | succ n ih =>
    intro s w h
    cases s with
    | nil => cases h; exact ⟨(fun _ q => nomatch q), fun q => nomatch q⟩
    | cons b s =>
      rw [decode] at h
      cases hr : readCode lib (b :: s) with
      | incomplete => rw [hr] at h; cases h; exact ⟨(fun _ q => nomatch q), fun q => nomatch q⟩
      | invalid => rw [hr] at h; cases h
      | got c rest =>
        rw [hr] at h
        simp only at h
        obtain ⟨g1, g2, g3, _⟩ := read_good lib hr
        cases hd : decode lib n rest with
        | none => rw [hd] at h; cases h
        | some v =>
          rw [hd] at h
          cases h
          obtain ⟨i1, i2⟩ := ih rest v hd
          refine ⟨fun x hx => ?_, fun q => ?_⟩
          · rcases List.mem_cons.mp hx with rfl | hx
            · exact g1
            · exact i1 x hx
          · rcases List.mem_cons.mp q with q | q
            · exact g2 q.symm
            · exact g3 _ (i2 q)

theorem takeWhile_nonzero : ∀ w : List Nat, 0 ∉ w → w.takeWhile (· ≠ 0) = w := by
  intro w
  induction w with
  | nil => intro _; rfl
  | cons a w ih =>
    intro h
    have ha : a ≠ 0 := fun e => h (e ▸ List.mem_cons_self)
    rw [List.takeWhile_cons_of_pos (by simpa using ha), ih fun q => h (List.mem_cons_of_mem _ q)]

theorem decode_nil (lib : Lib) (n : Nat) : decode lib n [] = some [] := by
  cases n <;> rfl

/-- Reading what was written. -/
theorem decode_encode (lib : Lib) {w : List Nat} (h : ∀ c ∈ w, Good lib c) {b : Str} (hb : encode lib w = some b) :
    decode lib b.length b = some w := by
  obtain ⟨b', e1, _, _, e4⟩ := encode_ok lib w h
  rw [hb] at e1
  cases e1
  have := e4 [] b.length (by simp)
  rw [List.append_nil, decode_nil] at this
  rw [this]
  simp

/-! ## Characters -/

theorem char_good (lib : Lib) (c : Char) : Good lib c.toNat := by
  have hv := c.valid
  unfold UInt32.isValidChar Nat.isValidChar at hv
  unfold Good Char.toNat
  omega

theorem write_char (lib : Lib) (c : Char) : writeCode lib c.toNat = some ((String.utf8EncodeChar c).map UInt8.toBitVec) := by
  have hg := char_good lib c
  obtain ⟨h1, h2⟩ := hg
  have hs : ¬ (lib.surrogates = false ∧ 0xD800 ≤ c.toNat ∧ c.toNat ≤ 0xDFFF) := fun q => h2 q.1 q.2
  have hv : c.val.toNat = c.toNat := rfl
  unfold writeCode
  rw [if_neg hs]
  unfold String.utf8EncodeChar
  simp only [hv]
  by_cases a1 : c.toNat < 0x80
  · have a1' : c.toNat ≤ 127 := by omega
    rw [if_pos a1, if_pos a1']
    rfl
  have a1' : ¬ c.toNat ≤ 127 := by omega
  rw [if_neg a1, if_neg a1']
  by_cases a2 : c.toNat ≤ 0x7FF
  · rw [if_pos a2, if_pos a2]
    have e : c.toNat / 64 % 0x20 = c.toNat / 64 := by omega
    rw [e]
    rfl
  rw [if_neg a2, if_neg a2]
  by_cases a3 : c.toNat ≤ 0xFFFF
  · rw [if_pos a3, if_pos a3]
    have e : c.toNat / 4096 % 0x10 = c.toNat / 4096 := by omega
    rw [e]
    rfl
  rw [if_neg a3, if_neg a3, if_pos h1]
  have e : c.toNat / 262144 % 0x08 = c.toNat / 262144 := by omega
  rw [e]
  rfl

theorem utf8_cons (c : Char) (cs : List Char) : utf8 (c :: cs) = (String.utf8EncodeChar c).map UInt8.toBitVec ++ utf8 cs := by
  unfold utf8
  rw [List.flatMap_cons, List.map_append]

theorem utf8_append (a b : List Char) : utf8 (a ++ b) = utf8 a ++ utf8 b := by
  unfold utf8
  rw [List.flatMap_append, List.map_append]

theorem encode_chars (lib : Lib) : ∀ cs : List Char, encode lib (cs.map Char.toNat) = some (utf8 cs) := by
  intro cs
  induction cs with
  | nil => rfl
  | cons c cs ih =>
    rw [List.map_cons, encode, write_char, ih, utf8_cons]
    rfl

theorem chars_good (lib : Lib) (cs : List Char) : ∀ c ∈ cs.map Char.toNat, Good lib c := by
  intro x hx
  obtain ⟨c, _, rfl⟩ := List.mem_map.mp hx
  exact char_good lib c

theorem toNat_inj {a b : Char} (h : a.toNat = b.toNat) : a = b := Char.toNat_inj.mp h

theorem zero_chars {cs : List Char} (h : Char.ofNat 0 ∉ cs) : 0 ∉ cs.map Char.toNat := by
  intro q
  obtain ⟨c, hc, e⟩ := List.mem_map.mp q
  exact h ((toNat_inj (b := Char.ofNat 0) e) ▸ hc)

theorem utf8_nonzero {cs : List Char} (h : Char.ofNat 0 ∉ cs) : (0 : Byte) ∉ utf8 cs := by
  intro q
  obtain ⟨b, e1, _, e3, _⟩ := encode_ok ⟨true⟩ _ (chars_good ⟨true⟩ cs)
  rw [encode_chars] at e1
  cases e1
  exact zero_chars h (e3 q)

theorem utf8_inj {a b : List Char} (h : utf8 a = utf8 b) : a = b := by
  have h1 := decode_encode ⟨true⟩ (chars_good ⟨true⟩ a) (encode_chars ⟨true⟩ a)
  have h2 := decode_encode ⟨true⟩ (chars_good ⟨true⟩ b) (encode_chars ⟨true⟩ b)
  rw [h] at h1
  rw [h1] at h2
  have h3 := Option.some.inj h2
  exact (List.map_inj_right fun x y e => toNat_inj e).mp h3

/-- Reading a text and what follows. -/
theorem decode_chars (lib : Lib) (cs : List Char) (rest : Str) :
    decode lib (utf8 cs ++ rest).length (utf8 cs ++ rest) = (decode lib ((utf8 cs ++ rest).length - cs.length) rest).map (cs.map Char.toNat ++ ·) := by
  obtain ⟨b, e1, _, _, e4⟩ := encode_ok lib _ (chars_good lib cs)
  rw [encode_chars] at e1
  cases e1
  have := e4 rest _ (Nat.le_refl _)
  rw [List.length_map] at this
  exact this

end Verif.CaseText
