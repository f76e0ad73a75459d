import Verif.Base64.Lemmas
/-! The encoder loop computes `enc` laid out in lines. -/
namespace Verif.Base64
open Spec

theorem innerBody_step (e : Encoder) (src : List Byte) (end_ pause : Nat) (s : EncSt)
    (b0 b1 b2 : Byte) (rest : List Byte) (dst' : List Byte) (cd' : Nat)
    (h : s.cs < pause) (hd : src.drop s.cs = b0 :: b1 :: b2 :: rest)
    (hw : writeAll s.dst s.cd (grp e.isUrl b0 b1 b2) = .ok (dst', cd')) :
    innerBody .wrap e (tableOf e.isUrl) src end_ pause s =
      (if (((pause - s.spos) / 3 * 4 : Nat) : Int) = e.lineMax ∧ pause < end_ then
        (writeAll dst' (s.dpos + (pause - s.spos) / 3 * 4) e.newLine).bind fun r =>
          .ok (.next ⟨pause, r.2, s.cs + 3, cd', r.1⟩)
      else .ok (.next ⟨pause, s.dpos + (pause - s.spos) / 3 * 4, s.cs + 3, cd', dst'⟩)) := by
  have g0 : Arr.get src (s.cs : Int) = .ok b0 := get_of_drop hd
  have hd1 := drop_succ_of hd
  have g1 : Arr.get src ((s.cs + 1 : Nat) : Int) = .ok b1 := get_of_drop hd1
  have hd2 := drop_succ_of hd1
  have g2 : Arr.get src ((s.cs + 2 : Nat) : Int) = .ok b2 := get_of_drop hd2
  have h0 := b0.isLt; have h1 := b1.isLt; have h2 := b2.isLt
  have hg := or_group b0.toNat b1.toNat b2.toNat h1 h2
  have t0 : Arr.get (tableOf e.isUrl) (((b0.toNat <<< 16 ||| b1.toNat <<< 8 ||| b2.toNat) >>> 18 &&& 0x3f : Nat) : Int)
      = .ok (symbol e.isUrl ((b0.toNat * 65536 + b1.toNat * 256 + b2.toNat) / 262144)) := by
    rw [hg, and63, Nat.shiftRight_eq_div_pow, get_table _ _ (Nat.mod_lt _ (by omega))]
    congr 2; omega
  have t1 : Arr.get (tableOf e.isUrl) (((b0.toNat <<< 16 ||| b1.toNat <<< 8 ||| b2.toNat) >>> 12 &&& 0x3f : Nat) : Int)
      = .ok (symbol e.isUrl ((b0.toNat * 65536 + b1.toNat * 256 + b2.toNat) / 4096 % 64)) := by
    rw [hg, and63, Nat.shiftRight_eq_div_pow, get_table _ _ (Nat.mod_lt _ (by omega))]
  have t2 : Arr.get (tableOf e.isUrl) (((b0.toNat <<< 16 ||| b1.toNat <<< 8 ||| b2.toNat) >>> 6 &&& 0x3f : Nat) : Int)
      = .ok (symbol e.isUrl ((b0.toNat * 65536 + b1.toNat * 256 + b2.toNat) / 64 % 64)) := by
    rw [hg, and63, Nat.shiftRight_eq_div_pow, get_table _ _ (Nat.mod_lt _ (by omega))]
  have t3 : Arr.get (tableOf e.isUrl) (((b0.toNat <<< 16 ||| b1.toNat <<< 8 ||| b2.toNat) &&& 0x3f : Nat) : Int)
      = .ok (symbol e.isUrl ((b0.toNat * 65536 + b1.toNat * 256 + b2.toNat) % 64)) := by
    rw [hg, and63, get_table _ _ (Nat.mod_lt _ (by omega))]
  simp only [grp] at hw
  unfold innerBody
  simp only [h, if_true, Outcome.bind_eq, reduceCtorEq, if_false, Outcome.bind, g0, g1, g2, t0, t1, t2, t3, hw]

theorem take_three {src : List Byte} {cs i : Nat} (hlen : cs + 3 * (i + 1) ≤ src.length) :
    ∃ b0 b1 b2, src.drop cs = b0 :: b1 :: b2 :: src.drop (cs + 3) ∧
      (src.drop cs).take (3 * (i + 1)) = b0 :: b1 :: b2 :: (src.drop (cs + 3)).take (3 * i) := by
  have h0 : cs < src.length := by omega
  have h1 : cs + 1 < src.length := by omega
  have h2 : cs + 2 < src.length := by omega
  refine ⟨src[cs], src[cs+1], src[cs+2], ?_, ?_⟩
  · rw [List.drop_eq_getElem_cons h0, List.drop_eq_getElem_cons h1, List.drop_eq_getElem_cons h2]
  · rw [show 3 * (i + 1) = 3 * i + 1 + 1 + 1 by omega,
      List.drop_eq_getElem_cons h0, List.drop_eq_getElem_cons h1, List.drop_eq_getElem_cons h2]
    rfl

theorem grp_length (url : Bool) (a b c : Byte) : (grp url a b c).length = 4 := rfl

theorem inner_later (e : Encoder) (src : List Byte) (end_ pause : Nat) (hl : e.lineMax ≠ 0)
    (hp : pause ≤ src.length) : ∀ (i fuel : Nat) (s : EncSt) (A Z B : List Byte), i < fuel →
    s.spos = pause → s.cs + 3 * i = pause → s.cd = A.length → s.dst = A ++ Z ++ B →
    Z.length = 4 * i →
    iter (innerBody .wrap e (tableOf e.isUrl) src end_ pause) fuel s =
      .ok { s with cs := pause, cd := A.length + 4 * i,
                   dst := A ++ enc e.isUrl ((src.drop s.cs).take (3 * i)) ++ B } := by
  intro i
  induction i with
  | zero =>
    intro fuel s A Z B hf hs hc hcd hd hz
    match fuel, hf with
    | fuel + 1, _ =>
      have hz' : Z = [] := by simpa using hz
      have : ¬ s.cs < pause := by omega
      have hcs : s.cs = pause := by omega
      simp only [iter, innerBody, this, if_false]
      cases s
      simp_all [enc]
  | succ i ih =>
    intro fuel s A Z B hf hs hc hcd hd hz
    match fuel, hf with
    | fuel + 1, hf =>
      obtain ⟨b0, b1, b2, hd3, ht3⟩ := take_three (src := src) (cs := s.cs) (i := i) (by omega)
      have hZ : Z = Z.take 4 ++ Z.drop 4 := (List.take_append_drop 4 Z).symm
      have hw : writeAll s.dst s.cd (grp e.isUrl b0 b1 b2) =
          .ok (A ++ grp e.isUrl b0 b1 b2 ++ (Z.drop 4 ++ B), A.length + 4) := by
        have := writeAll_append (grp e.isUrl b0 b1 b2) A (Z.take 4) (Z.drop 4 ++ B)
          (by simp [grp_length]; omega)
        have e1 : A ++ List.take 4 Z ++ (List.drop 4 Z ++ B) = A ++ Z ++ B := by
          rw [List.append_assoc, ← List.append_assoc (List.take 4 Z), List.take_append_drop,
            List.append_assoc]
        rw [e1] at this
        rw [hd, hcd, this]; rfl
      have hstep := innerBody_step e src end_ pause s b0 b1 b2 _ _ _ (by omega) hd3 hw
      have hz0 : (pause - s.spos) / 3 * 4 = 0 := by rw [hs]; simp
      have hcond : ¬ ((((pause - s.spos) / 3 * 4 : Nat) : Int) = e.lineMax ∧ pause < end_) := by
        rw [hz0]; intro h; exact hl h.1.symm
      rw [if_neg hcond, hz0] at hstep
      simp only [iter, hstep]
      rw [ih fuel _ (A ++ grp e.isUrl b0 b1 b2) (Z.drop 4) B (by omega) rfl (by simp; omega)
        (by simp [grp_length]) (by simp) (by simp; omega)]
      rw [ht3]
      simp only [enc, Outcome.ok.injEq, EncSt.mk.injEq, List.append_assoc, List.length_append,
        grp_length, and_true, true_and, hs]
      exact ⟨by omega, by omega⟩

/-- What one outer turn writes: the groups and, if the line is full and input
remains, the line separator. -/
def lineOut (e : Encoder) (src : List Byte) (end_ pause spos : Nat) : List Byte :=
  enc e.isUrl ((src.drop spos).take (pause - spos)) ++
    if (((pause - spos) / 3 * 4 : Nat) : Int) = e.lineMax ∧ pause < end_ then e.newLine else []

theorem enc_length3 (url : Bool) : ∀ (n : Nat) (l : List Byte), l.length = 3 * n →
    (enc url l).length = 4 * n := by
  intro n
  induction n with
  | zero => intro l h; simp at h; simp [h, enc]
  | succ n ih =>
    intro l h
    match l, h with
    | a :: b :: c :: l, h =>
      have := ih l (by simp at h; omega)
      simp only [enc, List.length_append, grp_length, this]; omega

theorem inner_all (e : Encoder) (src : List Byte) (end_ pause : Nat) (hl : e.lineMax ≠ 0)
    (hp : pause ≤ src.length) (i fuel : Nat) (s : EncSt) (pre : List Byte) (r : Nat)
    (hi : 0 < i) (hf : i < fuel) (hc : s.cs = s.spos) (hpi : s.spos + 3 * i = pause)
    (hcd : s.cd = pre.length) (hdp : s.dpos = pre.length)
    (hd : s.dst = pre ++ List.replicate r 0)
    (hr : (lineOut e src end_ pause s.spos).length ≤ r) :
    iter (innerBody .wrap e (tableOf e.isUrl) src end_ pause) fuel s =
      .ok { spos := pause, cs := pause, cd := pre.length + 4 * i,
            dpos := pre.length + (lineOut e src end_ pause s.spos).length,
            dst := pre ++ lineOut e src end_ pause s.spos ++
              List.replicate (r - (lineOut e src end_ pause s.spos).length) 0 } := by
  obtain ⟨j, rfl⟩ : ∃ j, i = j + 1 := ⟨i - 1, by omega⟩
  match fuel, hf with
  | fuel + 1, hf =>
    obtain ⟨b0, b1, b2, hd3, ht3⟩ := take_three (src := src) (cs := s.cs) (i := j) (by omega)
    have hlen : (pause - s.spos) / 3 * 4 = 4 * (j + 1) := by
      rw [← hpi]; omega
    have hencl : (enc e.isUrl ((src.drop s.spos).take (pause - s.spos))).length = 4 * (j + 1) := by
      apply enc_length3
      simp; omega
    -- the newline part
    let nl : List Byte := if (((pause - s.spos) / 3 * 4 : Nat) : Int) = e.lineMax ∧ pause < end_
      then e.newLine else []
    have hlo : lineOut e src end_ pause s.spos =
        enc e.isUrl ((src.drop s.spos).take (pause - s.spos)) ++ nl := rfl
    have hlol : (lineOut e src end_ pause s.spos).length = 4 * (j + 1) + nl.length := by
      rw [hlo, List.length_append, hencl]
    have hps : pause - s.spos = 3 * (j + 1) := by omega
    have hw : writeAll s.dst s.cd (grp e.isUrl b0 b1 b2) =
        .ok (pre ++ grp e.isUrl b0 b1 b2 ++ List.replicate (r - 4) 0, pre.length + 4) := by
      rw [hd, hcd, writeAll_zeros _ _ _ (by simp [grp_length]; omega)]; rfl
    have hstep := innerBody_step e src end_ pause s b0 b1 b2 _ _ _ (by omega) hd3 hw
    -- after the newline has been written
    have hafter : innerBody .wrap e (tableOf e.isUrl) src end_ pause s =
        .ok (.next ⟨pause, pre.length + 4 * (j + 1) + nl.length, s.cs + 3, pre.length + 4,
          pre ++ grp e.isUrl b0 b1 b2 ++ List.replicate (4 * j) 0 ++
            (nl ++ List.replicate (r - (4 * (j + 1) + nl.length)) 0)⟩) := by
      rw [hstep, hlen, hdp]
      have hrep : List.replicate (r - 4) (0 : Byte) =
          List.replicate (4 * j) 0 ++ List.replicate (r - 4 * (j + 1)) 0 := by
        rw [List.replicate_append_replicate]; congr 1; omega
      by_cases hcnd : (((4 * (j + 1) : Nat) : Int) = e.lineMax ∧ pause < end_)
      · have hnl : nl = e.newLine := by simp only [nl, hlen]; rw [if_pos hcnd]
        rw [if_pos hcnd]
        have := writeAll_zeros e.newLine
          (pre ++ grp e.isUrl b0 b1 b2 ++ List.replicate (4 * j) 0) (r - 4 * (j + 1))
          (by rw [hnl] at hlol; omega)
        have hlenA : (pre ++ grp e.isUrl b0 b1 b2 ++ List.replicate (4 * j) 0).length =
          pre.length + 4 * (j + 1) := by simp [grp_length]; omega
        rw [hlenA] at this
        rw [hrep, ← List.append_assoc, this]
        simp only [Outcome.bind, hnl, List.append_assoc]
        have e2 : r - (4 * (j + 1) + e.newLine.length) = r - 4 * (j + 1) - e.newLine.length := by
          omega
        rw [e2]
      · have hnl : nl = [] := by simp only [nl, hlen]; rw [if_neg hcnd]
        rw [if_neg hcnd, hrep, hnl]
        simp
    simp only [iter, hafter]
    rw [inner_later e src end_ pause hl hp j fuel _ (pre ++ grp e.isUrl b0 b1 b2)
      (List.replicate (4 * j) 0) _ (by omega) rfl (by simp; omega) (by simp [grp_length]) rfl
      (by simp)]
    have henc : enc e.isUrl ((src.drop s.spos).take (pause - s.spos)) =
        grp e.isUrl b0 b1 b2 ++ enc e.isUrl ((src.drop (s.cs + 3)).take (3 * j)) := by
      rw [hps, ← hc, ht3]; rfl
    simp only [Outcome.ok.injEq, EncSt.mk.injEq, true_and]
    rw [hlol, hlo, henc]
    refine ⟨by omega, ?_, ?_⟩
    · simp [grp_length]; omega
    · simp [List.append_assoc]

end Verif.Base64
