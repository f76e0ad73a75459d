import Verif.Base64.EncLemmas
/-! The whole encoder. -/
namespace Verif.Base64
open Spec

def pauseOf (chunk stop spos : Nat) : Nat := min (spos + chunk) stop

/-- Output of the outer loop. -/
def layout (e : Encoder) (src : List Byte) (stop chunk : Nat) : Nat → Nat → List Byte
  | 0, _ => []
  | f + 1, spos =>
    if spos < stop then
      lineOut e src src.length (pauseOf chunk stop spos) spos ++
        layout e src stop chunk f (pauseOf chunk stop spos)
    else []

theorem outer_loop (e : Encoder) (src : List Byte) (stop c : Nat)
    (hl : e.lineMax ≠ 0) (hs : stop ≤ src.length) (hc : 0 < c)
    (hmax : ∀ k : Nat, 3 * c * k < stop → ((3 * c * k + 3 * c : Nat) : Int) ≤ INT_MAX) :
    ∀ (g fuel : Nat) (s : EncSt) (pre : List Byte) (r : Nat), g < fuel →
    s.spos + 3 * g = stop → (s.spos < stop → ∃ k, s.spos = 3 * c * k) → s.dpos = pre.length → s.dst = pre ++ List.replicate r 0 →
    (layout e src stop (3 * c) fuel s.spos).length ≤ r →
    ∃ s', iter (outerBody .wrap e (tableOf e.isUrl) src src.length stop (3 * c)) fuel s = .ok s' ∧
      s'.spos = stop ∧
      s'.dpos = pre.length + (layout e src stop (3 * c) fuel s.spos).length ∧
      s'.dst = pre ++ layout e src stop (3 * c) fuel s.spos ++
        List.replicate (r - (layout e src stop (3 * c) fuel s.spos).length) 0 := by
  intro g
  induction g using Nat.strongRecOn with
  | _ g ih =>
    intro fuel s pre r hf hg hk hdp hd hr
    match fuel, hf with
    | fuel + 1, hf =>
      by_cases hlt : s.spos < stop
      · obtain ⟨k, hk⟩ := hk hlt
        have hmk := hmax k (by omega)
        -- number of groups in this turn
        obtain ⟨i, hi0, hig, hpi⟩ : ∃ i, 0 < i ∧ i ≤ g ∧
            s.spos + 3 * i = pauseOf (3 * c) stop s.spos := by
          refine ⟨min c g, by omega, by omega, ?_⟩
          unfold pauseOf; omega
        have hchk : chk32 ((s.spos : Int) + (3 * c : Nat)) = .ok ((s.spos : Int) + (3 * c : Nat)) := by
          apply chk32_ok
          · simp only [INT_MIN]; omega
          · omega
        have hmin : min ((s.spos : Int) + (3 * c : Nat)).toNat stop = pauseOf (3 * c) stop s.spos := by
          unfold pauseOf; omega
        have hlay : layout e src stop (3 * c) (fuel + 1) s.spos =
            lineOut e src src.length (pauseOf (3 * c) stop s.spos) s.spos ++
              layout e src stop (3 * c) fuel (pauseOf (3 * c) stop s.spos) := by
          simp only [layout, hlt, if_true]
        have hps : pauseOf (3 * c) stop s.spos ≤ stop := by unfold pauseOf; omega
        have hin := inner_all e src src.length (pauseOf (3 * c) stop s.spos) hl
          (by omega) i (src.length + 1) { s with cs := s.spos, cd := s.dpos } pre r hi0
          (by omega) rfl hpi hdp hdp hd (by rw [hlay] at hr; simp at hr; simp; omega)
        have hbody : outerBody .wrap e (tableOf e.isUrl) src src.length stop (3 * c) s =
            .ok (.next { spos := pauseOf (3 * c) stop s.spos, cs := pauseOf (3 * c) stop s.spos,
                         cd := pre.length + 4 * i,
                         dpos := pre.length + (lineOut e src src.length (pauseOf (3 * c) stop s.spos) s.spos).length,
                         dst := pre ++ lineOut e src src.length (pauseOf (3 * c) stop s.spos) s.spos ++
                           List.replicate (r - (lineOut e src src.length (pauseOf (3 * c) stop s.spos) s.spos).length) 0 }) := by
          unfold outerBody
          simp only [hlt, if_true, Outcome.bind_eq, hchk, Outcome.bind, hmin]
          rw [hin]
        obtain ⟨s', h1, h2, h3, h4⟩ := ih (g - i) (by omega) fuel
          { spos := pauseOf (3 * c) stop s.spos, cs := pauseOf (3 * c) stop s.spos,
            cd := pre.length + 4 * i,
            dpos := pre.length + (lineOut e src src.length (pauseOf (3 * c) stop s.spos) s.spos).length,
            dst := pre ++ lineOut e src src.length (pauseOf (3 * c) stop s.spos) s.spos ++
              List.replicate (r - (lineOut e src src.length (pauseOf (3 * c) stop s.spos) s.spos).length) 0 }
          (pre ++ lineOut e src src.length (pauseOf (3 * c) stop s.spos) s.spos)
          (r - (lineOut e src src.length (pauseOf (3 * c) stop s.spos) s.spos).length)
          (by omega) (by simp; omega)
          (by
            intro hl2
            refine ⟨k + 1, ?_⟩
            simp only [pauseOf] at hl2 ⊢
            rw [Nat.mul_add, ← hk]; omega)
          (by simp) rfl
          (by rw [hlay] at hr; simp at hr; simp; omega)
        refine ⟨s', ?_, h2, ?_, ?_⟩
        · simp only [iter, hbody]; exact h1
        · rw [h3, hlay]; simp; omega
        · rw [h4, hlay]; simp only [List.append_assoc, List.length_append]
          rw [Nat.sub_sub]
      · have : s.spos = stop := by omega
        refine ⟨s, ?_, this, ?_, ?_⟩
        · simp [iter, outerBody, hlt]
        · simp [layout, hlt, hdp]
        · simp [layout, hlt, hd]

/-- What `encTail` writes. -/
def tailOut (url pad : Bool) : List Byte → List Byte
  | [b0] => tail1 url b0 ++ if pad then [padChar, padChar] else []
  | [b0, b1] => tail2 url b0 b1 ++ if pad then [padChar] else []
  | _ => []

theorem writeAll_two (dst : List Byte) (p : Nat) (v : Byte) (vs : List Byte) (f : List Byte × Nat → List Byte) :
    (writeAll dst p [v]).bind (fun x => writeAll x.1 x.2 vs) = writeAll dst p (v :: vs) := by
  simp only [writeAll, Outcome.bind_eq]
  cases Arr.set dst (↑p) v <;> rfl

theorem encTail_eq (e : Encoder) (src : List Byte) (s : EncSt) (pre : List Byte) (r : Nat)
    (hs : s.spos ≤ src.length) (ht : src.length - s.spos < 3)
    (hdp : s.dpos = pre.length) (hd : s.dst = pre ++ List.replicate r 0)
    (hr : (tailOut e.isUrl e.doPadding (src.drop s.spos)).length ≤ r) :
    encTail e (tableOf e.isUrl) src src.length s =
      .ok (pre ++ tailOut e.isUrl e.doPadding (src.drop s.spos) ++
            List.replicate (r - (tailOut e.isUrl e.doPadding (src.drop s.spos)).length) 0,
          pre.length + (tailOut e.isUrl e.doPadding (src.drop s.spos)).length) := by
  have hlen : (src.drop s.spos).length = src.length - s.spos := by simp
  match hdr : src.drop s.spos with
  | [] =>
    rw [hdr] at hlen
    have : ¬ s.spos < src.length := by simp at hlen; omega
    simp [encTail, this, tailOut, hdp, hd]
  | [b0] =>
    rw [hdr] at hlen hr
    have hlt : s.spos < src.length := by simp at hlen; omega
    have heq : s.spos + 1 = src.length := by simp at hlen; omega
    have g0 : Arr.get src (s.spos : Int) = .ok b0 := get_of_drop hdr
    have hb := b0.isLt
    have t0 : Arr.get (tableOf e.isUrl) ((b0.toNat >>> 2 : Nat) : Int) =
        .ok (symbol e.isUrl (b0.toNat / 4)) := by
      rw [Nat.shiftRight_eq_div_pow, get_table _ _ (by omega)]
    have t1 : Arr.get (tableOf e.isUrl) ((b0.toNat <<< 4 &&& 0x3f : Nat) : Int) =
        .ok (symbol e.isUrl (b0.toNat * 16 % 64)) := by
      rw [and63, Nat.shiftLeft_eq, get_table _ _ (by omega)]
    have hw := writeAll_zeros (tailOut e.isUrl e.doPadding [b0]) pre r hr
    rw [← hdp, ← hd] at hw
    have hsplit : tailOut e.isUrl e.doPadding [b0] =
      symbol e.isUrl (b0.toNat / 4) :: ([symbol e.isUrl (b0.toNat * 16 % 64)] ++
        if e.doPadding then [ch '=', ch '='] else []) := by
      simp only [tailOut, tail1]; rfl
    rw [hsplit, ← writeAll_two _ _ _ _ (fun x => x.1), ← hsplit] at hw
    unfold encTail
    simp only [hlt, if_true, Outcome.bind_eq, g0, Outcome.bind, t0, heq, t1]
    rw [← hdp]; exact hw
  | [b0, b1] =>
    rw [hdr] at hlen hr
    have hlt : s.spos < src.length := by simp at hlen; omega
    have hne : ¬ s.spos + 1 = src.length := by simp at hlen; omega
    have g0 : Arr.get src (s.spos : Int) = .ok b0 := get_of_drop hdr
    have g1 : Arr.get src ((s.spos + 1 : Nat) : Int) = .ok b1 := get_of_drop (drop_succ_of hdr)
    have hb := b0.isLt
    have hb1 := b1.isLt
    have t0 : Arr.get (tableOf e.isUrl) ((b0.toNat >>> 2 : Nat) : Int) =
        .ok (symbol e.isUrl (b0.toNat / 4)) := by
      rw [Nat.shiftRight_eq_div_pow, get_table _ _ (by omega)]
    have hor : (b0.toNat <<< 4 &&& 0x3f ||| b1.toNat >>> 4) = b0.toNat * 16 % 64 + b1.toNat / 16 := by
      rw [and63, Nat.shiftLeft_eq, Nat.shiftRight_eq_div_pow]
      have h1 : b0.toNat * 2 ^ 4 % 64 = (b0.toNat % 4) <<< 4 := by rw [Nat.shiftLeft_eq]; omega
      rw [h1, ← Nat.shiftLeft_add_eq_or_of_lt (by omega), Nat.shiftLeft_eq]
    have t1 : Arr.get (tableOf e.isUrl) ((b0.toNat <<< 4 &&& 0x3f ||| b1.toNat >>> 4 : Nat) : Int) =
        .ok (symbol e.isUrl (b0.toNat * 16 % 64 + b1.toNat / 16)) := by
      rw [hor, get_table _ _ (by omega)]
    have t2 : Arr.get (tableOf e.isUrl) ((b1.toNat <<< 2 &&& 0x3f : Nat) : Int) =
        .ok (symbol e.isUrl (b1.toNat * 4 % 64)) := by
      rw [and63, Nat.shiftLeft_eq, get_table _ _ (by omega)]
    have hw := writeAll_zeros (tailOut e.isUrl e.doPadding [b0, b1]) pre r hr
    rw [← hdp, ← hd] at hw
    have hsplit : tailOut e.isUrl e.doPadding [b0, b1] =
      symbol e.isUrl (b0.toNat / 4) :: ([symbol e.isUrl (b0.toNat * 16 % 64 + b1.toNat / 16),
        symbol e.isUrl (b1.toNat * 4 % 64)] ++
        if e.doPadding then [ch '='] else []) := by
      simp only [tailOut, tail2]; rfl
    rw [hsplit, ← writeAll_two _ _ _ _ (fun x => x.1), ← hsplit] at hw
    unfold encTail
    simp only [hlt, if_true, Outcome.bind_eq, g0, g1, Outcome.bind, t0, hne, if_false, t1, t2]
    rw [← hdp]; exact hw
  | b0 :: b1 :: b2 :: rest =>
    rw [hdr] at hlen; simp at hlen; omega

/-! ## relation to the specification -/

theorem enc_append3 (url : Bool) : ∀ (n : Nat) (a b : List Byte), a.length = 3 * n →
    enc url (a ++ b) = enc url a ++ enc url b := by
  intro n
  induction n with
  | zero => intro a b h; simp at h; simp [h, enc]
  | succ n ih =>
    intro a b h
    match a, h with
    | x :: y :: z :: a, h =>
      simp only [List.cons_append, enc, ih a b (by simp at h; omega), List.append_assoc]

/-- Encoded text of a suffix, with the padding. -/
def text (url pad : Bool) (bs : List Byte) : List Byte := Spec.encode url pad bs

theorem enc_length (url : Bool) (l : List Byte) :
    (enc url l).length = (4 * l.length + 2) / 3 := by
  fun_induction enc url l with
  | case1 b0 b1 b2 rest ih => simp only [List.length_append, grp_length, ih, List.length_cons]; omega
  | case2 => simp [tail2]
  | case3 => simp [tail1]
  | case4 => simp

theorem encode_append3 (url pad : Bool) (n : Nat) (a b : List Byte) (h : a.length = 3 * n) :
    Spec.encode url pad (a ++ b) = enc url a ++ Spec.encode url pad b := by
  simp only [Spec.encode, body_eq_enc, enc_append3 url n a b h, List.length_append,
    enc_length3 url n a h, List.append_assoc]
  have : (4 * n + (enc url b).length) % 4 = (enc url b).length % 4 := by omega
  rw [this]

theorem encode_short (url pad : Bool) (b : List Byte) (h : b.length < 3) :
    Spec.encode url pad b = tailOut url pad b := by
  match b, h with
  | [], _ => simp [Spec.encode, body_eq_enc, enc, tailOut]
  | [x], _ => cases pad <;> simp [Spec.encode, body_eq_enc, enc, tailOut, tail1, List.replicate]
  | [x, y], _ => cases pad <;> simp [Spec.encode, body_eq_enc, enc, tailOut, tail2, List.replicate]

theorem encode_nil_iff (url pad : Bool) (b : List Byte) : Spec.encode url pad b = [] ↔ b = [] := by
  constructor
  · intro h
    have : (enc url b).length = 0 := by
      simp only [Spec.encode, body_eq_enc, List.append_eq_nil_iff] at h
      simp [h.1]
    rw [enc_length] at this
    apply List.eq_nil_of_length_eq_zero; omega
  · rintro rfl; simp [Spec.encode, body_eq_enc, enc]

theorem encode_length (url pad : Bool) (b : List Byte) : (Spec.encode url pad b).length =
    if pad then 4 * ((b.length + 2) / 3) else (4 * b.length + 2) / 3 := by
  cases pad
  · simp [Spec.encode, body_eq_enc, enc_length]
  · simp [Spec.encode, body_eq_enc, enc_length]; omega

/-! ### lines -/

theorem lines_fuel (n : Nat) (hn : 0 < n) : ∀ (f g : Nat) (l : List Byte), l.length ≤ f → l.length ≤ g →
    lines n f l = lines n g l := by
  intro f
  induction f with
  | zero =>
    intro g l hf hg
    have : l = [] := List.eq_nil_of_length_eq_zero (by omega)
    subst this
    cases g <;> simp [lines]
  | succ f ih =>
    intro g l hf hg
    by_cases h : l = []
    · subst h; cases g <;> simp [lines]
    · have : 0 < l.length := List.length_pos_iff.mpr h
      match g, hg with
      | 0, hg => omega
      | g + 1, hg =>
        simp only [lines, h, if_false]
        rw [ih g (l.drop n) (by simp; omega) (by simp; omega)]

theorem wrapped_nil (n : Nat) (sep : List Byte) : wrapped n sep [] = [] := by
  simp [wrapped, lines]

theorem wrapped_short (n : Nat) (sep l : List Byte) (h : l.length ≤ n) : wrapped n sep l = l := by
  by_cases hl : l = []
  · subst hl; exact wrapped_nil _ _
  · have hpos : 0 < l.length := List.length_pos_iff.mpr hl
    obtain ⟨k, hk⟩ : ∃ k, l.length = k + 1 := ⟨l.length - 1, by omega⟩
    have hd : l.drop n = [] := List.drop_eq_nil_of_le h
    have : lines n k ([] : List Byte) = [] := by cases k <;> simp [lines]
    simp only [wrapped, hk, lines, hl, if_false, hd, this, List.take_of_length_le h]
    simp [List.intercalate]

theorem wrapped_append (n : Nat) (hn : 0 < n) (sep a b : List Byte) (ha : a.length = n) :
    wrapped n sep (a ++ b) = a ++ (if b = [] then [] else sep ++ wrapped n sep b) := by
  have hne : a ++ b ≠ [] := by intro h; simp at h; simp [h.1] at ha; omega
  obtain ⟨k, hk⟩ : ∃ k, (a ++ b).length = k + 1 := ⟨(a ++ b).length - 1, by simp; omega⟩
  have hk' : a.length + b.length = k + 1 := by simpa using hk
  have hdrop : (a ++ b).drop n = b := by rw [← ha]; simp
  have htake : (a ++ b).take n = a := by rw [← ha]; simp
  have hl : lines n k b = lines n b.length b := lines_fuel n hn _ _ _ (by omega) (by omega)
  simp only [wrapped, hk, lines, hne, if_false, hdrop, htake, hl]
  by_cases hb : b = []
  · subst hb; simp [lines, List.intercalate]
  · simp only [hb, if_false]
    obtain ⟨j, hj⟩ : ∃ j, b.length = j + 1 := ⟨b.length - 1, by have := List.length_pos_iff.mpr hb; omega⟩
    simp only [hj, lines, hb, if_false, List.intercalate]
    simp [List.intersperse]

theorem wrapped_length (n : Nat) (hn : 0 < n) (sep : List Byte) : ∀ (k : Nat) (l : List Byte),
    l.length ≤ k → (wrapped n sep l).length = l.length + (l.length - 1) / n * sep.length := by
  intro k
  induction k with
  | zero =>
    intro l h
    have : l = [] := List.eq_nil_of_length_eq_zero (by omega)
    subst this; simp [wrapped_nil]
  | succ k ih =>
    intro l h
    by_cases hs : l.length ≤ n
    · rw [wrapped_short n sep l hs]
      have : (l.length - 1) / n = 0 := by apply Nat.div_eq_of_lt; omega
      simp [this]
    · have hsplit : l = l.take n ++ l.drop n := (List.take_append_drop n l).symm
      have hne : l.drop n ≠ [] := by
        intro h0; have := congrArg List.length h0; simp at this; omega
      have hlen := ih (l.drop n) (by simp; omega)
      rw [hsplit, wrapped_append n hn sep _ _ (by simp; omega), if_neg hne]
      simp only [List.length_append, hlen, List.length_take, List.length_drop]
      have h1 : min n l.length = n := by omega
      have h2 : (l.length - 1) / n = (l.length - n - 1) / n + 1 := by
        rw [← Nat.add_div_right _ hn]; congr 1; omega
      rw [h1]
      have h3 : (n + (l.length - n) - 1) / n = (l.length - n - 1) / n + 1 := by
        rw [← h2]; congr 1; omega
      rw [h3, Nat.add_mul]; omega

/-- The bytes the encoder writes in lines are the wrapped RFC text. -/
theorem layout_tail_eq (e : Encoder) (src : List Byte) (K chunk : Nat) (hK : 0 < K)
    (hlm : e.lineMax = ((4 * K : Nat) : Int))
    (hchunk : chunk = if src.length / 3 * 3 > 3 * K then 3 * K else src.length / 3 * 3) :
    ∀ (g fuel spos : Nat), g < fuel → spos + 3 * g = src.length / 3 * 3 →
      layout e src (src.length / 3 * 3) chunk fuel spos ++
        tailOut e.isUrl e.doPadding (src.drop (src.length / 3 * 3)) =
      wrapped (4 * K) e.newLine (Spec.encode e.isUrl e.doPadding (src.drop spos)) := by
  intro g
  induction g using Nat.strongRecOn with
  | _ g ih =>
    intro fuel spos hf hg
    match fuel, hf with
    | fuel + 1, hf =>
      by_cases hlt : spos < src.length / 3 * 3
      · simp only [layout, hlt, if_true, List.append_assoc]
        have hmod : src.length / 3 * 3 ≤ src.length := Nat.div_mul_le_self _ _
        by_cases hfull : spos + 3 * K ≤ src.length / 3 * 3
        · -- a full line
          have hp : pauseOf chunk (src.length / 3 * 3) spos = spos + 3 * K := by
            unfold pauseOf; rw [hchunk]; split <;> omega
          rw [hp, ih (g - K) (by omega) fuel (spos + 3 * K) (by omega) (by omega)]
          have hsplit : src.drop spos = (src.drop spos).take (3 * K) ++ src.drop (spos + 3 * K) := by
            rw [← List.drop_drop, List.take_append_drop]
          have hl3 : ((src.drop spos).take (3 * K)).length = 3 * K := by simp; omega
          rw [hsplit, encode_append3 _ _ K _ _ hl3,
            wrapped_append (4 * K) (by omega) _ _ _ (enc_length3 _ _ _ hl3)]
          simp only [lineOut, encode_nil_iff, List.append_assoc]
          have e1 : spos + 3 * K - spos = 3 * K := by omega
          have e2 : 3 * K / 3 * 4 = 4 * K := by omega
          rw [e1, e2, hlm]
          by_cases hend : spos + 3 * K < src.length
          · have hne : src.drop (spos + 3 * K) ≠ [] := by
              intro h0; have := congrArg List.length h0; simp at this; omega
            simp [hend, hne]
          · have hnil : src.drop (spos + 3 * K) = [] := List.drop_eq_nil_of_le (by omega)
            have henc : Spec.encode e.isUrl e.doPadding [] = [] :=
              (encode_nil_iff _ _ _).mpr rfl
            simp only [hend, and_false, if_false, hnil, if_true, henc, wrapped_nil,
              List.append_nil]
        · -- last, incomplete line
          have hp : pauseOf chunk (src.length / 3 * 3) spos = src.length / 3 * 3 := by
            unfold pauseOf; rw [hchunk]; split <;> omega
          rw [hp]
          have hl0 : layout e src (src.length / 3 * 3) chunk fuel (src.length / 3 * 3) = [] := by
            cases fuel <;> simp [layout]
          rw [hl0, List.nil_append]
          have hsplit : src.drop spos = (src.drop spos).take (3 * g) ++ src.drop (spos + 3 * g) := by
            rw [← List.drop_drop, List.take_append_drop]
          have hl3 : ((src.drop spos).take (3 * g)).length = 3 * g := by simp; omega
          have hshort : (src.drop (spos + 3 * g)).length < 3 := by simp; omega
          have hgs : src.length / 3 * 3 - spos = 3 * g := by omega
          rw [wrapped_short]
          · conv => rhs; rw [hsplit]
            rw [encode_append3 _ _ g _ _ hl3, encode_short _ _ _ hshort]
            simp only [lineOut, hgs]
            have hno : ¬ ((3 * g / 3 * 4 : Nat) : Int) = e.lineMax := by rw [hlm]; omega
            simp only [hno, false_and, if_false, List.append_nil, hg]
          · rw [encode_length]; simp only [List.length_drop]; split <;> omega
      · have h0 : spos = src.length / 3 * 3 := by omega
        subst h0
        have hshort : (src.drop (src.length / 3 * 3)).length < 3 := by simp; omega
        simp only [layout, Nat.lt_irrefl, if_false, List.nil_append]
        rw [encode_short _ _ _ hshort, wrapped_short]
        rw [← encode_short _ _ _ hshort, encode_length]
        simp only [List.length_drop]; split <;> omega

/-- Without line separation the output is the RFC text. -/
theorem layout_tail_nolines (e : Encoder) (src : List Byte) (hlm : e.lineMax < 0)
    (fuel : Nat) (hf : 1 < fuel) :
      layout e src (src.length / 3 * 3) (src.length / 3 * 3) fuel 0 ++
        tailOut e.isUrl e.doPadding (src.drop (src.length / 3 * 3)) =
      Spec.encode e.isUrl e.doPadding src := by
  have hmod : src.length / 3 * 3 ≤ src.length := Nat.div_mul_le_self _ _
  have hshort : (src.drop (src.length / 3 * 3)).length < 3 := by simp; omega
  have hl3 : (src.take (src.length / 3 * 3)).length = 3 * (src.length / 3) := by simp; omega
  have hspec : Spec.encode e.isUrl e.doPadding src =
      enc e.isUrl (src.take (src.length / 3 * 3)) ++
        tailOut e.isUrl e.doPadding (src.drop (src.length / 3 * 3)) := by
    conv => lhs; rw [← List.take_append_drop (src.length / 3 * 3) src]
    rw [encode_append3 _ _ _ _ _ hl3, encode_short _ _ _ hshort]
  rw [hspec]
  congr 1
  match fuel, hf with
  | fuel + 1, hf =>
    by_cases h0 : 0 < src.length / 3 * 3
    · have hp : pauseOf (src.length / 3 * 3) (src.length / 3 * 3) 0 = src.length / 3 * 3 := by
        unfold pauseOf; omega
      have hno : ¬ ((src.length / 3 * 3 / 3 * 4 : Nat) : Int) = e.lineMax := by omega
      have hl0 : layout e src (src.length / 3 * 3) (src.length / 3 * 3) fuel (src.length / 3 * 3) = [] := by
        cases fuel <;> simp [layout]
      simp only [layout, h0, if_true, hp, lineOut, hno, false_and, if_false, hl0, List.append_nil,
        Nat.sub_zero, List.drop_zero]
    · have : src.length / 3 * 3 = 0 := by omega
      simp [layout, this, enc]

end Verif.Base64
