import Verif.Sha1.Model
import Verif.Sha1.Spec
/-! # Lemmas about SHA-1 -/
namespace Verif.Sha1
open Verif.Hash

/-! ## One block -/

theorem rot_eq (x : Word) (n : Nat) (h : n < 32) : rot x n = x.rotateLeft n := by
  unfold rot
  rw [BitVec.rotateLeft_def, Nat.mod_eq_of_lt h]

theorem extend_fold (block : List Byte) (W : List Word) (hl : W.length = 80) (hw : W.take 16 = (List.range 16).map (FIPS.word block)) :
    ∀ n, n ≤ 64 → ((List.range' 16 n).foldl extend W).length = 80 ∧
      ((List.range' 16 n).foldl extend W).take (16 + n) = FIPS.schedule block n := by
  intro n
  induction n with
  | zero => intro _; exact ⟨hl, hw⟩
  | succ n ih =>
    intro hn
    obtain ⟨h1, h2⟩ := ih (by omega)
    rw [List.range'_1_concat, List.foldl_append, List.foldl_cons, List.foldl_nil]
    generalize List.foldl extend W (List.range' 16 n) = V at *
    have hg : ∀ j, 0 < j → j ≤ 16 → V.getD (16 + n - j) 0#32 = (FIPS.schedule block n).getD (16 + n - j) 0 := by
      intro j hj hj'
      rw [← h2, List.getD_eq_getElem?_getD, List.getD_eq_getElem?_getD, List.getElem?_take_of_lt (by omega)]
      rfl
    refine ⟨by unfold extend; rw [List.length_set, h1], ?_⟩
    unfold extend FIPS.schedule
    rw [hg 3 (by omega) (by omega), hg 8 (by omega) (by omega), hg 14 (by omega) (by omega), hg 16 (by omega) (by omega), rot_eq _ _ (by omega)]
    simp only
    generalize BitVec.rotateLeft _ 1 = x
    rw [← Nat.add_assoc, List.take_succ, List.take_set_of_le (by omega), h2, List.getElem?_set_self (by omega)]
    rfl

/-- The registers in the order of the standard. -/
def words (r : Regs) : FIPS.Buffer := (r.a, r.b, r.c, r.d, r.e)

theorem turn_fold (f : Word → Word → Word → Word) (k : Word) (W : List Word) : ∀ (l : List Nat) (r : Regs),
    (∀ t ∈ l, (∀ b c d, FIPS.f t b c d = f b c d) ∧ FIPS.K t = k) →
    words (l.foldl (turn f k W) r) = l.foldl (FIPS.step W) (words r) := by
  intro l
  induction l with
  | nil => intro r _; rfl
  | cons t l ih =>
    intro r h
    obtain ⟨hf, hk⟩ := h t (List.mem_cons_self ..)
    rw [List.foldl_cons, List.foldl_cons, ih _ fun u hu => h u (List.mem_cons_of_mem _ hu)]
    congr 1
    show (rot r.a 5 + f r.b r.c r.d + r.e + W.getD t 0#32 + k, r.a, rot r.b 30, r.c, r.d) =
      (r.a.rotateLeft 5 + FIPS.f t r.b r.c r.d + r.e + W.getD t 0 + FIPS.K t, r.a, r.b.rotateLeft 30, r.c, r.d)
    rw [hf, hk, rot_eq _ _ (by omega), rot_eq _ _ (by omega)]
    rfl

theorem choose_eq (b c d : Word) : (b &&& c) ||| (~~~b &&& d) = ((c ^^^ d) &&& b) ^^^ d := by
  apply BitVec.eq_of_getLsbD_eq
  intro i hi
  simp only [BitVec.getLsbD_or, BitVec.getLsbD_and, BitVec.getLsbD_xor, BitVec.getLsbD_not, hi, decide_true, Bool.true_and]
  cases b.getLsbD i <;> cases c.getLsbD i <;> cases d.getLsbD i <;> rfl

theorem majority_eq (b c d : Word) : (b &&& c) ||| (b &&& d) ||| (c &&& d) = (b &&& c) ||| (d &&& (b ||| c)) := by
  apply BitVec.eq_of_getLsbD_eq
  intro i hi
  simp only [BitVec.getLsbD_or, BitVec.getLsbD_and]
  cases b.getLsbD i <;> cases c.getLsbD i <;> cases d.getLsbD i <;> rfl

theorem rounds_eq (W : List Word) (r : Regs) : words (rounds W r) = (List.range 80).foldl (FIPS.step W) (words r) := by
  unfold rounds
  simp only
  have t1 := turn_fold (fun B C D => ((C ^^^ D) &&& B) ^^^ D) 0x5a827999#32 W (List.range' 0 20)
  have t2 := turn_fold (fun B C D => B ^^^ C ^^^ D) 0x6ed9eba1#32 W (List.range' 20 20)
  have t3 := turn_fold (fun B C D => (B &&& C) ||| (D &&& (B ||| C))) 0x8f1bbcdc#32 W (List.range' 40 20)
  have t4 := turn_fold (fun B C D => B ^^^ C ^^^ D) 0xca62c1d6#32 W (List.range' 60 20)
  have e1 := t1 r (by
    intro t ht
    rw [List.mem_range'_1] at ht
    refine ⟨fun b c d => ?_, by unfold FIPS.K; rw [if_pos (by omega)]; rfl⟩
    unfold FIPS.f
    rw [if_pos (by omega), choose_eq])
  generalize List.foldl (turn _ _ _) r (List.range' 0 20) = r1 at *
  have e2 := t2 r1 (by
    intro t ht
    rw [List.mem_range'_1] at ht
    refine ⟨fun b c d => ?_, by unfold FIPS.K; rw [if_neg (by omega), if_pos (by omega)]; rfl⟩
    unfold FIPS.f
    rw [if_neg (by omega), if_pos (by omega)])
  generalize List.foldl (turn _ _ _) r1 (List.range' 20 20) = r2 at *
  have e3 := t3 r2 (by
    intro t ht
    rw [List.mem_range'_1] at ht
    refine ⟨fun b c d => ?_, by unfold FIPS.K; rw [if_neg (by omega), if_neg (by omega), if_pos (by omega)]; rfl⟩
    unfold FIPS.f
    rw [if_neg (by omega), if_neg (by omega), if_pos (by omega), majority_eq])
  generalize List.foldl (turn _ _ _) r2 (List.range' 40 20) = r3 at *
  have e4 := t4 r3 (by
    intro t ht
    rw [List.mem_range'_1] at ht
    refine ⟨fun b c d => ?_, by unfold FIPS.K; rw [if_neg (by omega), if_neg (by omega), if_neg (by omega)]; rfl⟩
    unfold FIPS.f
    rw [if_neg (by omega), if_neg (by omega), if_neg (by omega)])
  generalize List.foldl (turn _ _ _) r3 (List.range' 60 20) = r4 at *
  rw [show List.range 80 = List.range' 0 20 ++ List.range' 20 20 ++ List.range' 40 20 ++ List.range' 60 20 by decide, List.foldl_append,
    List.foldl_append, List.foldl_append, ← e1, ← e2, ← e3, ← e4]

/-- `shaHashBlock` is the compression of the standard. -/
theorem hashBlock_eq (ctx : Ctx) (block : List Byte) (hl : ctx.W.length = 80) (hw : ctx.W.take 16 = (List.range 16).map (FIPS.word block)) :
    words (hashBlock ctx).H = FIPS.compress (words ctx.H) block ∧ (hashBlock ctx).W.length = 80 := by
  obtain ⟨h1, h2⟩ := extend_fold block ctx.W hl hw 64 (by omega)
  rw [List.take_of_length_le (by omega)] at h2
  unfold hashBlock extendAll
  simp only
  refine ⟨?_, h1⟩
  rw [h2]
  unfold FIPS.compress
  rw [← rounds_eq]
  generalize rounds (FIPS.schedule block 64) ctx.H = r
  rfl

/-! ## Filling the words -/

/-- The first `rest.length` bytes of the 64 have been shifted into the words. -/
def Filled (W : List Word) (rest : List Byte) : Prop :=
  ∀ j, j < 16 → 4 * j ≤ rest.length → (W.getD j 0#32) <<< (8 * (4 * j + 4 - rest.length)) = FIPS.word rest j

theorem filled_nil (W : List Word) : Filled W [] := by
  intro j _ h
  have : j = 0 := by simp only [List.length_nil] at h; omega
  subst this
  show (W.getD 0 0#32) <<< 32 = 0#32
  exact BitVec.shiftLeft_eq_zero (Nat.le_refl _)

theorem getD_append_lt (l : List Byte) (x : Byte) (i : Nat) (h : i < l.length) : (l ++ [x]).getD i 0 = l.getD i 0 := by
  rw [List.getD_eq_getElem?_getD, List.getD_eq_getElem?_getD, List.getElem?_append_left h]

theorem getD_append_eq (l : List Byte) (x : Byte) (i : Nat) (h : i = l.length) : (l ++ [x]).getD i 0 = x := by
  subst h
  rw [List.getD_eq_getElem?_getD, List.getElem?_concat_length]
  rfl

theorem getD_ge (l : List Byte) (i : Nat) (h : l.length ≤ i) : l.getD i 0 = 0 := by
  rw [List.getD_eq_getElem?_getD, List.getElem?_eq_none h]
  rfl

theorem shift_in_toNat (w : Word) (x : Byte) : ((w <<< 8) ||| x.setWidth 32).toNat = w.toNat * 2 ^ 8 % 2 ^ 32 + x.toNat := by
  have hx := x.isLt
  rw [BitVec.toNat_or, BitVec.toNat_shiftLeft, BitVec.toNat_setWidth, Nat.shiftLeft_eq, Nat.mod_eq_of_lt (show x.toNat < 2 ^ 32 by omega),
    show w.toNat * 2 ^ 8 % 2 ^ 32 = 2 ^ 8 * (w.toNat % 2 ^ 24) by omega, ← Nat.two_pow_add_eq_or_of_lt hx]

theorem arith0 (w x : Nat) (hx : x < 2 ^ 8) :
    (w * 2 ^ 8 % 2 ^ 32 + x) * 2 ^ 24 % 2 ^ 32 = (2 ^ 24 * x + 2 ^ 16 * 0 + 2 ^ 8 * 0 + 0) % 2 ^ 32 := by
  omega

theorem arith1 (w x y : Nat) (hw : w < 2 ^ 32) (hx : x < 2 ^ 8) (hy : y < 2 ^ 8)
    (h : w * 2 ^ 24 % 2 ^ 32 = (2 ^ 24 * y + 2 ^ 16 * 0 + 2 ^ 8 * 0 + 0) % 2 ^ 32) :
    (w * 2 ^ 8 % 2 ^ 32 + x) * 2 ^ 16 % 2 ^ 32 = (2 ^ 24 * y + 2 ^ 16 * x + 2 ^ 8 * 0 + 0) % 2 ^ 32 := by
  have h1 : w % 2 ^ 8 = y := by omega
  have h2 : (w * 2 ^ 8 % 2 ^ 32 + x) % 2 ^ 16 = y * 2 ^ 8 + x := by omega
  clear h
  omega

theorem arith2 (w x y z : Nat) (hw : w < 2 ^ 32) (hx : x < 2 ^ 8) (hy : y < 2 ^ 8) (hz : z < 2 ^ 8)
    (h : w * 2 ^ 16 % 2 ^ 32 = (2 ^ 24 * y + 2 ^ 16 * z + 2 ^ 8 * 0 + 0) % 2 ^ 32) :
    (w * 2 ^ 8 % 2 ^ 32 + x) * 2 ^ 8 % 2 ^ 32 = (2 ^ 24 * y + 2 ^ 16 * z + 2 ^ 8 * x + 0) % 2 ^ 32 := by
  have h1 : w % 2 ^ 16 = y * 2 ^ 8 + z := by omega
  have h2 : (w * 2 ^ 8 % 2 ^ 32 + x) % 2 ^ 24 = y * 2 ^ 16 + z * 2 ^ 8 + x := by omega
  clear h
  omega

theorem arith3 (w x y z t : Nat) (hw : w < 2 ^ 32) (hx : x < 2 ^ 8) (hy : y < 2 ^ 8) (hz : z < 2 ^ 8) (ht : t < 2 ^ 8)
    (h : w * 2 ^ 8 % 2 ^ 32 = (2 ^ 24 * y + 2 ^ 16 * z + 2 ^ 8 * t + 0) % 2 ^ 32) :
    (w * 2 ^ 8 % 2 ^ 32 + x) * 2 ^ 0 % 2 ^ 32 = (2 ^ 24 * y + 2 ^ 16 * z + 2 ^ 8 * t + x) % 2 ^ 32 := by
  rw [h]
  omega

theorem filled_step (W : List Word) (rest : List Byte) (x : Byte) (w : Word) (hw : W[rest.length / 4]? = some w) (hr : rest.length < 64)
    (h : Filled W rest) : Filled (W.set (rest.length / 4) ((w <<< 8) ||| x.setWidth 32)) (rest ++ [x]) := by
  intro j hj hle
  have hlen : (rest ++ [x]).length = rest.length + 1 := by simp
  have hlt : rest.length / 4 < W.length := by
    rw [List.getElem?_eq_some_iff] at hw
    exact hw.1
  rw [hlen] at hle ⊢
  by_cases hjq : j = rest.length / 4
  · have hold := h j hj (by omega)
    have hg : W.getD j 0#32 = w := by
      rw [hjq, List.getD_eq_getElem?_getD, hw]; rfl
    rw [hg] at hold
    have hg' : (W.set (rest.length / 4) ((w <<< 8) ||| x.setWidth 32)).getD j 0#32 = (w <<< 8) ||| x.setWidth 32 := by
      rw [hjq, List.getD_eq_getElem?_getD, List.getElem?_set_self hlt]; rfl
    rw [hg']
    have hx := x.isLt
    have hww := w.isLt
    have hold' := congrArg BitVec.toNat hold
    apply BitVec.eq_of_toNat_eq
    unfold FIPS.word at hold' ⊢
    simp only [BitVec.toNat_ofNat] at hold' ⊢
    rw [BitVec.toNat_shiftLeft, Nat.shiftLeft_eq] at hold'
    rw [BitVec.toNat_shiftLeft, Nat.shiftLeft_eq, shift_in_toNat]
    have hmod : rest.length % 4 = 0 ∨ rest.length % 4 = 1 ∨ rest.length % 4 = 2 ∨ rest.length % 4 = 3 := by omega
    rcases hmod with hm | hm | hm | hm
    · rw [show 8 * (4 * j + 4 - rest.length) = 32 by omega] at hold'
      rw [show 8 * (4 * j + 4 - (rest.length + 1)) = 24 by omega]
      rw [getD_append_eq _ _ (4 * j + 0) (by omega), getD_ge _ (4 * j + 1) (by omega), getD_ge _ (4 * j + 2) (by omega), getD_ge _ (4 * j + 3) (by omega)]
      exact arith0 _ _ hx
    · rw [show 8 * (4 * j + 4 - rest.length) = 24 by omega] at hold'
      rw [show 8 * (4 * j + 4 - (rest.length + 1)) = 16 by omega]
      have b0 := (rest.getD (4 * j + 0) 0).isLt
      rw [getD_ge _ (4 * j + 1) (by omega), getD_ge _ (4 * j + 2) (by omega), getD_ge _ (4 * j + 3) (by omega)] at hold'
      rw [getD_append_lt _ _ (4 * j + 0) (by omega), getD_append_eq _ _ (4 * j + 1) (by omega), getD_ge _ (4 * j + 2) (by omega),
        getD_ge _ (4 * j + 3) (by omega)]
      exact arith1 _ _ _ hww hx b0 hold'
    · rw [show 8 * (4 * j + 4 - rest.length) = 16 by omega] at hold'
      rw [show 8 * (4 * j + 4 - (rest.length + 1)) = 8 by omega]
      have b0 := (rest.getD (4 * j + 0) 0).isLt
      have b1 := (rest.getD (4 * j + 1) 0).isLt
      rw [getD_ge _ (4 * j + 2) (by omega), getD_ge _ (4 * j + 3) (by omega)] at hold'
      rw [getD_append_lt _ _ (4 * j + 0) (by omega), getD_append_lt _ _ (4 * j + 1) (by omega), getD_append_eq _ _ (4 * j + 2) (by omega),
        getD_ge _ (4 * j + 3) (by omega)]
      exact arith2 _ _ _ _ hww hx b0 b1 hold'
    · rw [show 8 * (4 * j + 4 - rest.length) = 8 by omega] at hold'
      rw [show 8 * (4 * j + 4 - (rest.length + 1)) = 0 by omega]
      have b0 := (rest.getD (4 * j + 0) 0).isLt
      have b1 := (rest.getD (4 * j + 1) 0).isLt
      have b2 := (rest.getD (4 * j + 2) 0).isLt
      rw [getD_ge _ (4 * j + 3) (by omega)] at hold'
      rw [getD_append_lt _ _ (4 * j + 0) (by omega), getD_append_lt _ _ (4 * j + 1) (by omega), getD_append_lt _ _ (4 * j + 2) (by omega),
        getD_append_eq _ _ (4 * j + 3) (by omega)]
      exact arith3 _ _ _ _ _ hww hx b0 b1 b2 hold'
  · have hg' : (W.set (rest.length / 4) ((w <<< 8) ||| x.setWidth 32)).getD j 0#32 = W.getD j 0#32 := by
      rw [List.getD_eq_getElem?_getD, List.getD_eq_getElem?_getD, List.getElem?_set_ne (fun e => hjq e.symm)]
    rw [hg']
    by_cases hbig : rest.length / 4 < j
    · -- the word after the last complete one
      rw [show 8 * (4 * j + 4 - (rest.length + 1)) = 32 by omega, BitVec.shiftLeft_eq_zero (Nat.le_refl _)]
      unfold FIPS.word
      simp only
      rw [getD_ge _ (4 * j + 0) (by omega), getD_ge _ (4 * j + 1) (by omega), getD_ge _ (4 * j + 2) (by omega), getD_ge _ (4 * j + 3) (by omega)]
      rfl
    · have hold := h j hj (by omega)
      rw [show 8 * (4 * j + 4 - rest.length) = 0 by omega] at hold
      rw [show 8 * (4 * j + 4 - (rest.length + 1)) = 0 by omega, hold]
      unfold FIPS.word
      simp only
      rw [getD_append_lt _ _ (4 * j + 0) (by omega), getD_append_lt _ _ (4 * j + 1) (by omega), getD_append_lt _ _ (4 * j + 2) (by omega),
        getD_append_lt _ _ (4 * j + 3) (by omega)]

theorem filled_full (W : List Word) (rest : List Byte) (hl : W.length = 80) (hr : rest.length = 64) (h : Filled W rest) :
    W.take 16 = (List.range 16).map (FIPS.word rest) := by
  apply List.ext_getElem
  · rw [List.length_take, List.length_map, List.length_range]; omega
  · intro j h1 h2
    rw [List.length_map, List.length_range] at h2
    rw [List.getElem_take, List.getElem_map, List.getElem_range]
    have := h j h2 (by omega)
    rw [show 8 * (4 * j + 4 - rest.length) = 0 by omega, BitVec.shiftLeft_zero, List.getD_eq_getElem?_getD,
      List.getElem?_eq_getElem (by omega)] at this
    exact this

/-! ## A message -/

/-- The state after the message `msg`. -/
structure Inv (ctx : Ctx) (msg : List Byte) : Prop where
  len : ctx.W.length = 80
  lenW : ctx.lenW = msg.length % 64
  hash : words ctx.H = foldBlocks FIPS.compress FIPS.initial msg
  filled : Filled ctx.W (msg.drop (64 * (msg.length / 64)))
  size : ctx.sizeHi.toNat * 2 ^ 32 + ctx.sizeLo.toNat = 8 * msg.length % 2 ^ 64

theorem init_inv : Inv init [] := by
  refine ⟨by decide, rfl, ?_, filled_nil _, by simp [init]⟩
  rw [foldBlocks_short _ _ _ (by decide)]
  rfl

theorem size_step (hi lo : Word) (l : Nat) (h : hi.toNat * 2 ^ 32 + lo.toNat = 8 * l % 2 ^ 64) :
    (hi + (if lo + 8#32 < 8#32 then 1#32 else 0#32)).toNat * 2 ^ 32 + (lo + 8#32).toNat = 8 * (l + 1) % 2 ^ 64 := by
  have h0 := lo.isLt
  have h1 := hi.isLt
  have e : (lo + 8#32).toNat = (lo.toNat + 1 * 8 % 2 ^ 32) % 2 ^ 32 := BitVec.toNat_add ..
  have z : (hi.toNat + 1 / 2 ^ 29) % 2 ^ 32 = hi.toNat := by
    rw [show (1 : Nat) / 2 ^ 29 = 0 from rfl]
    exact Nat.mod_eq_of_lt h1
  by_cases hlt : lo + 8#32 < 8#32
  · rw [if_pos hlt]
    have hlt' : (lo.toNat + 1 * 8 % 2 ^ 32) % 2 ^ 32 < 1 * 8 % 2 ^ 32 := hlt
    have := count_carry lo.toNat hi.toNat l 1 h0 h hlt'
    rw [z] at this
    rw [← this, e, BitVec.toNat_add, show (1#32 : Word).toNat = 1 from rfl]
  · rw [if_neg hlt]
    have hlt' : ¬ (lo.toNat + 1 * 8 % 2 ^ 32) % 2 ^ 32 < 1 * 8 % 2 ^ 32 := hlt
    have := count_plain lo.toNat hi.toNat l 1 h0 h hlt'
    rw [z] at this
    rw [← this, e, BitVec.add_zero]

theorem hashBlock_size (ctx : Ctx) : (hashBlock ctx).sizeHi = ctx.sizeHi ∧ (hashBlock ctx).sizeLo = ctx.sizeLo := by
  unfold hashBlock
  exact ⟨rfl, rfl⟩

theorem updateByte_ok (ctx : Ctx) (msg : List Byte) (x : Byte) (h : Inv ctx msg) : ∃ ctx', updateByte ctx x = .ok ctx' ∧ Inv ctx' (msg ++ [x]) := by
  obtain ⟨h1, h2, h3, h4, h5⟩ := h
  have hrl : (msg.drop (64 * (msg.length / 64))).length = msg.length % 64 := by rw [List.length_drop]; omega
  have hq : ctx.W[ctx.lenW / 4]? = some (ctx.W[ctx.lenW / 4]'(by omega)) := List.getElem?_eq_getElem _
  generalize ctx.W[ctx.lenW / 4]'(by omega) = w at hq
  have hsize := size_step ctx.sizeHi ctx.sizeLo msg.length h5
  have hlen : (msg ++ [x]).length = msg.length + 1 := by simp
  have hfill := filled_step ctx.W (msg.drop (64 * (msg.length / 64))) x w (by rw [hrl, ← h2]; exact hq) (by omega) h4
  rw [hrl, ← h2] at hfill
  have hsplit : msg = msg.take (64 * (msg.length / 64)) ++ msg.drop (64 * (msg.length / 64)) := (List.take_append_drop _ _).symm
  have hAl : (msg.take (64 * (msg.length / 64))).length = 64 * (msg.length / 64) := by rw [List.length_take]; omega
  have hhA : words ctx.H = foldBlocks FIPS.compress FIPS.initial (msg.take (64 * (msg.length / 64))) := by
    rw [h3]
    conv => lhs; rw [hsplit]
    rw [foldBlocks_append _ _ _ _ (by omega), foldBlocks_short _ _ (msg.drop _) (by omega)]
  have hall : msg ++ [x] = msg.take (64 * (msg.length / 64)) ++ (msg.drop (64 * (msg.length / 64)) ++ [x]) := by
    rw [← List.append_assoc, ← hsplit]
  unfold updateByte
  rw [hq]
  simp only
  by_cases hfull : (ctx.lenW + 1) % 64 = 0
  · rw [if_pos hfull]
    have hrl' : (msg.drop (64 * (msg.length / 64)) ++ [x]).length = 64 := by rw [List.length_append, hrl, List.length_singleton]; omega
    obtain ⟨b1, b2⟩ := hashBlock_eq { ctx with W := ctx.W.set (ctx.lenW / 4) ((w <<< 8) ||| x.setWidth 32), lenW := ctx.lenW + 1 }
      (msg.drop (64 * (msg.length / 64)) ++ [x]) (by simp only [List.length_set]; exact h1)
      (filled_full _ _ (by simp only [List.length_set]; exact h1) hrl' hfill)
    obtain ⟨b3, b4⟩ := hashBlock_size { ctx with W := ctx.W.set (ctx.lenW / 4) ((w <<< 8) ||| x.setWidth 32), lenW := ctx.lenW + 1 }
    simp only at b1 b2 b3 b4 ⊢
    generalize hashBlock _ = hb at b1 b2 b3 b4 ⊢
    refine ⟨_, rfl, ⟨b2, ?_, ?_, ?_, ?_⟩⟩
    · simp only; omega
    · simp only
      rw [b1, hall, foldBlocks_append _ _ _ _ (by omega), foldBlocks_one _ _ _ hrl', ← hhA]
    · rw [List.drop_eq_nil_of_le (by omega)]
      exact filled_nil _
    · simp only
      rw [hlen, b3, b4]
      exact hsize
  · rw [if_neg hfull]
    have hrl' : (msg.drop (64 * (msg.length / 64)) ++ [x]).length < 64 := by rw [List.length_append, hrl, List.length_singleton]; omega
    refine ⟨_, rfl, ⟨by simp only [List.length_set]; exact h1, by simp only; omega, ?_, ?_, by rw [hlen]; exact hsize⟩⟩
    · simp only
      rw [hall, foldBlocks_append _ _ _ _ (by omega), foldBlocks_short _ _ _ hrl', ← hhA]
    · rw [hlen, show 64 * ((msg.length + 1) / 64) = 64 * (msg.length / 64) by omega, List.drop_append_of_le_length (by omega)]
      exact hfill

theorem updateFrom_ok (data : List Byte) : ∀ (n i : Nat) (ctx : Ctx) (msg : List Byte), Inv ctx msg → i + n ≤ data.length →
    ∃ ctx', updateFrom ctx data i n = .ok ctx' ∧ Inv ctx' (msg ++ (data.drop i).take n) := by
  intro n
  induction n with
  | zero => intro i ctx msg h _; exact ⟨ctx, rfl, by simpa using h⟩
  | succ n ih =>
    intro i ctx msg h hi
    obtain ⟨c1, h1, h2⟩ := updateByte_ok ctx msg data[i] h
    obtain ⟨c2, h3, h4⟩ := ih (i + 1) c1 (msg ++ [data[i]]) h2 (by omega)
    refine ⟨c2, ?_, ?_⟩
    · unfold updateFrom
      rw [List.getElem?_eq_getElem (by omega)]
      simp only [h1, h3]
    · rw [List.drop_eq_getElem_cons (by omega), List.take_succ_cons]
      rw [List.append_assoc] at h4
      exact h4

theorem update_ok (ctx : Ctx) (msg data : List Byte) (n : Nat) (h : Inv ctx msg) (hn : n ≤ data.length) :
    ∃ ctx', update ctx data n = .ok ctx' ∧ Inv ctx' (msg ++ data.take n) := by
  have := updateFrom_ok data n 0 ctx msg h (by omega)
  rw [List.drop_zero] at this
  exact this

theorem padZeros_ok : ∀ (k fuel : Nat) (ctx : Ctx) (msg : List Byte), Inv ctx msg → (msg.length + k) % 64 = 56 → k < 64 → k < fuel →
    ∃ ctx', padZeros fuel ctx = .ok ctx' ∧ Inv ctx' (msg ++ List.replicate k 0#8) := by
  intro k
  induction k with
  | zero =>
    intro fuel ctx msg h hm _ hf
    obtain ⟨f, rfl⟩ : ∃ f, fuel = f + 1 := ⟨fuel - 1, by omega⟩
    refine ⟨ctx, ?_, by simpa using h⟩
    have := h.lenW
    unfold padZeros
    rw [if_neg (by omega)]
  | succ k ih =>
    intro fuel ctx msg h hm hk hf
    obtain ⟨f, rfl⟩ : ∃ f, fuel = f + 1 := ⟨fuel - 1, by omega⟩
    have hl := h.lenW
    obtain ⟨c1, h1, h2⟩ := update_ok ctx msg [0x00#8] 1 h (by decide)
    have h1' : update ctx [0x00#8] 1 = .ok c1 := h1
    obtain ⟨c2, h3, h4⟩ := ih f c1 (msg ++ [0#8]) h2 (by rw [List.length_append, List.length_singleton]; omega) (by omega) (by omega)
    refine ⟨c2, ?_, ?_⟩
    · unfold padZeros
      rw [if_pos (by omega), h1', Outcome.bind_eq, Outcome.bind_ok, h3]
    · rw [List.replicate_succ]
      rw [List.append_assoc] at h4
      exact h4

end Verif.Sha1
