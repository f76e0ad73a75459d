import Verif.Base64.Model
import Verif.Base64.Spec
/-! Auxiliary lemmas for Base64. -/
namespace Verif.Base64
open Spec

/-! ## arrays -/

theorem get_of_drop {α : Type u} {l : List α} {i : Nat} {a : α} {t : List α}
    (h : l.drop i = a :: t) : Arr.get l (i : Int) = .ok a := by
  apply Arr.get_ok (by omega)
  have : (l.drop i)[0]? = some a := by simp [h]
  simpa using this

theorem drop_succ_of {α : Type u} {l : List α} {i : Nat} {a : α} {t : List α}
    (h : l.drop i = a :: t) : l.drop (i + 1) = t := by
  rw [← List.drop_drop, h]; rfl

theorem set_append {A B : List Byte} {z v : Byte} :
    Arr.set (A ++ z :: B) (A.length : Int) v = .ok (A ++ v :: B) := by
  rw [Arr.set_nat (by simp)]
  simp

theorem writeAll_append (vs : List Byte) : ∀ (A Z B : List Byte), Z.length = vs.length →
    writeAll (A ++ Z ++ B) A.length vs = .ok (A ++ vs ++ B, A.length + vs.length) := by
  induction vs with
  | nil => intro A Z B h; simp at h; simp [writeAll, h]
  | cons v vs ih =>
    intro A Z B h
    match Z, h with
    | z :: Z, h =>
      have h' : Z.length = vs.length := by simpa using h
      have := ih (A ++ [v]) Z B h'
      simp only [List.length_append, List.length_cons, List.length_nil, List.append_assoc,
        List.cons_append, List.nil_append, Nat.zero_add] at this
      simp only [writeAll, List.append_assoc, List.cons_append, Outcome.bind_eq, set_append,
        Outcome.bind, this, List.length_cons]
      simp; omega

theorem writeAll_zeros (vs A : List Byte) (r : Nat) (h : vs.length ≤ r) :
    writeAll (A ++ List.replicate r 0) A.length vs =
      .ok (A ++ vs ++ List.replicate (r - vs.length) 0, A.length + vs.length) := by
  have h1 : List.replicate r (0 : Byte) =
      List.replicate vs.length 0 ++ List.replicate (r - vs.length) 0 := by
    rw [List.replicate_append_replicate]; congr 1; omega
  rw [h1, ← List.append_assoc, writeAll_append _ _ _ _ (by simp)]

/-! ## the alphabet -/

/-- The table for a flag. -/
def tableOf (url : Bool) : List Byte := if url then toBase64Url else toBase64

theorem table_symbol : ∀ url : Bool, ∀ v : Fin 64,
    (tableOf url)[v.val]? = some (symbol url v.val) := by decide +kernel

theorem get_table (url : Bool) (v : Nat) (h : v < 64) :
    Arr.get (tableOf url) (v : Int) = .ok (symbol url v) :=
  Arr.get_ok (by omega) (by simpa using table_symbol url ⟨v, h⟩)

theorem dec_symbol : ∀ url : Bool, ∀ v : Fin 64,
    (Decoder.table ⟨url, false⟩)[(symbol url v.val).toNat]? = some (v.val : Int) := by
  decide +kernel

theorem dec_table_facts : ∀ url : Bool, ∀ c : Fin 256,
    (Decoder.table ⟨url, false⟩)[c.val]? = some (-2) ∧ BitVec.ofNat 8 c.val = padChar ∨
    (Decoder.table ⟨url, false⟩)[c.val]? = some (-1) ∨
    (∃ v : Fin 64, (Decoder.table ⟨url, false⟩)[c.val]? = some (v.val : Int) ∧
      symbol url v.val = BitVec.ofNat 8 c.val) := by
  decide +kernel

/-! ## one group -/

def grp (url : Bool) (b0 b1 b2 : Byte) : List Byte :=
  let g := b0.toNat * 65536 + b1.toNat * 256 + b2.toNat
  [symbol url (g / 262144), symbol url (g / 4096 % 64), symbol url (g / 64 % 64),
   symbol url (g % 64)]

def tail1 (url : Bool) (b0 : Byte) : List Byte :=
  [symbol url (b0.toNat / 4), symbol url (b0.toNat * 16 % 64)]

def tail2 (url : Bool) (b0 b1 : Byte) : List Byte :=
  [symbol url (b0.toNat / 4), symbol url (b0.toNat * 16 % 64 + b1.toNat / 16),
   symbol url (b1.toNat * 4 % 64)]

/-- Unpadded encoding by groups. -/
def enc (url : Bool) : List Byte → List Byte
  | b0 :: b1 :: b2 :: rest => grp url b0 b1 b2 ++ enc url rest
  | [b0, b1] => tail2 url b0 b1
  | [b0] => tail1 url b0
  | [] => []

theorem or_group (a b c : Nat) (hb : b < 256) (hc : c < 256) :
    (a <<< 16 ||| b <<< 8 ||| c) = a * 65536 + b * 256 + c := by
  have h1 : b <<< 8 < 2 ^ 16 := by rw [Nat.shiftLeft_eq]; omega
  have h2 : (a <<< 16 ||| b <<< 8) = a <<< 16 + b <<< 8 := by
    rw [Nat.shiftLeft_add_eq_or_of_lt h1]
  have h3 : a <<< 16 ||| b <<< 8 = (a * 256 + b) <<< 8 := by
    rw [h2]; simp only [Nat.shiftLeft_eq]; omega
  rw [h3, ← Nat.shiftLeft_add_eq_or_of_lt (i := 8) (by simpa using hc)]
  simp only [Nat.shiftLeft_eq]; omega

theorem and63 (x : Nat) : x &&& 0x3f = x % 64 := Nat.and_two_pow_sub_one_eq_mod x 6

theorem value6 (a b c d e f : Bool) : value [a, b, c, d, e, f] =
    32 * a.toNat + 16 * b.toNat + 8 * c.toNat + 4 * d.toNat + 2 * e.toNat + f.toNat := by
  simp only [value, List.foldl]; omega

theorem msb_toNat (b : Byte) (i : Nat) (h : i < 8) :
    (b.getMsbD i).toNat = b.toNat / 2 ^ (7 - i) % 2 := by
  have : b.getMsbD i = b.toNat.testBit (7 - i) := by
    simp [BitVec.getMsbD, h, BitVec.getLsbD]
  rw [this, Nat.toNat_testBit]

theorem body_eq_enc (url : Bool) (bs : List Byte) : body url bs = enc url bs := by
  fun_induction enc url bs with
  | case1 b0 b1 b2 rest ih =>
    have h : body url (b0 :: b1 :: b2 :: rest) = grp url b0 b1 b2 ++ body url rest := by
      have h0 := b0.isLt; have h1 := b1.isLt; have h2 := b2.isLt
      simp only [body, bits, List.flatMap_cons, byteBits, List.cons_append, List.nil_append,
        sextets, List.map_cons, value6, grp, msb_toNat _ _ (show (0:Nat) < 8 by omega), msb_toNat _ _ (show (1:Nat) < 8 by omega),
        msb_toNat _ _ (show (2:Nat) < 8 by omega), msb_toNat _ _ (show (3:Nat) < 8 by omega),
        msb_toNat _ _ (show (4:Nat) < 8 by omega), msb_toNat _ _ (show (5:Nat) < 8 by omega),
        msb_toNat _ _ (show (6:Nat) < 8 by omega), msb_toNat _ _ (show (7:Nat) < 8 by omega)]
      congr 1
      · congr 1; omega
      congr 1
      · congr 1; omega
      congr 1
      · congr 1; omega
      congr 1
      · congr 1; omega
    rw [h, ih]
  | case2 b0 b1 =>
    have h0 := b0.isLt; have h1 := b1.isLt
    simp only [body, bits, List.flatMap_cons, List.flatMap_nil, byteBits, List.cons_append, List.nil_append,
        sextets, List.map_cons, value6, tail2, Bool.toNat_false, msb_toNat _ _ (show (0:Nat) < 8 by omega), msb_toNat _ _ (show (1:Nat) < 8 by omega),
        msb_toNat _ _ (show (2:Nat) < 8 by omega), msb_toNat _ _ (show (3:Nat) < 8 by omega),
        msb_toNat _ _ (show (4:Nat) < 8 by omega), msb_toNat _ _ (show (5:Nat) < 8 by omega),
        msb_toNat _ _ (show (6:Nat) < 8 by omega), msb_toNat _ _ (show (7:Nat) < 8 by omega)]
    congr 1
    · congr 1; omega
    congr 1
    · congr 1; omega
    congr 1
    · congr 1; omega
  | case3 b0 =>
    have h0 := b0.isLt
    simp only [body, bits, List.flatMap_cons, List.flatMap_nil, byteBits, List.cons_append, List.nil_append,
        sextets, List.map_cons, value6, tail1, Bool.toNat_false, msb_toNat _ _ (show (0:Nat) < 8 by omega), msb_toNat _ _ (show (1:Nat) < 8 by omega),
        msb_toNat _ _ (show (2:Nat) < 8 by omega), msb_toNat _ _ (show (3:Nat) < 8 by omega),
        msb_toNat _ _ (show (4:Nat) < 8 by omega), msb_toNat _ _ (show (5:Nat) < 8 by omega),
        msb_toNat _ _ (show (6:Nat) < 8 by omega), msb_toNat _ _ (show (7:Nat) < 8 by omega)]
    congr 1
    · congr 1; omega
    congr 1
    · congr 1; omega
  | case4 => rfl

end Verif.Base64
