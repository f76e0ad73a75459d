/-!
# Hashing a message block by block

What MD5 and SHA-1 have in common: a message whose 64-byte blocks are fed one
after the other into a compression function.
-/
namespace Verif.Hash

/-- The compression function `c` applied to the full 64-byte blocks of `msg`, in
order, starting from `h`. -/
def foldBlocks {σ : Type} (c : σ → List (BitVec 8) → σ) (h : σ) (msg : List (BitVec 8)) : σ :=
  (List.range (msg.length / 64)).foldl (fun h i => c h ((msg.drop (64 * i)).take 64)) h

theorem foldl_congr {α β : Type} (f g : α → β → α) : ∀ (l : List β) (a : α), (∀ x ∈ l, ∀ a, f a x = g a x) → l.foldl f a = l.foldl g a := by
  intro l
  induction l with
  | nil => intro a _; rfl
  | cons x l ih =>
    intro a h
    rw [List.foldl_cons, List.foldl_cons, h x (List.mem_cons_self ..), ih _ fun y hy => h y (List.mem_cons_of_mem _ hy)]

variable {σ : Type} (c : σ → List (BitVec 8) → σ)

theorem foldBlocks_short (h : σ) (m : List (BitVec 8)) (hm : m.length < 64) : foldBlocks c h m = h := by
  unfold foldBlocks
  rw [Nat.div_eq_of_lt hm]
  rfl

theorem foldBlocks_one (h : σ) (m : List (BitVec 8)) (hm : m.length = 64) : foldBlocks c h m = c h m := by
  unfold foldBlocks
  rw [hm, show 64 / 64 = 1 from rfl, show List.range 1 = [0] from rfl, List.foldl_cons, List.foldl_nil, Nat.mul_zero, List.drop_zero,
    List.take_of_length_le (by omega)]

theorem foldBlocks_append (h : σ) (a b : List (BitVec 8)) (ha : a.length % 64 = 0) :
    foldBlocks c h (a ++ b) = foldBlocks c (foldBlocks c h a) b := by
  unfold foldBlocks
  have hl : (a ++ b).length / 64 = a.length / 64 + b.length / 64 := by rw [List.length_append]; omega
  rw [hl, List.range_add, List.foldl_append, List.foldl_map]
  congr 1
  · funext x i
    rw [List.drop_append, List.drop_eq_nil_of_le (by omega), List.nil_append,
      show 64 * (a.length / 64 + i) - a.length = 64 * i by omega]
  · refine foldl_congr _ _ _ _ ?_
    intro i hi x
    rw [List.mem_range] at hi
    rw [List.drop_append_of_le_length (by omega), List.take_append_of_le_length (by rw [List.length_drop]; omega)]

/-! ## A length kept in two words -/

theorem split_mod (a z : Nat) (hz : z < 2 ^ 32) : (a * 2 ^ 32 + z) % 2 ^ 64 = a % 2 ^ 32 * 2 ^ 32 + z := by
  rw [show (2 : Nat) ^ 64 = 2 ^ 32 * 2 ^ 32 by rw [← Nat.pow_add], Nat.mod_mul]
  generalize 2 ^ 32 = B at *
  have hB : 0 < B := by omega
  rw [Nat.mul_comm a B, Nat.mul_add_mod, Nat.mod_eq_of_lt hz, Nat.mul_add_div hB, Nat.div_eq_of_lt hz, Nat.add_zero, Nat.mul_comm B, Nat.add_comm]

theorem count_carry (x y l n : Nat) (hx : x < 2 ^ 32) (h : y * 2 ^ 32 + x = 8 * l % 2 ^ 64)
    (hlt : (x + n * 8 % 2 ^ 32) % 2 ^ 32 < n * 8 % 2 ^ 32) :
    ((y + n / 2 ^ 29) % 2 ^ 32 + 1) % 2 ^ 32 * 2 ^ 32 + (x + n * 8 % 2 ^ 32) % 2 ^ 32 = 8 * (l + n) % 2 ^ 64 := by
  have e : 8 * (l + n) % 2 ^ 64 = ((y + n / 2 ^ 29 + 1) * 2 ^ 32 + (x + n * 8 % 2 ^ 32) % 2 ^ 32) % 2 ^ 64 := by
    rw [Nat.mul_add, Nat.add_mod, ← h, Nat.add_mod_mod,
      show y * 2 ^ 32 + x + 8 * n = (y + n / 2 ^ 29 + 1) * 2 ^ 32 + (x + n * 8 % 2 ^ 32) % 2 ^ 32 by clear h; omega]
  rw [e, split_mod _ _ (Nat.mod_lt _ (by omega)), Nat.mod_add_mod]

theorem count_plain (x y l n : Nat) (hx : x < 2 ^ 32) (h : y * 2 ^ 32 + x = 8 * l % 2 ^ 64)
    (hlt : ¬ (x + n * 8 % 2 ^ 32) % 2 ^ 32 < n * 8 % 2 ^ 32) :
    (y + n / 2 ^ 29) % 2 ^ 32 * 2 ^ 32 + (x + n * 8 % 2 ^ 32) % 2 ^ 32 = 8 * (l + n) % 2 ^ 64 := by
  have e : 8 * (l + n) % 2 ^ 64 = ((y + n / 2 ^ 29) * 2 ^ 32 + (x + n * 8 % 2 ^ 32) % 2 ^ 32) % 2 ^ 64 := by
    rw [Nat.mul_add, Nat.add_mod, ← h, Nat.add_mod_mod,
      show y * 2 ^ 32 + x + 8 * n = (y + n / 2 ^ 29) * 2 ^ 32 + (x + n * 8 % 2 ^ 32) % 2 ^ 32 by clear h; omega]
  rw [e, split_mod _ _ (Nat.mod_lt _ (by omega))]

end Verif.Hash
