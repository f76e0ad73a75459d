import Verif.TokenQueue.Tickets
/-!
# Lists of blocks in a circle, and positions in a circular index
-/
namespace Verif.TokenQueue

variable {E : Type}

/-- From `a` through `l` to `z`. -/
def Path (nx : Nat → Nat) : Nat → List Nat → Nat → Prop
  | a, [], z => nx a = z
  | a, b :: l, z => nx a = b ∧ Path nx b l z

/-- The blocks form a circle. -/
def Ring (nx : Nat → Nat) : List Nat → Prop
  | [] => True
  | a :: l => Path nx a l a

theorem Path.snoc {nx : Nat → Nat} {a x z : Nat} {l : List Nat} :
    Path nx a (l ++ [x]) z ↔ Path nx a l x ∧ nx x = z := by
  induction l generalizing a with
  | nil => exact Iff.rfl
  | cons b l ih =>
    show nx a = b ∧ Path nx b (l ++ [x]) z ↔ (nx a = b ∧ Path nx b l x) ∧ nx x = z
    rw [ih, and_assoc]

theorem Ring.rot1 {nx : Nat → Nat} {x : Nat} {l : List Nat} (h : Ring nx (x :: l)) : Ring nx (l ++ [x]) := by
  cases l with
  | nil => exact h
  | cons y l =>
    show Path nx y (l ++ [x]) y
    exact Path.snoc.2 ⟨h.2, h.1⟩

theorem Ring.rot {nx : Nat → Nat} {a b : List Nat} (h : Ring nx (a ++ b)) : Ring nx (b ++ a) := by
  induction a generalizing b with
  | nil => rw [List.append_nil]; exact h
  | cons x a ih =>
    have h1 : Ring nx (a ++ (b ++ [x])) := by rw [← List.append_assoc]; exact Ring.rot1 h
    have h2 := ih h1
    rw [List.append_assoc] at h2
    exact h2

/-- The block after the last one is the first one. -/
theorem Ring.next_last {nx : Nat → Nat} {x t : Nat} {l : List Nat} (h : Ring nx (x :: l))
    (ht : (x :: l).getLast? = some t) : nx t = x := by
  have : ∀ a z, Path nx a l z → (a :: l).getLast? = some t → nx t = z := by
    clear h ht
    induction l with
    | nil => intro a z h ht; simp at ht; rw [← ht]; exact h
    | cons b l ih => intro a z h ht; exact ih b z h.2 (by rw [← ht]; simp [List.getLast?_cons_cons])
  exact this x x h ht

/-- Two neighbours. -/
theorem Path.mid {nx : Nat → Nat} {a z u v : Nat} {l l1 l2 : List Nat} (h : Path nx a l z)
    (he : a :: l = l1 ++ u :: v :: l2) : nx u = v := by
  induction l generalizing a l1 with
  | nil =>
    cases l1 with
    | nil => simp at he
    | cons x l1 => simp at he
  | cons b l ih =>
    cases l1 with
    | nil =>
      simp only [List.nil_append, List.cons.injEq] at he
      rw [← he.1, ← he.2.1]; exact h.1
    | cons x l1 =>
      simp only [List.cons_append, List.cons.injEq] at he
      exact ih h.2 he.2

theorem Ring.mid {nx : Nat → Nat} {u v : Nat} {l1 l2 : List Nat} (h : Ring nx (l1 ++ u :: v :: l2)) :
    nx u = v := by
  cases l1 with
  | nil => exact h.1
  | cons a l1 => exact Path.mid (l1 := a :: l1) h rfl

/-- A new block goes in after the last one. -/
theorem Ring.insert {nx : Nat → Nat} {l : List Nat} {t n : Nat} (h : Ring nx l)
    (ht : l.getLast? = some t) (hn : n ∉ l) (hd : l.Nodup) :
    Ring (upd (upd nx n (nx t)) t n) (l ++ [n]) := by
  cases l with
  | nil => simp at ht
  | cons x l =>
    have hx := Ring.next_last h ht
    show Path _ x (l ++ [n]) x
    have hnt : n ≠ t := fun e => hn (e ▸ List.mem_of_getLast? ht)
    refine Path.snoc.2 ⟨?_, ?_⟩
    · have : ∀ a z w, Path nx a l z → (a :: l).getLast? = some t → n ∉ a :: l → (a :: l).Nodup →
          Path (upd (upd nx n w) t n) a l n := by
        clear h ht hn hd hx
        induction l with
        | nil =>
          intro a z w _ ht _ _
          simp at ht
          show upd (upd nx n w) t n a = n
          rw [ht, upd_self]
        | cons b l ih =>
          intro a z w h ht hn hd
          have hb : (b :: l).getLast? = some t := by rw [← ht]; simp [List.getLast?_cons_cons]
          refine ⟨?_, ih b z w h.2 hb (fun hm => hn (List.mem_cons_of_mem _ hm)) (List.nodup_cons.1 hd).2⟩
          have h1 : a ≠ t := fun e => (List.nodup_cons.1 hd).1 (e ▸ List.mem_of_getLast? hb)
          have h2 : a ≠ n := fun e => hn (e ▸ List.mem_cons_self)
          rw [upd_ne h1, upd_ne h2]; exact h.1
      exact this x x _ h ht hn hd
    · rw [upd_ne hnt, upd_self, hx]

theorem Ring.single {nx : Nat → Nat} {n : Nat} : Ring (upd nx n n) [n] := by
  show upd nx n n n = n
  exact upd_self _ _ _

/-! Numbers from `a` up to below `b`. -/

def span (a b : Nat) : List Nat := (List.range (b - a)).map (a + ·)

theorem span_nil {a b : Nat} (h : b ≤ a) : span a b = [] := by
  unfold span; rw [show b - a = 0 by omega]; rfl

theorem span_cons {a b : Nat} (h : a < b) : span a b = a :: span (a + 1) b := by
  unfold span
  rw [show b - a = (b - (a + 1)) + 1 by omega, List.range_succ_eq_map, List.map_cons, List.map_map]
  congr 1
  refine List.map_congr_left fun x _ => ?_
  show a + (x + 1) = a + 1 + x
  omega

theorem span_snoc {a b : Nat} (h : a ≤ b) : span a (b + 1) = span a b ++ [b] := by
  unfold span
  rw [show b + 1 - a = (b - a) + 1 by omega, List.range_succ, List.map_append]
  simp only [List.map_cons, List.map_nil]
  rw [show a + (b - a) = b by omega]

theorem span_append {a b d : Nat} (h : a ≤ b) (h2 : b ≤ d) : span a d = span a b ++ span b d := by
  induction h2 with
  | refl => rw [span_nil (Nat.le_refl _), List.append_nil]
  | step h3 ih => rw [span_snoc (Nat.le_trans h h3), ih, span_snoc h3, List.append_assoc]

theorem mem_span {a b n : Nat} : n ∈ span a b ↔ a ≤ n ∧ n < b := by
  unfold span
  rw [List.mem_map]
  constructor
  · rintro ⟨x, hx, rfl⟩; rw [List.mem_range] at hx; omega
  · rintro ⟨h1, h2⟩; exact ⟨n - a, List.mem_range.2 (by omega), by omega⟩

theorem length_span (a b : Nat) : (span a b).length = b - a := by
  unfold span; rw [List.length_map, List.length_range]

/-! Positions. -/

def posOf (o z n : Nat) : Nat := (o + n) % z

theorem posOf_lt {o z n : Nat} (h : 0 < z) : posOf o z n < z := Nat.mod_lt _ h

theorem posOf_succ {o z n : Nat} : (posOf o z n + 1) % z = posOf o z (n + 1) := by
  unfold posOf; rw [Nat.mod_add_mod, Nat.add_assoc]

/-- Different numbers that are not too far apart have different positions. -/
theorem posOf_inj {o z m n : Nat} (h : m < n) (hz : n - m < z) : posOf o z m ≠ posOf o z n := by
  unfold posOf
  intro he
  have h1 : (o + n - (o + m)) % z = 0 := Nat.sub_mod_eq_zero_of_mod_eq he.symm
  rw [show o + n - (o + m) = n - m by omega, Nat.mod_eq_of_lt hz] at h1
  omega

theorem posOf_pred {o z n : Nat} (h : 0 < n) (hz : 0 < z) : (posOf o z n + z - 1) % z = posOf o z (n - 1) := by
  unfold posOf
  have h1 : ((o + n) % z + z - 1) = (o + n) % z + (z - 1) := by omega
  rw [h1, Nat.mod_add_mod, show o + n + (z - 1) = (o + (n - 1)) + z by omega, Nat.add_mod_right]

/-- Counting back from the next free position. -/
theorem posOf_back {o z n k m : Nat} (hk : k ≤ z) (hm : m + k = n + j) (hz : 0 < z) :
    (posOf o z n + z - k + j) % z = posOf o z m := by
  unfold posOf
  have h1 : ((o + n) % z + z - k + j) = (o + n) % z + (z - k + j) := by omega
  rw [h1, Nat.mod_add_mod, show o + n + (z - k + j) = (o + m) + z by omega, Nat.add_mod_right]

/-- How a consumer finds the position. -/
theorem posOf_int {o z np n B : Nat} (hB : 0 < B) :
    (((posOf o z np : Nat) : Int) + (((n * B : Nat) : Int) - ((np * B : Nat) : Int)).tdiv (B : Int)) % (z : Int) =
      ((posOf o z n : Nat) : Int) := by
  have h1 : (((n * B : Nat) : Int) - ((np * B : Nat) : Int)) = ((n : Int) - np) * B := by
    rw [Int.natCast_mul, Int.natCast_mul, Int.sub_mul]
  rw [h1, Int.mul_tdiv_cancel _ (by omega)]
  unfold posOf
  rw [Int.natCast_emod, Int.natCast_emod, Int.emod_add_emod]
  congr 1
  rw [Int.natCast_add, Int.natCast_add]; omega

end Verif.TokenQueue
