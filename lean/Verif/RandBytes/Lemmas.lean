import Verif.RandBytes.Spec
/-!
# Lemmas on the random bytes
-/
namespace Verif.RandBytes

theorem blit_at {a c bs : List Byte} (off : Nat) (ho : off = a.length) : blit (a ++ c) off bs = (a ++ bs) ++ c.drop bs.length := by
  subst ho
  unfold blit
  rw [List.take_left, List.drop_append, List.drop_eq_nil_of_le (by omega)]
  simp

theorem fill_delivers {w : World} {k f n : Nat} {bs : List Byte} (h : Delivers w k f n bs) :
    ∀ (fuel size : Nat) (a c : List Byte), size = a.length + n → c.length = n → f ≤ 17 → 18 * n ≤ fuel + f → ∃ j, fill w.read size fuel k n f (a ++ c) = .ok (a ++ bs, j) := by
  induction h with
  | done k f =>
    intro fuel size a c _ hc _ _
    rw [List.eq_nil_of_length_eq_zero hc]
    exact ⟨k, by cases fuel <;> rfl⟩
  | @part k f n bs rest hn hr hb hl _ ih =>
    intro fuel size a c hs hc hf17 hf
    cases bs with
    | nil => exact absurd rfl hb
    | cons b bs =>
      obtain ⟨n, rfl⟩ : ∃ m, n = m + 1 := ⟨n - 1, by omega⟩
      have hlen : (b :: bs).length = bs.length + 1 := rfl
      cases fuel with
      | zero => omega
      | succ fuel =>
        obtain ⟨j, hj⟩ := ih fuel size (a ++ b :: bs) (c.drop (b :: bs).length) (by rw [List.length_append]; omega) (by rw [List.length_drop, hc]) (by omega) (by omega)
        refine ⟨j, ?_⟩
        rw [fill, hr]
        dsimp only
        rw [if_pos hl, blit_at _ (by omega), hj, List.append_assoc]
  | @fail k f n rest hn hr hf17 _ ih =>
    intro fuel size a c hs hc _ hf
    obtain ⟨n, rfl⟩ : ∃ m, n = m + 1 := ⟨n - 1, by omega⟩
    cases fuel with
    | zero => omega
    | succ fuel =>
      obtain ⟨j, hj⟩ := ih fuel size a c hs hc (by omega) (by omega)
      refine ⟨j, ?_⟩
      rw [fill]
      rcases hr with hr | hr <;> rw [hr] <;> dsimp only <;> rw [if_neg (by omega), hj]

theorem fill_ends {w : World} (hw : Honest w) (size : Nat) : ∀ (fuel k n f : Nat) (buf : List Byte), buf.length = size → n ≤ size → f ≤ 17 → 18 * n ≤ fuel + f →
    ∃ out j, fill w.read size fuel k n f buf = .ok (out, j) ∧ out.length = size ∧ j ≤ k + (18 * n - f) := by
  intro fuel
  induction fuel with
  | zero =>
    intro k n f buf hb _ _ hf
    obtain rfl : n = 0 := by omega
    exact ⟨buf, k, rfl, hb, by omega⟩
  | succ fuel ih =>
    intro k n f buf hb hn h17 hf
    cases n with
    | zero => exact ⟨buf, k, rfl, hb, by omega⟩
    | succ n =>
      have hfail : ∃ out j, (if 16 < f then Outcome.ok (buf, k + 1) else fill w.read size fuel (k + 1) (n + 1) (f + 1) buf) = .ok (out, j) ∧ out.length = size ∧ j ≤ k + (18 * (n + 1) - f) := by
        by_cases h : 16 < f
        · rw [if_pos h]
          exact ⟨buf, k + 1, rfl, hb, by omega⟩
        · rw [if_neg h]
          obtain ⟨out, j, h1, h2, h3⟩ := ih (k + 1) (n + 1) (f + 1) buf hb hn (by omega) (by omega)
          exact ⟨out, j, h1, h2, by omega⟩
      rw [fill]
      split
      · rename_i b bs hr
        have hl := hw k (n + 1) _ hr
        have hlen : (b :: bs).length = bs.length + 1 := rfl
        rw [if_pos hl]
        obtain ⟨out, j, h1, h2, h3⟩ := ih (k + 1) (n + 1 - (b :: bs).length) 0 (blit buf (size - (n + 1)) (b :: bs)) (by
          unfold blit
          rw [List.length_append, List.length_append, List.length_take, List.length_drop]
          omega) (by omega) (by omega) (by omega)
        exact ⟨out, j, h1, h2, by omega⟩
      · exact hfail

theorem mix_get (w : World) (buf : List Byte) (i : Nat) : (mix w buf)[i]? = buf[i]?.map (· ^^^ w.mask i) := by
  unfold mix
  rw [List.getElem?_mapIdx]

theorem mix_mix (w : World) (buf : List Byte) : mix w (mix w buf) = buf := by
  apply List.ext_getElem?
  intro i
  rw [mix_get, mix_get]
  cases buf[i]? with
  | none => rfl
  | some b =>
    show some ((b ^^^ w.mask i) ^^^ w.mask i) = some b
    rw [BitVec.xor_assoc, BitVec.xor_self, BitVec.xor_zero]

theorem mix_alike {w w' : World} (h : Alike w w') (buf : List Byte) : mix w' buf = mix w buf := by
  obtain ⟨h1, h2, h3, h4, h5⟩ := h
  have : w'.mask = w.mask := by
    funext i
    unfold World.mask World.seed World.crank
    rw [h1, h2, h3, h4, h5]
  unfold mix
  rw [this]

theorem getBytes_gets {w : World} {bs : List Byte} (hp : SmallPid w) (h : Gets w bs) {buf : List Byte} (hl : buf.length = bs.length) :
    ∃ k, getBytes w buf = .ok (mix w bs, k) := by
  obtain ⟨j, hj⟩ := fill_delivers h.2 (18 * buf.length) buf.length [] buf (by simp [hl]) hl (by omega) (by omega)
  refine ⟨j, ?_⟩
  have ho : w.opened = true := by
    unfold World.opened
    rcases h.1 with h | h <;> simp [h]
  unfold getBytes
  rw [if_neg (by unfold SmallPid at hp; omega), ho, if_pos rfl]
  rw [List.nil_append, List.nil_append, ← hl] at hj
  rw [hj]
  rfl

end Verif.RandBytes
