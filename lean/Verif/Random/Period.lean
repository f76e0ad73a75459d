import Verif.Random.Spec
import Mathlib.Tactic.Ring
/-! # The generator visits every state -/
namespace Verif.Random

theorem lcg_lt (x : Nat) : lcg x < 2 ^ 48 := by unfold lcg; exact Nat.mod_lt _ (by decide)

theorem times_zero (f : Nat → Nat) (x : Nat) : times f 0 x = x := by rw [times]
theorem times_succ (f : Nat → Nat) (k x : Nat) : times f (k + 1) x = times f k (f x) := by rw [times]
theorem after_zero (x : Nat) : after 0 x = x := by unfold after; exact times_zero _ _
theorem after_next (k x : Nat) : after (k + 1) x = after k (lcg x) := by unfold after; exact times_succ _ _ _

theorem after_succ (k x : Nat) : after (k + 1) x = lcg (after k x) := by
  induction k generalizing x with
  | zero => rw [after_next, after_zero, after_zero]
  | succ k ih => rw [after_next, ih, after_next]

theorem after_add (m n x : Nat) : after (m + n) x = after n (after m x) := by
  induction m generalizing x with
  | zero => rw [Nat.zero_add, after_zero]
  | succ m ih => rw [show m + 1 + n = m + n + 1 by omega, after_next, ih, after_next]

theorem after_lt (k x : Nat) (h : x < 2 ^ 48) : after k x < 2 ^ 48 := by
  cases k with
  | zero => rw [after_zero]; exact h
  | succ k => rw [after_succ]; exact lcg_lt _

/-- `2^k` steps, as an affine map. -/
def jump : Nat → Nat × Nat
  | 0 => (25214903917, 11)
  | k + 1 => ((jump k).1 * (jump k).1, (jump k).2 * ((jump k).1 + 1))

theorem jump_shape (k : Nat) : ∃ u v, (jump k).1 = 1 + 2 ^ (k + 2) * u ∧ (jump k).2 = 2 ^ k * (2 * v + 1) := by
  induction k with
  | zero => exact ⟨6303725979, 5, by decide, by decide⟩
  | succ k ih =>
    obtain ⟨u, v, h1, h2⟩ := ih
    refine ⟨u + 2 ^ (k + 1) * u * u, v + (2 * v + 1) * (2 ^ k * u), ?_, ?_⟩
    · show (jump k).1 * (jump k).1 = _
      rw [h1]; ring
    · show (jump k).2 * ((jump k).1 + 1) = _
      rw [h1, h2]; ring

theorem after_jump (k x : Nat) : after (2 ^ k) x % 2 ^ 48 = ((jump k).1 * x + (jump k).2) % 2 ^ 48 := by
  induction k generalizing x with
  | zero =>
    have h1 : after (2 ^ 0) x = lcg x := by rw [Nat.pow_zero, show 1 = 0 + 1 from rfl, after_next, after_zero]
    have h2 : jump 0 = (25214903917, 11) := rfl
    rw [h1, h2]
    unfold lcg
    rw [Nat.mod_mod, Nat.mul_comm]
  | succ k ih =>
    rw [show 2 ^ (k + 1) = 2 ^ k + 2 ^ k by ring, after_add, ih]
    rw [Nat.add_mod, Nat.mul_mod, ih x, ← Nat.mul_mod, ← Nat.add_mod]
    show _ = ((jump k).1 * (jump k).1 * x + (jump k).2 * ((jump k).1 + 1)) % _
    congr 1; ring

/-- Full period: from every state, every state is reached in fewer than 2^48 steps. -/
theorem reach (k : Nat) (hk : k ≤ 48) (x y : Nat) : ∃ n, n < 2 ^ k ∧ after n x % 2 ^ k = y % 2 ^ k := by
  induction k with
  | zero => exact ⟨0, by decide, by simp [Nat.mod_one]⟩
  | succ k ih =>
    obtain ⟨n, hn, h⟩ := ih (by omega)
    have h2 : 2 ^ (k + 1) = 2 ^ k * 2 := by ring
    have hP : 0 < 2 ^ k := Nat.two_pow_pos k
    by_cases hc : after n x % 2 ^ (k + 1) = y % 2 ^ (k + 1)
    · exact ⟨n, by omega, hc⟩
    · refine ⟨n + 2 ^ k, by omega, ?_⟩
      rw [after_add]
      have hj := after_jump k (after n x)
      obtain ⟨u, v, hu, hv⟩ := jump_shape k
      have hd : 2 ^ (k + 1) ∣ 2 ^ 48 := Nat.pow_dvd_pow 2 (by omega)
      have hj2 : after (2 ^ k) (after n x) % 2 ^ (k + 1) = (after n x + 2 ^ k) % 2 ^ (k + 1) := by
        rw [← Nat.mod_mod_of_dvd _ hd, hj, Nat.mod_mod_of_dvd _ hd, hu, hv]
        rw [show (1 + 2 ^ (k + 2) * u) * after n x + 2 ^ k * (2 * v + 1) =
          after n x + 2 ^ k + 2 ^ (k + 1) * (2 * u * after n x + v) by ring, Nat.add_mul_mod_self_left]
      rw [hj2]
      generalize after n x = w at *
      rw [h2, Nat.mod_mul, Nat.mod_mul, h] at hc
      rw [h2, Nat.mod_mul, Nat.mod_mul, Nat.add_mod_right, h, Nat.add_div_right _ hP]
      have hq : w / 2 ^ k % 2 ≠ y / 2 ^ k % 2 := fun e => hc (by rw [e])
      rw [show (w / 2 ^ k).succ % 2 = y / 2 ^ k % 2 by omega]

/-- From every state, the state 0 is reached after at least one and at most 2^48 steps. -/
theorem reach_zero (x : Nat) : ∃ n, n < 2 ^ 48 ∧ after (n + 1) x = 0 := by
  obtain ⟨n, h1, h2⟩ := reach 48 (Nat.le_refl _) (lcg x) 0
  refine ⟨n, h1, ?_⟩
  rw [after_next]
  rw [Nat.mod_eq_of_lt (after_lt n _ (lcg_lt x))] at h2
  simpa using h2

/-- The first index with a property. -/
theorem exists_first (P : Nat → Prop) (n : Nat) (h : P n) : ∃ m, m ≤ n ∧ P m ∧ ∀ k < m, ¬ P k := by
  induction n using Nat.strongRecOn with
  | _ n ih =>
    by_cases hx : ∃ k, k < n ∧ P k
    · obtain ⟨k, hk, hp⟩ := hx
      obtain ⟨m, h1, h2, h3⟩ := ih k hk hp
      exact ⟨m, by omega, h2, h3⟩
    · exact ⟨n, Nat.le_refl _, h, fun k hk hp => hx ⟨k, hk, hp⟩⟩

end Verif.Random
