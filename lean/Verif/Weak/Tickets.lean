import Verif.Weak.Spec
import Verif.Weak.MemLemmas
/-!
# Tickets

What has become of every number that `dequeueOptimisticCount.fetch_add` gave out, and by whom it is held.
-/
namespace Verif.Weak

/-- Not decided; too many, to be counted in `dequeueOvercommit`; counted; allowed because `t` elements were
there; gone to `headIndex`. -/
inductive St
  | und
  | fail
  | failed
  | pass (t : Nat)
  | gone (t : Nat)

abbrev Tk := List (Nat × St)

def isFail : Nat × St → Bool
  | (_, .fail) => true
  | (_, .failed) => true
  | _ => false

def isFailed : Nat × St → Bool
  | (_, .failed) => true
  | _ => false

def isGone : Nat × St → Bool
  | (_, .gone _) => true
  | _ => false

def fails (tk : Tk) : Nat := tk.countP isFail

theorem fails_append (a b : Tk) : fails (a ++ b) = fails a + fails b := List.countP_append

/-- A ticket that is no longer undecided only becomes more of a failure. -/
theorem fails_set : ∀ (tk : Tk) (m n : Nat) (x y : Nat × St), tk[m]? = some y → (isFail y = true → isFail x = true) →
    fails (tk.take n) ≤ fails ((tk.set m x).take n) := by
  intro tk
  induction tk with
  | nil => intro m n x y h _; cases h
  | cons a tk ih =>
    intro m n x y h hxy
    cases n with
    | zero => exact Nat.le_refl _
    | succ n =>
      cases m with
      | zero =>
        cases h
        simp only [List.set_cons_zero, List.take_succ_cons, fails, List.countP_cons]
        have : (if isFail a = true then 1 else 0) ≤ (if isFail x = true then 1 else 0) := by
          by_cases ha : isFail a = true
          · rw [if_pos ha, if_pos (hxy ha)]
            exact Nat.le_refl _
          · rw [if_neg ha]
            exact Nat.zero_le _
        omega
      | succ m =>
        have := ih m n x y h hxy
        simp only [List.set_cons_succ, List.take_succ_cons, fails, List.countP_cons] at this ⊢
        omega

theorem gone_fails : ∀ tk : Tk, tk.countP isGone + fails tk ≤ tk.length := by
  intro tk
  induction tk with
  | nil => exact Nat.le_refl _
  | cons a tk ih =>
    simp only [fails, List.countP_cons, List.length_cons] at ih ⊢
    obtain ⟨j, st⟩ := a
    cases st <;> simp [isGone, isFail] <;> omega

theorem failed_fails : ∀ tk : Tk, tk.countP isFailed ≤ fails tk := by
  intro tk
  induction tk with
  | nil => exact Nat.le_refl _
  | cons a tk ih =>
    simp only [fails, List.countP_cons] at ih ⊢
    obtain ⟨j, st⟩ := a
    cases st <;> simp [isFailed, isFail] <;> omega

/-- If every ticket that went on to the head saw enough elements for itself, then the one with the largest
number saw enough for all. -/
theorem gone_le : ∀ (n : Nat) (tk : Tk), tk.length = n → 0 < tk.countP isGone →
    (∀ (m j t : Nat), tk[m]? = some (j, St.gone t) → m + 1 ≤ t + fails (tk.take m)) →
    ∃ m j t : Nat, tk[m]? = some (j, St.gone t) ∧ tk.countP isGone ≤ t := by
  intro n
  induction n with
  | zero =>
    intro tk h hp _
    rw [List.length_eq_zero_iff.mp h] at hp
    cases hp
  | succ n ih =>
    intro tk h hp ht
    obtain ⟨l, a, rfl⟩ : ∃ l a, tk = l ++ [a] := by
      have hne : tk ≠ [] := by
        intro e
        rw [e] at h
        cases h
      exact ⟨tk.dropLast, tk.getLast hne, (List.dropLast_concat_getLast hne).symm⟩
    have hl : l.length = n := by
      rw [List.length_append] at h
      exact Nat.succ.inj h
    obtain ⟨j, st⟩ := a
    by_cases hg : ∃ t, st = .gone t
    · obtain ⟨t, rfl⟩ := hg
      have hx : (l ++ [(j, St.gone t)])[n]? = some (j, St.gone t) := by
        rw [List.getElem?_append_right (by omega), hl]
        simp
      refine ⟨n, j, t, hx, ?_⟩
      have h1 := ht n j t hx
      rw [List.take_append_of_le_length (by omega), List.take_of_length_le (by omega)] at h1
      have h2 := gone_fails l
      rw [List.countP_append]
      have : [(j, St.gone t)].countP isGone = 1 := rfl
      omega
    · have h0 : [(j, st)].countP isGone = 0 := by
        cases st with
        | gone t => exact absurd ⟨t, rfl⟩ hg
        | _ => rfl
      rw [List.countP_append, h0] at hp ⊢
      obtain ⟨m, j', t, hm, hle⟩ := ih l hl hp (fun m j' t hm => by
        obtain ⟨hml, _⟩ := List.getElem?_eq_some_iff.mp hm
        have := ht m j' t (by rw [List.getElem?_append_left hml]; exact hm)
        rw [List.take_append_of_le_length (by omega)] at this
        exact this)
      obtain ⟨hml, _⟩ := List.getElem?_eq_some_iff.mp hm
      exact ⟨m, j', t, by rw [List.getElem?_append_left hml]; exact hm, hle⟩

theorem count_set (p : Nat × St → Bool) : ∀ (tk : Tk) (m : Nat) (x y : Nat × St), tk[m]? = some y →
    (tk.set m x).countP p + (if p y then 1 else 0) = tk.countP p + (if p x then 1 else 0) := by
  intro tk
  induction tk with
  | nil => intro m x y h; cases h
  | cons a tk ih =>
    intro m x y h
    cases m with
    | zero =>
      cases h
      simp only [List.set_cons_zero, List.countP_cons]
      omega
    | succ m =>
      have := ih m x y h
      simp only [List.set_cons_succ, List.countP_cons]
      omega

end Verif.Weak
