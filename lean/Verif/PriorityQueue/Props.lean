import Verif.PriorityQueue.Lemmas
/-!
# Properties of `PriorityQueue` (C29)

`StrictWeak lt` says that `operator<` orders the elements.
-/
namespace Verif.PriorityQueue

open Verif.Arrays (StrictWeak)

variable {α : Type}

/-! ## Specification -/

/-- `x` is a greatest element of `m`. -/
def Greatest (lt : α → α → Bool) (x : α) (m : List α) : Prop := x ∈ m ∧ ∀ y ∈ m, lt x y = false

/-- The answers `as` to the calls `ops` are those of a queue holding the multiset
`m`, which ends up holding `m'`. Among equal elements any may be served. -/
def Explains [DecidableEq α] (lt : α → α → Bool) : List (Op α) → List (Except Exc (Ans α)) → List α → List α → Prop
  | [], as, m, m' => as = [] ∧ m'.Perm m
  | .offer e :: ops, as, m, m' => ∃ r, as = .ok (.bool true) :: r ∧ Explains lt ops r (e :: m) m'
  | .poll :: ops, as, m, m' => ∃ x r, as = .ok (.elem x) :: r ∧ Greatest lt x m ∧ Explains lt ops r (m.erase x) m'
  | .peek :: ops, as, m, m' => ∃ x r, as = .ok (.elem x) :: r ∧ Greatest lt x m ∧ Explains lt ops r m m'
  | .contains e :: ops, as, m, m' => ∃ r, as = .ok (.bool (decide (e ∈ m))) :: r ∧ Explains lt ops r m m'
  | .size :: ops, as, m, m' => ∃ r, as = .ok (.int m.length) :: r ∧ Explains lt ops r m m'
  | .toArray :: ops, as, m, m' => ∃ l r, as = .ok (.elems l) :: r ∧ l.Perm m ∧ Explains lt ops r m m'
  | .clear :: ops, as, _, m' => ∃ r, as = .ok .unit :: r ∧ Explains lt ops r [] m'

/-- No `poll` or `peek` of an empty queue, and fewer than 2^31 elements, when the
history starts with `n` elements. -/
def Proper : List (Op α) → Nat → Prop
  | [], _ => True
  | .offer _ :: ops, n => n + 1 < 2 ^ 31 ∧ Proper ops (n + 1)
  | .poll :: ops, n => 0 < n ∧ Proper ops (n - 1)
  | .peek :: ops, n => 0 < n ∧ Proper ops n
  | .clear :: ops, _ => Proper ops 0
  | _ :: ops, n => Proper ops n

/-! ## Lemmas -/

/-- The vector is a heap. -/
abbrev IsHeap (lt : α → α → Bool) (q : List α) : Prop := HeapFrom lt 0 q.length q

theorem sizeDiffers_succ (n : Nat) : sizeDiffers (n + 1) n = true := by
  unfold sizeDiffers
  rw [decide_eq_true_iff]
  intro h
  have := congrArg BitVec.toNat h
  simp only [BitVec.toNat_ofNat] at this
  omega

theorem IsHeap.greatest {lt : α → α → Bool} (hs : StrictWeak lt) {x : α} {t : List α} (H : IsHeap lt (x :: t)) :
    Greatest lt x (x :: t) := by
  refine ⟨List.mem_cons_self, fun y hy => ?_⟩
  obtain ⟨i, hi⟩ := List.mem_iff_getElem?.mp hy
  exact heap_top hs H rfl i y hi

theorem Greatest.perm {lt : α → α → Bool} {x : α} {m m' : List α} (h : Greatest lt x m) (hp : m.Perm m') : Greatest lt x m' :=
  ⟨hp.mem_iff.mp h.1, fun y hy => h.2 y (hp.mem_iff.mpr hy)⟩

/-! ## C29 -/

/-- **C29** (offer). `offer` returns true, adds the element, and the queue is a
heap afterwards whatever it was before. -/
theorem C29_offer {lt : α → α → Bool} (hs : StrictWeak lt) (e : α) (q : List α) :
    ∃ q', offer lt e q = .ret q' true ∧ q'.Perm (e :: q) ∧ IsHeap lt q' := by
  obtain ⟨r, r1, r2, r3⟩ := makeHeap_ok hs (q ++ [e])
  refine ⟨r, ?_, r2.trans (List.perm_append_singleton e q), r3⟩
  unfold offer
  simp only [OM.bind_eq, OM.bind_read, r1, OM.lift_ok, OM.bind_ret, OM.bind_write, OM.ret_apply]
  have : r.length = q.length + 1 := by rw [r2.length_eq]; simp
  rw [this, sizeDiffers_succ]

/-- **C29** (poll). `poll` of a non-empty heap returns a greatest element and
takes exactly that one out. -/
theorem C29_poll {lt : α → α → Bool} (hs : StrictWeak lt) (dflt : Option α) (q : List α) (hq : q ≠ []) (H : IsHeap lt q) :
    ∃ x q', poll lt dflt q = .ret q' x ∧ peek dflt q = .ret q x ∧ Greatest lt x q ∧ (x :: q').Perm q ∧ IsHeap lt q' := by
  cases q with
  | nil => exact absurd rfl hq
  | cons x t =>
    obtain ⟨r, r1, r2, r3, r4⟩ := popHeap_ok hs x t H
    refine ⟨x, r.dropLast, ?_, rfl, H.greatest hs, r3.cons x, r4⟩
    unfold poll peek
    simp only [OM.bind_eq]
    rw [OM.bind_of_ret (s' := x :: t) (v := x) rfl]
    simp only [OM.bind_read, r1, OM.lift_ok, OM.bind_ret, OM.bind_write]
    unfold popBack
    rw [if_neg r2]
    rfl

theorem history [DecidableEq α] {lt : α → α → Bool} (hs : StrictWeak lt) (dflt : Option α) : ∀ (ops : List (Op α)) (q m : List α),
    IsHeap lt q → q.Perm m → m.length < 2 ^ 31 → Proper ops m.length →
    ∃ q' as, runHist (step lt dflt) ops q = .ok (q', as) ∧ IsHeap lt q' ∧ Explains lt ops as m q' := by
  intro ops
  induction ops with
  | nil => intro q m H hp _ _; exact ⟨q, [], rfl, H, rfl, hp⟩
  | cons op ops ih =>
    intro q m H hp hm hl
    have next : ∀ (q₁ m₁ : List α) (a : Ans α), step lt dflt op q = .ret q₁ a → IsHeap lt q₁ → q₁.Perm m₁ → m₁.length < 2 ^ 31 → Proper ops m₁.length →
        ∃ q' as, runHist (step lt dflt) (op :: ops) q = .ok (q', .ok a :: as) ∧ IsHeap lt q' ∧ Explains lt ops as m₁ q' := by
      intro q₁ m₁ a h1 h2 h3 h4 h5
      obtain ⟨q', as, e1, e2, e3⟩ := ih q₁ m₁ h2 h3 h4 h5
      refine ⟨q', as, ?_, e2, e3⟩
      unfold runHist
      rw [h1]
      simp only [e1, Outcome.bind_ok]
    cases op with
    | offer e =>
      obtain ⟨q₁, h1, h2, h3⟩ := C29_offer hs e q
      obtain ⟨q', as, e1, e2, e3⟩ := next q₁ (e :: m) (.bool true) ((OM.bind_of_ret h1).trans rfl) h3 (h2.trans (hp.cons e))
        (by have := hl.1; simpa using this) (by simpa using hl.2)
      exact ⟨q', _, e1, e2, as, rfl, e3⟩
    | poll =>
      have hq : q ≠ [] := by
        rintro rfl
        have := hp.length_eq
        have := hl.1
        simp at *
        omega
      obtain ⟨x, q₁, h1, _, h2, h3, h4⟩ := C29_poll hs dflt q hq H
      have hg := h2.perm hp
      have hpe : q₁.Perm (m.erase x) := (List.perm_cons x).mp ((h3.trans hp).trans (List.perm_cons_erase hg.1))
      obtain ⟨q', as, e1, e2, e3⟩ := next q₁ (m.erase x) (.elem x) ((OM.bind_of_ret h1).trans rfl) h4 hpe
        (by rw [List.length_erase_of_mem hg.1]; omega) (by rw [List.length_erase_of_mem hg.1]; exact hl.2)
      exact ⟨q', _, e1, e2, x, as, rfl, hg, e3⟩
    | peek =>
      have hq : q ≠ [] := by
        rintro rfl
        have := hp.length_eq
        have := hl.1
        simp at *
        omega
      obtain ⟨x, _, _, h1, h2, _, _⟩ := C29_poll hs dflt q hq H
      obtain ⟨q', as, e1, e2, e3⟩ := next q m (.elem x) ((OM.bind_of_ret h1).trans rfl) H hp hm hl.2
      exact ⟨q', _, e1, e2, x, as, rfl, h2.perm hp, e3⟩
    | contains e =>
      obtain ⟨q', as, e1, e2, e3⟩ := next q m (.bool (q.any fun x => decide (x = e))) rfl H hp hm hl
      refine ⟨q', _, e1, e2, as, ?_, e3⟩
      congr 3
      rw [Bool.eq_iff_iff]
      simp only [List.any_eq_true, decide_eq_true_eq, exists_eq_right, hp.mem_iff]
    | size =>
      obtain ⟨q', as, e1, e2, e3⟩ := next q m (.int (BitVec.ofNat 32 q.length).toInt) rfl H hp hm hl
      refine ⟨q', _, e1, e2, as, ?_, e3⟩
      congr 3
      rw [hp.length_eq, BitVec.toInt_eq_toNat_cond, BitVec.toNat_ofNat, Nat.mod_eq_of_lt (by omega), if_pos (by omega)]
    | toArray =>
      obtain ⟨q', as, e1, e2, e3⟩ := next q m (.elems q) rfl H hp hm hl
      exact ⟨q', _, e1, e2, q, as, rfl, hp, e3⟩
    | clear =>
      obtain ⟨q', as, e1, e2, e3⟩ := next [] [] .unit rfl (fun i _ _ _ hi => by simp at hi) (List.Perm.refl _) (by simp) hl
      exact ⟨q', _, e1, e2, as, rfl, e3⟩

/-- **C29** (histories, partial). After any proper history of `offer`, `poll`,
`peek`, `contains`, `size`, `toArray` and `clear` on a new queue, every answer is
that of a queue serving greatest elements first. Missing from the full statement:
`remove`, see `C29_remove_wrong`. -/
theorem C29_history_partial [DecidableEq α] {lt : α → α → Bool} (hs : StrictWeak lt) (dflt : Option α) (ops : List (Op α)) (hl : Proper ops 0) :
    ∃ q' as, runHist (step lt dflt) ops [] = .ok (q', as) ∧ IsHeap lt q' ∧ Explains lt ops as [] q' :=
  history hs dflt ops [] [] (fun i _ _ _ hi => by simp at hi) (List.Perm.refl _) (by simp) hl

/-- The same from a queue built from any list of elements. -/
theorem C29_ofList [DecidableEq α] {lt : α → α → Bool} (hs : StrictWeak lt) (dflt : Option α) (l : List α) (hb : l.length < 2 ^ 31)
    (ops : List (Op α)) (hl : Proper ops l.length) :
    ∃ q q' as, ofList lt l = .ok q ∧ runHist (step lt dflt) ops (copy q) = .ok (q', as) ∧ IsHeap lt q' ∧ Explains lt ops as l q' := by
  obtain ⟨q, h1, h2, h3⟩ := makeHeap_ok hs l
  obtain ⟨q', as, e1, e2, e3⟩ := history hs dflt ops q l h3 h2 hb hl
  exact ⟨q, q', as, h1, e1, e2, e3⟩

/-- `<` on numbers is such an order, and a proper history with all calls. -/
example : StrictWeak (fun a b : Nat => decide (a < b)) ∧
    Proper [Op.offer 3, .offer 7, .offer 5, .poll, .contains 7, .peek, .size, .toArray, .poll, .poll, .clear] 0 ∧
    runHist (step (fun a b : Nat => decide (a < b)) none) [Op.offer 3, .offer 7, .offer 5, .poll, .contains 7, .peek, .size, .toArray, .poll, .poll, .clear] [] =
      .ok ([], [.ok (.bool true), .ok (.bool true), .ok (.bool true), .ok (.elem 7), .ok (.bool false), .ok (.elem 5), .ok (.int 2),
        .ok (.elems [5, 3]), .ok (.elem 5), .ok (.elem 3), .ok .unit]) := by
  refine ⟨⟨?_, ?_, ?_⟩, ?_, ?_⟩
  · simp
  · intro x y; simp; omega
  · intro x y z; simp; omega
  · simp [Proper]
  · rfl

/-- Poll until empty. -/
def drain (lt : α → α → Bool) (dflt : Option α) : Nat → List α → Outcome (List α)
  | 0, _ => .ok []
  | n + 1, q =>
    match poll lt dflt q with
    | .ret q' x => (drain lt dflt n q').bind fun r => .ok (x :: r)
    | .exc _ e => .throw e
    | .ub => .ub
    | .diverge => .diverge

/-- **C29** (draining). Polling a heap until it is empty returns all its
elements, none before a greater one. -/
theorem C29_drain {lt : α → α → Bool} (hs : StrictWeak lt) (dflt : Option α) : ∀ (n : Nat) (q : List α), q.length = n → IsHeap lt q →
    ∃ r, drain lt dflt n q = .ok r ∧ r.Perm q ∧ r.Pairwise (fun x y => lt x y = false) := by
  intro n
  induction n with
  | zero =>
    intro q hq _
    have : q = [] := List.eq_nil_of_length_eq_zero hq
    subst this
    exact ⟨[], rfl, List.Perm.refl _, List.Pairwise.nil⟩
  | succ n ih =>
    intro q hq H
    obtain ⟨x, q', h1, _, h2, h3, h4⟩ := C29_poll hs dflt q (by rintro rfl; simp at hq) H
    have hl : q'.length = n := by have := h3.length_eq; simp only [List.length_cons] at this; omega
    obtain ⟨r, r1, r2, r3⟩ := ih q' hl h4
    refine ⟨x :: r, ?_, (r2.cons x).trans h3, List.pairwise_cons.mpr ⟨fun y hy => ?_, r3⟩⟩
    · unfold drain
      rw [h1]
      simp only [r1, Outcome.bind_ok]
    · exact h2.2 y (h3.mem_iff.mp (List.mem_cons_of_mem _ (r2.mem_iff.mp hy)))

example : IsHeap (fun a b : Nat => decide (a < b)) [9, 4, 8, 1] ∧
    drain (fun a b : Nat => decide (a < b)) none 4 [9, 4, 8, 1] = .ok [9, 8, 4, 1] := by
  refine ⟨?_, rfl⟩
  intro i x y h0 hi _ hx hy
  rcases i with _ | _ | _ | _ | i
  · omega
  · cases hx; cases hy; rfl
  · cases hx; cases hy; rfl
  · cases hx; cases hy; rfl
  · simp at hi; omega

/-- **C29** (remove, partial). `remove(e)` deletes exactly one occurrence and
reports whether there was one. Missing from the full statement: the queue may not
serve greatest elements afterwards, until the next `offer` (`C29_offer`). -/
theorem C29_remove_partial [DecidableEq α] (e : α) (q : List α) : remove e q = .ret (q.erase e) (decide (e ∈ q)) := by
  unfold remove
  simp only [OM.bind_eq, OM.bind_read]
  cases hf : q.findIdx? (fun x => decide (x = e)) with
  | none =>
    have hn : e ∉ q := by
      intro h
      have := List.findIdx?_eq_none_iff.mp hf e h
      simp at this
    simp only [OM.ret_apply, List.erase_of_not_mem hn, hn, decide_false]
  | some i =>
    obtain ⟨hi, h1, h2⟩ := List.findIdx?_eq_some_iff_getElem.mp hf
    have he : q[i] = e := of_decide_eq_true h1
    have hm : e ∈ q := he ▸ List.getElem_mem hi
    simp only [OM.bind_write, OM.ret_apply, hm, decide_true]
    congr 1
    have : ∀ (l : List α) (i : Nat) (hi : i < l.length), l[i] = e → (∀ j (hj : j < i), l[j]'(by omega) ≠ e) → l.eraseIdx i = l.erase e := by
      intro l
      induction l with
      | nil => intro i hi; simp at hi
      | cons a l ih =>
        intro i hi he hj
        cases i with
        | zero =>
          simp only [List.getElem_cons_zero] at he
          subst he
          simp
        | succ i =>
          have h0 := hj 0 (by omega)
          simp only [List.getElem_cons_zero] at h0
          rw [List.eraseIdx_cons_succ, List.erase_cons_tail (by simpa using h0)]
          rw [ih i (by simpa using hi) (by simpa using he) (fun j hj' => by have := hj (j + 1) (by omega); simpa using this)]
    exact this q i hi he (fun j hj => by have := h2 j hj; simpa using this)

/-- **C29** (negation). Whatever three elements a < b < c are offered in this
order, removing c makes `peek` and `poll` serve a although b is greater. -/
theorem C29_remove_wrong [DecidableEq α] {lt : α → α → Bool} (hs : StrictWeak lt) (dflt : Option α) (a b c : α)
    (h1 : lt a b = true) (h2 : lt b c = true) :
    ∃ q, runHist (step lt dflt) [.offer a, .offer b, .offer c] [] = .ok (q, [.ok (.bool true), .ok (.bool true), .ok (.bool true)]) ∧
      ∃ q', remove c q = .ret q' true ∧ b ∈ q' ∧ lt a b = true ∧ peek dflt q' = .ret q' a ∧ ∃ q'', poll lt dflt q' = .ret q'' a := by
  have h3 : lt a c = true := by
    rcases hs.split b c a h2 with h | h
    · rw [hs.asym _ _ h1] at h; cases h
    · exact h
  have hca : lt c a = false := hs.asym _ _ h3
  have hba : lt b a = false := hs.asym _ _ h1
  have hcb : lt c b = false := hs.asym _ _ h2
  have hac : a ≠ c := by rintro rfl; rw [hs.irrefl] at h3; cases h3
  have hbc : b ≠ c := by rintro rfl; rw [hs.irrefl] at h2; cases h2
  have o1 : offer lt a [] = .ret [a] true := rfl
  have m2 : makeHeap lt [a, b] = .ok [b, a] := by
    simp [makeHeap, makeFrom, adjustHeap, sinkHole, lastChild, pushHeap, rd, wr, h1, hba]
  have m3 : makeHeap lt [b, a, c] = .ok [c, a, b] := by
    simp [makeHeap, makeFrom, adjustHeap, sinkHole, lastChild, pushHeap, rd, wr, h1, h2, h3, hba, hca, hcb]
  have o2 : offer lt b [a] = .ret [b, a] true := by
    unfold offer
    simp only [OM.bind_eq, OM.bind_read, List.cons_append, List.nil_append, m2, OM.lift_ok, OM.bind_ret, OM.bind_write]
    rfl
  have o3 : offer lt c [b, a] = .ret [c, a, b] true := by
    unfold offer
    simp only [OM.bind_eq, OM.bind_read, List.cons_append, List.nil_append, m3, OM.lift_ok, OM.bind_ret, OM.bind_write]
    rfl
  refine ⟨[c, a, b], ?_, [a, b], ?_, by simp, h1, rfl, ?_⟩
  · have s1 : step lt dflt (.offer a) [] = .ret [a] (.bool true) := by
      simp only [step, OM.bind_eq]
      exact (OM.bind_of_ret o1).trans rfl
    have s2 : step lt dflt (.offer b) [a] = .ret [b, a] (.bool true) := by
      simp only [step, OM.bind_eq]
      exact (OM.bind_of_ret o2).trans rfl
    have s3 : step lt dflt (.offer c) [b, a] = .ret [c, a, b] (.bool true) := by
      simp only [step, OM.bind_eq]
      exact (OM.bind_of_ret o3).trans rfl
    simp only [runHist, s1, s2, s3, Outcome.bind_ok]
  · rw [C29_remove_partial]
    simp
  · unfold poll
    simp only [OM.bind_eq]
    rw [OM.bind_of_ret (s' := [a, b]) (v := a) rfl]
    simp [popHeap, adjustHeap, sinkHole, lastChild, pushHeap, rd, wr, popBack]

example : (fun a b : Nat => decide (a < b)) 1 2 = true ∧ (fun a b : Nat => decide (a < b)) 2 3 = true := by decide

/-- **C29** (negation). Polling an empty queue is undefined, whatever the element
type. -/
theorem C29_poll_empty_wrong (lt : α → α → Bool) (dflt : Option α) : poll lt dflt [] = .ub := by
  cases dflt <;> rfl

/-- **C29** (peek of an empty queue). The default value, or undefined for an
element type without one. -/
theorem C29_peek_empty (d : α) : peek (some d) [] = .ret [] d ∧ peek (none : Option α) [] = .ub := ⟨rfl, rfl⟩

/-- **C29** (negation). A capacity below 1 raises InterruptedException, not the
documented IllegalArgumentException. -/
theorem C29_capacity_wrong (c : Int) (h : c < 1) : (ofCapacity c : Outcome (List α)) = .throw .interrupted := by
  unfold ofCapacity; rw [if_pos h]

end Verif.PriorityQueue
