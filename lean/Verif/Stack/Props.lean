import Verif.Stack.Model
import Verif.Vector.Lemmas
/-!
# Properties of `Stack` (C27)
-/
namespace Verif.Stack

open Verif.Vector (Vec Holds)

variable {α : Type}

/-- The abstract stack: a list whose head is the top. -/
def spec : Op α → List α → List α × Except Exc (Ans α)
  | .push e, t => (e :: t, .ok (.elem e))
  | .pop, [] => ([], .error .emptyStack)
  | .pop, x :: t => (t, .ok (.elem x))
  | .peek, [] => ([], .error .emptyStack)
  | .peek, x :: t => (x :: t, .ok (.elem x))
  | .empty, t => (t, .ok (.bool (decide (t = []))))

/-- At most 2^30 elements. -/
def Legal : Op α → List α → Prop
  | .push _, t => t.length < 2 ^ 30
  | _, _ => True

theorem size_eq {v : Vec α} {t : List α} (h : Holds v t) : Vector.size v = .ret v (t.length : Int) := by
  unfold Vector.size
  simp only [OM.bind_eq, OM.bind_read]
  rw [Vector.toInt_eq h.len31, h.elems]
  rfl

theorem peek_nil {v : Vec α} (h : Holds v []) : peek v = .exc v .emptyStack := by
  unfold peek
  rw [OM.bind_eq, OM.bind_of_ret (size_eq h), if_pos (by simp)]
  rfl

theorem peek_cons {v : Vec α} {x : α} {t : List α} (h : Holds v (x :: t).reverse) : peek v = .ret v x := by
  unfold peek
  rw [OM.bind_eq, OM.bind_of_ret (size_eq h), if_neg (by simp; omega)]
  have hs := h.elems
  have hl : v.elems.length = t.length + 1 := by rw [hs]; simp
  rw [Vector.get_in v _ (by simp only [List.length_reverse, List.length_cons]; omega)]
  have : v.elems[((((x :: t).reverse.length : Nat) : Int) - 1).toNat]? = some x := by
    rw [hs]
    simp only [List.length_reverse, List.length_cons]
    rw [show (((t.length + 1 : Nat) : Int) - 1).toNat = t.length by omega]
    simp
  rw [List.getElem?_eq_getElem (by simp only [List.length_reverse, List.length_cons]; omega)] at this
  rw [Option.some.inj this]

/-- **C27** (one call). -/
theorem C27_call (op : Op α) (v : Vec α) (t : List α) (h : Holds v t.reverse) (hl : Legal op t) :
    ∃ w, Holds w (spec op t).1.reverse ∧ (step op v).Is w (spec op t).2 := by
  cases op with
  | push e =>
    obtain ⟨w, w1, w2, _⟩ := Vector.add_ok v t.reverse e h (by simpa [Legal] using hl)
    refine ⟨w, by simpa [spec] using w2, ?_⟩
    simp only [Res.Is, spec, step, push, OM.bind_eq]
    exact (OM.bind_of_ret ((OM.bind_of_ret w1).trans rfl)).trans rfl
  | pop =>
    cases t with
    | nil =>
      refine ⟨v, h, OM.bind_of_exc ?_⟩
      unfold pop
      rw [OM.bind_eq, OM.bind_of_ret (size_eq h)]
      exact OM.bind_of_exc (peek_nil h)
    | cons x t =>
      have hs := h.elems
      have hl' : v.elems.length = t.length + 1 := by rw [hs]; simp
      refine ⟨{ v with elems := t.reverse }, ⟨rfl, ?_, h.cap, ?_, h.inc⟩, ?_⟩
      · have := h.fits; simp only [List.length_reverse]; omega
      · have := h.size; simp only [List.length_reverse]; omega
      · simp only [Res.Is, spec, step, OM.bind_eq]
        refine (OM.bind_of_ret (v := x) ?_).trans rfl
        unfold pop
        rw [OM.bind_eq, OM.bind_of_ret (size_eq h), OM.bind_eq, OM.bind_of_ret (peek_cons h), OM.bind_eq,
          OM.bind_of_ret (Vector.removeAt_in v _ (by simp only [List.length_reverse, List.length_cons]; omega))]
        simp only [OM.ret_apply, Res.ret.injEq, and_true, Vec.mk.injEq, and_self]
        simp only [List.length_reverse, List.length_cons]
        rw [show (((t.length + 1 : Nat) : Int) - 1).toNat = t.length by omega, hs, List.reverse_cons, List.eraseIdx_append_of_length_le (by simp)]
        simp
  | peek =>
    cases t with
    | nil => exact ⟨v, h, OM.bind_of_exc (peek_nil h)⟩
    | cons x t => exact ⟨v, h, (OM.bind_of_ret (peek_cons h)).trans rfl⟩
  | empty =>
    refine ⟨v, h, ?_⟩
    simp only [Res.Is, spec, step, OM.bind_eq]
    refine (OM.bind_of_ret (v := decide (t = [])) ?_).trans rfl
    unfold empty
    rw [OM.bind_eq, OM.bind_of_ret (size_eq h)]
    simp only [OM.ret_apply, List.length_reverse, Res.ret.injEq, true_and]
    cases t with
    | nil => rfl
    | cons x t => simp; omega

/-- **C27** (histories). After any history of `push`, `pop`, `peek` and `empty`
on a stack, every answer is that of a last-in first-out stack, and `pop` and
`peek` of an empty one raise EmptyStackException and leave it empty. -/
theorem C27_lifo (ops : List (Op α)) (v : Vec α) (t : List α) (h : Holds v t.reverse) (hl : Along spec Legal ops t) :
    ∃ w, Holds w (specHist spec ops t).1.reverse ∧ runHist step ops v = .ok (w, (specHist spec ops t).2) :=
  runHist_refines _ _ (fun v t => Holds v t.reverse) Legal (fun op s t hR hl => C27_call op s t hR hl) ops v t h hl

example : Along spec Legal [Op.push 1, .push 2, .pop, .peek, .pop, .pop, .empty] ([] : List Nat) ∧
    specHist spec [Op.push 1, .push 2, .pop, .peek, .pop, .pop, .empty] ([] : List Nat) =
      ([], [.ok (.elem 1), .ok (.elem 2), .ok (.elem 2), .ok (.elem 1), .ok (.elem 1), .error .emptyStack, .ok (.bool true)]) := by
  constructor
  · simp [Along, Legal, spec]
  · rfl

/-- **C27** (search, partial). On a non-empty stack `search` returns -1 for an
absent element. Missing from the full statement: the position of a present one,
see `C27_search_wrong`. -/
theorem C27_search_absent_partial [DecidableEq α] (e : α) (v : Vec α) (t : List α) (h : Holds v t.reverse) (h0 : t ≠ []) (hn : e ∉ t) :
    search e v = .ret v (-1) := by
  have hs := h.elems
  have hlen : v.elems.length = t.length := by rw [hs]; simp
  have hpos : t.length ≠ 0 := fun h' => h0 (List.eq_nil_of_length_eq_zero h')
  have key : Vector.lastIndexOf e v = .ret v (-1) := by
    unfold Vector.lastIndexOf Vector.lastIndexOfFrom
    simp only [OM.bind_eq, OM.bind_read, Vector.toInt_eq h.len31]
    rw [if_neg (by omega), Vector.lastIndexOfLoop_eq _ _ _ (by omega)]
    unfold Vector.lastUpTo
    rw [List.findIdx?_eq_none_iff.mpr]
    · rfl
    · intro x hx
      have : x ∈ t := by
        have := List.mem_of_mem_take (List.mem_reverse.mp hx)
        rw [hs] at this
        simpa using this
      simp only [decide_eq_false_iff_not]
      rintro rfl
      exact hn this
  unfold search
  rw [OM.bind_eq, OM.bind_of_ret key, if_neg (by omega)]
  rfl

example : (3 : Nat) ∉ [1, 2] ∧ search 3 ⟨[2, 1], 10, 0⟩ = .ret ⟨[2, 1], 10, 0⟩ (-1) := by decide +kernel

/-- **C27** (negation). For a present element `search` returns its position
counted from 0 at the bottom: when the topmost occurrence is the `k`-th from the
top (`k` = 1 at the top), the answer is `size - k`. -/
theorem C27_search_wrong [DecidableEq α] (e : α) (v : Vec α) (above below : List α) (h : Holds v (above ++ e :: below).reverse)
    (hn : e ∉ above) : search e v = .ret v (below.length : Int) := by
  have hs := h.elems
  have hlen : v.elems.length = above.length + below.length + 1 := by rw [hs]; simp; omega
  have key : Vector.lastIndexOf e v = .ret v (below.length : Int) := by
    unfold Vector.lastIndexOf Vector.lastIndexOfFrom
    simp only [OM.bind_eq, OM.bind_read, Vector.toInt_eq h.len31]
    rw [if_neg (by omega), Vector.lastIndexOfLoop_eq _ _ _ (by omega)]
    unfold Vector.lastUpTo
    rw [List.take_of_length_le (by omega), hs, List.reverse_reverse, List.findIdx?_append]
    rw [List.findIdx?_eq_none_iff.mpr (by
      intro x hx
      simp only [decide_eq_false_iff_not]
      rintro rfl
      exact hn hx)]
    simp only [List.findIdx?_cons, decide_true, if_true, Option.none_or, Option.map_some, OM.ret_apply]
    congr 2
    simp only [List.length_reverse, List.length_append, List.length_cons]
    omega
  unfold search
  rw [OM.bind_eq, OM.bind_of_ret key, if_pos (by omega)]
  rfl

/-- The top of a stack of three is reported at 2, not 1. -/
example : search 9 ⟨[7, 8, 9], 10, 0⟩ = .ret ⟨[7, 8, 9], 10, 0⟩ 2 := by decide +kernel

/-- **C27** (negation). On an empty stack `search` raises instead of returning
-1. -/
theorem C27_search_empty_wrong [DecidableEq α] (e : α) (v : Vec α) (h : v.elems = []) :
    search e v = .exc v .illegalArgument := by
  unfold search
  rw [OM.bind_eq]
  refine OM.bind_of_exc ?_
  unfold Vector.lastIndexOf Vector.lastIndexOfFrom
  simp only [OM.bind_eq, OM.bind_read, h]
  rw [if_pos (by left; rw [List.length_nil]; decide)]
  rfl

end Verif.Stack
