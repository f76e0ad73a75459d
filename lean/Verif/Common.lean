/-!
# Common vocabulary of the model

`Outcome` is what a C++ call can do, `Sem` selects how the two kinds of
arithmetic undefined behaviour the code relies on are read, and `Arr` is
`Array<E>` of `library/Kernel/Java.hpp`.
-/

namespace Verif

/-- Names of the C++ exception classes thrown by the modelled code. -/
inductive Exc
  | outOfRange            -- std::out_of_range, from `std::vector::at` (Kernel/Java.hpp `Array`)
  | lengthError           -- std::length_error / std::bad_alloc from a huge `resize`
  | invalidArgument       -- std::invalid_argument (std::stoi family)
  | indexOutOfBounds      -- IndexOutOfBoundsException
  | stringIndexOutOfBounds
  | arrayIndexOutOfBounds
  | negativeArraySize
  | illegalArgument
  | arithmetic
  | numberFormat
  | interrupted           -- InterruptedException
  | emptyStack
  | noSuchElement
  | unsupportedEncoding
  | noSuchAlgorithm
  | nullPointer
  | unsupportedOperation
  | exception             -- Exception itself
  | mediaType             -- MediaTypeException
  | assertion             -- AssertionError
  deriving DecidableEq, Repr

/-- Result of a modelled call: normal return, C++ exception, undefined
behaviour, or "the loop was still running when the model's fuel ran out". -/
inductive Outcome (α : Type u)
  | ok (a : α)
  | throw (e : Exc)
  | ub
  | diverge
  deriving DecidableEq, Repr

namespace Outcome

def bind {α : Type u} {β : Type v} : Outcome α → (α → Outcome β) → Outcome β
  | ok a, f => f a
  | throw e, _ => throw e
  | ub, _ => ub
  | diverge, _ => diverge

instance : Monad Outcome where
  pure := ok
  bind := bind

@[simp] theorem pure_eq {α : Type u} (a : α) : (pure a : Outcome α) = ok a := rfl
/-! These are proved by `id rfl` so that `simp` uses them as propositional
rewrites: the kernel then never has to unfold `chk32` on open terms. -/
@[simp] theorem bind_ok {α : Type u} {β : Type v} (a : α) (f : α → Outcome β) :
    (ok a).bind f = f a := id rfl
@[simp] theorem bind_throw {α : Type u} {β : Type v} (e : Exc) (f : α → Outcome β) :
    (throw e : Outcome α).bind f = throw e := id rfl
@[simp] theorem bind_ub {α : Type u} {β : Type v} (f : α → Outcome β) :
    (ub : Outcome α).bind f = ub := id rfl
@[simp] theorem bind_diverge {α : Type u} {β : Type v} (f : α → Outcome β) :
    (diverge : Outcome α).bind f = diverge := id rfl

@[simp] theorem bind_eq {α β : Type u} (x : Outcome α) (f : α → Outcome β) :
    (x >>= f) = x.bind f := rfl
@[simp] theorem map_ok {α β : Type u} (f : α → β) (a : α) : f <$> (ok a) = ok (f a) := rfl
@[simp] theorem map_throw {α β : Type u} (f : α → β) (e) :
    f <$> (throw e : Outcome α) = throw e := rfl
@[simp] theorem map_ub {α β : Type u} (f : α → β) : f <$> (ub : Outcome α) = ub := rfl
@[simp] theorem map_diverge {α β : Type u} (f : α → β) :
    f <$> (diverge : Outcome α) = diverge := rfl

instance : LawfulMonad Outcome := LawfulMonad.mk'
  (id_map := by intro α x; cases x <;> rfl)
  (pure_bind := by intros; rfl)
  (bind_assoc := by intro α β γ x f g; cases x <;> rfl)

/-- The call neither runs into undefined behaviour nor diverges. -/
def Safe {α : Type u} : Outcome α → Prop
  | ok _ => True
  | throw _ => True
  | _ => False

instance {α : Type u} (x : Outcome α) : Decidable x.Safe := by
  cases x <;> simp only [Safe] <;> infer_instance

end Outcome

/-- One turn of a C++ loop: go on with a new state, or leave with a result. -/
inductive Step (σ : Type u) (ρ : Type v)
  | next (s : σ)
  | done (r : ρ)
  deriving DecidableEq, Repr

/-- A C++ loop with at most `fuel` turns. -/
def iter {σ : Type u} {ρ : Type v} (body : σ → Outcome (Step σ ρ)) : Nat → σ → Outcome ρ
  | 0, _ => .diverge
  | n + 1, s =>
    match body s with
    | .ok (.next s') => iter body n s'
    | .ok (.done r) => .ok r
    | .throw e => .throw e
    | .ub => .ub
    | .diverge => .diverge

/-- Total-correctness rule: an invariant and a decreasing measure. -/
theorem iter_ok {σ : Type u} {ρ : Type v} {body : σ → Outcome (Step σ ρ)}
    (I : σ → Prop) (Q : ρ → Prop) (μ : σ → Nat)
    (h : ∀ s, I s →
      (∃ s', body s = .ok (.next s') ∧ I s' ∧ μ s' < μ s) ∨
      (∃ r, body s = .ok (.done r) ∧ Q r)) :
    ∀ fuel s, I s → μ s < fuel → ∃ r, iter body fuel s = .ok r ∧ Q r := by
  intro fuel
  induction fuel with
  | zero => intro s _ hm; omega
  | succ n ih =>
    intro s hI hm
    rcases h s hI with ⟨s', hb, hI', hμ⟩ | ⟨r, hb, hQ⟩
    · obtain ⟨r, hr, hQ⟩ := ih s' hI' (by omega)
      exact ⟨r, by simp [iter, hb, hr], hQ⟩
    · exact ⟨r, by simp [iter, hb], hQ⟩

/-- Total rule allowing the loop to end by an exception as well. -/
theorem iter_rule {σ : Type u} {ρ : Type v} {body : σ → Outcome (Step σ ρ)}
    (I : σ → Prop) (Q : Outcome ρ → Prop) (μ : σ → Nat)
    (h : ∀ s, I s →
      (∃ s', body s = .ok (.next s') ∧ I s' ∧ μ s' < μ s) ∨
      (∃ r, body s = .ok (.done r) ∧ Q (.ok r)) ∨
      (∃ e, body s = .throw e ∧ Q (.throw e)) ∨
      (body s = .ub ∧ Q .ub)) :
    ∀ fuel s, I s → μ s < fuel → Q (iter body fuel s) := by
  intro fuel
  induction fuel with
  | zero => intro s _ hm; omega
  | succ n ih =>
    intro s hI hm
    rcases h s hI with ⟨s', hb, hI', hμ⟩ | ⟨r, hb, hQ⟩ | ⟨e, hb, hQ⟩ | ⟨hb, hQ⟩
    · simpa [iter, hb] using ih s' hI' (by omega)
    · simpa [iter, hb] using hQ
    · simpa [iter, hb] using hQ
    · simpa [iter, hb] using hQ

/-- How arithmetic undefined behaviour is read. -/
inductive Sem
  | strict   -- ISO C++: signed overflow and oversize shifts are undefined
  | wrap     -- two's complement wrap-around, shift counts modulo the width
  deriving DecidableEq, Repr

abbrev Byte := BitVec 8

def INT_MAX : Int := 2147483647
def INT_MIN : Int := -2147483648

/-- Result of an `int` computation whose mathematical value is `x`: signed
overflow is undefined behaviour. -/
def chk32 (x : Int) : Outcome Int :=
  if INT_MIN ≤ x ∧ x ≤ INT_MAX then .ok x else .ub

theorem chk32_ok {x : Int} (h1 : INT_MIN ≤ x) (h2 : x ≤ INT_MAX) : chk32 x = .ok x := by
  simp [chk32, h1, h2]

namespace Arr

/-- `E &Array<E>::operator[](const int index)` / `get` read through
`std::vector::at` (Kernel/Java.hpp, `Array::get`, `Array::operator[]`): a
negative `int` converts to a huge `size_t` and throws like any other index
outside the vector. -/
def get {α : Type u} (l : List α) (i : Int) : Outcome α :=
  if i < 0 then .throw .outOfRange
  else match l[i.toNat]? with
    | some a => .ok a
    | none => .throw .outOfRange

/-- Assignment through `Array<E>::operator[]`, same bounds rule. -/
def set {α : Type u} (l : List α) (i : Int) (a : α) : Outcome (List α) :=
  if i < 0 then .throw .outOfRange
  else if i.toNat < l.length then .ok (l.set i.toNat a)
  else .throw .outOfRange

theorem get_ok {α : Type u} {l : List α} {i : Int} {a : α} (h0 : 0 ≤ i) (h : l[i.toNat]? = some a) :
    get l i = .ok a := by
  have : ¬ i < 0 := by omega
  simp [get, this, h]

theorem get_nat {α : Type u} {l : List α} {i : Nat} (h : i < l.length) :
    get l (i : Int) = .ok l[i] := by
  apply get_ok (by omega); simp [h]

theorem get_nat_ge {α : Type u} {l : List α} {i : Nat} (h : l.length ≤ i) :
    get l (i : Int) = .throw .outOfRange := by
  have : ¬ (i : Int) < 0 := by omega
  simp [get, this, h]

theorem set_nat {α : Type u} {l : List α} {i : Nat} {a : α} (h : i < l.length) :
    set l (i : Int) a = .ok (l.set i a) := by
  have : ¬ (i : Int) < 0 := by omega
  simp [set, this, h]

theorem get_lt {α : Type u} {l : List α} {i : Int} (h0 : 0 ≤ i) (h : i < l.length) :
    get l i = .ok (l[i.toNat]'(by omega)) := by
  apply get_ok h0
  rw [List.getElem?_eq_getElem]

theorem set_lt {α : Type u} {l : List α} {i : Int} {a : α} (h0 : 0 ≤ i) (h : i < l.length) :
    set l i a = .ok (l.set i.toNat a) := by
  have h1 : ¬ i < 0 := by omega
  have h2 : i.toNat < l.length := by omega
  simp [set, h1, h2]

end Arr

end Verif
