import Verif.Common
/-!
# Objects with state

A method of a C++ object is a function from the object's state to a `Res`: it
returns or throws, in both cases leaving a state, or it is undefined.  A history
is a list of calls; an exception is caught by the caller and the history goes on
with the state the method left.
-/
namespace Verif

/-- Result of a method call on an object with state `σ`. -/
inductive Res (σ : Type u) (β : Type v)
  | ret (s : σ) (v : β)
  | exc (s : σ) (e : Exc)
  | ub
  | diverge
  deriving DecidableEq, Repr

/-- A method. -/
def OM (σ : Type u) (β : Type v) : Type (max u v) := σ → Res σ β

namespace OM

def bind {σ : Type u} {β : Type v} {γ : Type w} (m : OM σ β) (f : β → OM σ γ) : OM σ γ := fun s =>
  match m s with
  | .ret s v => f v s
  | .exc s e => .exc s e
  | .ub => .ub
  | .diverge => .diverge

def ret {σ : Type u} {β : Type v} (v : β) : OM σ β := fun s => .ret s v

instance {σ : Type u} : Monad (OM σ) where
  pure := ret
  bind := bind

/-- Read the state. -/
def read {σ : Type u} : OM σ σ := fun s => .ret s s
/-- Replace the state. -/
def write {σ : Type u} (s : σ) : OM σ Unit := fun _ => .ret s ()
/-- `throw`. -/
def raise {σ : Type u} {β : Type v} (e : Exc) : OM σ β := fun s => .exc s e
/-- Undefined behaviour. -/
def undef {σ : Type u} {β : Type v} : OM σ β := fun _ => .ub
/-- A computation that does not touch the state. -/
def lift {σ : Type u} {β : Type v} : Outcome β → OM σ β
  | .ok v => ret v
  | .throw e => raise e
  | .ub => undef
  | .diverge => fun _ => .diverge

@[simp] theorem bind_eq {σ β γ : Type u} (m : OM σ β) (f : β → OM σ γ) : (m >>= f) = m.bind f := rfl
@[simp] theorem pure_eq {σ β : Type u} (v : β) : (pure v : OM σ β) = ret v := rfl
@[simp] theorem ret_apply {σ : Type u} {β : Type v} (v : β) (s : σ) : (ret v : OM σ β) s = .ret s v := id rfl
@[simp] theorem read_apply {σ : Type u} (s : σ) : (read : OM σ σ) s = .ret s s := id rfl
@[simp] theorem write_apply {σ : Type u} (s s' : σ) : (write s' : OM σ Unit) s = .ret s' () := id rfl
@[simp] theorem raise_apply {σ : Type u} {β : Type v} (e : Exc) (s : σ) : (raise e : OM σ β) s = .exc s e := id rfl
@[simp] theorem undef_apply {σ : Type u} {β : Type v} (s : σ) : (undef : OM σ β) s = .ub := id rfl
@[simp] theorem lift_ok {σ : Type u} {β : Type v} (v : β) : (lift (.ok v) : OM σ β) = ret v := id rfl
@[simp] theorem lift_throw {σ : Type u} {β : Type v} (e : Exc) : (lift (.throw e) : OM σ β) = raise e := id rfl
@[simp] theorem lift_ub {σ : Type u} {β : Type v} : (lift .ub : OM σ β) = undef := id rfl

theorem bind_of_ret {σ : Type u} {β : Type v} {γ : Type w} {m : OM σ β} {f : β → OM σ γ} {s s' : σ} {v : β}
    (h : m s = .ret s' v) : m.bind f s = f v s' := by unfold bind; rw [h]
theorem bind_of_exc {σ : Type u} {β : Type v} {γ : Type w} {m : OM σ β} {f : β → OM σ γ} {s s' : σ} {e : Exc}
    (h : m s = .exc s' e) : m.bind f s = .exc s' e := by unfold bind; rw [h]
theorem bind_of_ub {σ : Type u} {β : Type v} {γ : Type w} {m : OM σ β} {f : β → OM σ γ} {s : σ}
    (h : m s = .ub) : m.bind f s = .ub := by unfold bind; rw [h]

@[simp] theorem bind_ret {σ : Type u} {β : Type v} {γ : Type w} (v : β) (f : β → OM σ γ) (s : σ) :
    (ret v : OM σ β).bind f s = f v s := id rfl
@[simp] theorem bind_read {σ : Type u} {γ : Type w} (f : σ → OM σ γ) (s : σ) : (read : OM σ σ).bind f s = f s s := id rfl
@[simp] theorem bind_write {σ : Type u} {γ : Type w} (s' : σ) (f : Unit → OM σ γ) (s : σ) :
    (write s' : OM σ Unit).bind f s = f () s' := id rfl
@[simp] theorem bind_raise {σ : Type u} {β : Type v} {γ : Type w} (e : Exc) (f : β → OM σ γ) (s : σ) :
    (raise e : OM σ β).bind f s = .exc s e := id rfl
@[simp] theorem bind_undef {σ : Type u} {β : Type v} {γ : Type w} (f : β → OM σ γ) (s : σ) :
    (undef : OM σ β).bind f s = .ub := id rfl

end OM

/-! ## Histories -/

/-- Run a history, recording what each call returned or threw. -/
def runHist {σ : Type u} {ρ : Type v} {o : Type w} (step : o → OM σ ρ) : List o → σ → Outcome (σ × List (Except Exc ρ))
  | [], s => .ok (s, [])
  | op :: ops, s =>
    match step op s with
    | .ret s' v => (runHist step ops s').bind fun r => .ok (r.1, .ok v :: r.2)
    | .exc s' e => (runHist step ops s').bind fun r => .ok (r.1, .error e :: r.2)
    | .ub => .ub
    | .diverge => .diverge

/-- Run a history on an abstract state. -/
def specHist {τ : Type u} {ρ : Type v} {o : Type w} (spec : o → τ → τ × Except Exc ρ) : List o → τ → τ × List (Except Exc ρ)
  | [], t => (t, [])
  | op :: ops, t => ((specHist spec ops (spec op t).1).1, (spec op t).2 :: (specHist spec ops (spec op t).1).2)

/-- `legal t op` holds whenever the abstract history issues `op` in state `t`. -/
def Along {τ : Type u} {ρ : Type v} {o : Type w} (spec : o → τ → τ × Except Exc ρ) (legal : o → τ → Prop) : List o → τ → Prop
  | [], _ => True
  | op :: ops, t => legal op t ∧ Along spec legal ops (spec op t).1

/-- The call does what the specification says. -/
def Res.Is {σ : Type u} {β : Type v} (r : Res σ β) (s : σ) : Except Exc β → Prop
  | .ok v => r = .ret s v
  | .error e => r = .exc s e

/-- Simulation: if every legal call in related states matches the specification,
so does every history. -/
theorem runHist_refines {σ : Type u} {τ : Type u'} {ρ : Type v} {o : Type w} (step : o → OM σ ρ)
    (spec : o → τ → τ × Except Exc ρ) (R : σ → τ → Prop) (legal : o → τ → Prop)
    (h : ∀ op s t, R s t → legal op t → ∃ s', R s' (spec op t).1 ∧ (step op s).Is s' (spec op t).2) :
    ∀ ops s t, R s t → Along spec legal ops t →
      ∃ s', R s' (specHist spec ops t).1 ∧ runHist step ops s = .ok (s', (specHist spec ops t).2) := by
  intro ops
  induction ops with
  | nil => intro s t hR _; exact ⟨s, hR, rfl⟩
  | cons op ops ih =>
    intro s t hR hl
    obtain ⟨s1, hR1, h1⟩ := h op s t hR hl.1
    obtain ⟨s2, hR2, h2⟩ := ih s1 _ hR1 hl.2
    refine ⟨s2, hR2, ?_⟩
    unfold runHist
    cases hv : (spec op t).2 with
    | ok v =>
      rw [hv] at h1
      simp only [Res.Is] at h1
      rw [h1]
      simp only [h2, Outcome.bind_ok, specHist, hv]
    | error e =>
      rw [hv] at h1
      simp only [Res.Is] at h1
      rw [h1]
      simp only [h2, Outcome.bind_ok, specHist, hv]

/-! ## Relational specifications -/

/-- The answers `as` to the calls `ops` and the states are those `R` allows. -/
def Follows {τ : Type u} {ρ : Type v} {o : Type w} (R : o → τ → τ → Except Exc ρ → Prop) : List o → List (Except Exc ρ) → τ → τ → Prop
  | [], as, t, t' => as = [] ∧ t' = t
  | op :: ops, as, t, t' => ∃ a r t₁, as = a :: r ∧ R op t t₁ a ∧ Follows R ops r t₁ t'

/-- `legal op t` holds whenever a run `R` allows issues `op` in state `t`. -/
def Always {τ : Type u} {ρ : Type v} {o : Type w} (R : o → τ → τ → Except Exc ρ → Prop) (legal : o → τ → Prop) : List o → τ → Prop
  | [], _ => True
  | op :: ops, t => legal op t ∧ ∀ t₁ a, R op t t₁ a → Always R legal ops t₁

/-- Simulation for relational specifications. -/
theorem runHist_follows {σ : Type u} {τ : Type u'} {ρ : Type v} {o : Type w} (step : o → OM σ ρ)
    (R : o → τ → τ → Except Exc ρ → Prop) (S : σ → τ → Prop) (legal : o → τ → Prop)
    (h : ∀ op s t, S s t → legal op t → ∃ s' t' a, S s' t' ∧ R op t t' a ∧ (step op s).Is s' a) :
    ∀ ops s t, S s t → Always R legal ops t → ∃ s' t' as, S s' t' ∧ Follows R ops as t t' ∧ runHist step ops s = .ok (s', as) := by
  intro ops
  induction ops with
  | nil => intro s t hS _; exact ⟨s, t, [], hS, ⟨rfl, rfl⟩, rfl⟩
  | cons op ops ih =>
    intro s t hS hl
    obtain ⟨s1, t1, a, hS1, hR, h1⟩ := h op s t hS hl.1
    obtain ⟨s2, t2, as, hS2, hF, h2⟩ := ih s1 t1 hS1 (hl.2 t1 a hR)
    refine ⟨s2, t2, a :: as, hS2, ⟨a, as, t1, rfl, hR, hF⟩, ?_⟩
    unfold runHist
    cases a with
    | ok v =>
      simp only [Res.Is] at h1
      rw [h1]
      simp only [h2, Outcome.bind_ok]
    | error e =>
      simp only [Res.Is] at h1
      rw [h1]
      simp only [h2, Outcome.bind_ok]

/-! ## Methods that leave the object as it is -/

/-- The method leaves the state unchanged. -/
def Still {σ : Type u} {β : Type v} (f : OM σ β) : Prop :=
  ∀ s, match f s with
    | .ret s' _ => s' = s
    | .exc s' _ => s' = s
    | _ => True

theorem Still.bind {σ : Type u} {β : Type v} {γ : Type w} {f : OM σ β} {g : β → OM σ γ} (hf : Still f) (hg : ∀ v, Still (g v)) :
    Still (f.bind g) := by
  intro s
  have h1 := hf s
  unfold OM.bind
  cases hs : f s with
  | ret s' v =>
    rw [hs] at h1
    simp only at h1 ⊢
    subst h1
    exact hg v s'
  | exc s' e => rw [hs] at h1; exact h1
  | ub => trivial
  | diverge => trivial

theorem Still.ret {σ : Type u} {β : Type v} (v : β) : Still (OM.ret v : OM σ β) := fun _ => rfl
theorem Still.raise {σ : Type u} {β : Type v} (e : Exc) : Still (OM.raise e : OM σ β) := fun _ => rfl
theorem Still.read {σ : Type u} : Still (OM.read : OM σ σ) := fun _ => rfl
theorem Still.lift {σ : Type u} {β : Type v} (o : Outcome β) : Still (OM.lift o : OM σ β) := by
  intro s
  cases o <;> trivial
theorem Still.ite {σ : Type u} {β : Type v} {c : Prop} [Decidable c] {f g : OM σ β} (hf : Still f) (hg : Still g) :
    Still (if c then f else g) := by
  split
  · exact hf
  · exact hg

theorem Still.is {σ : Type u} {β : Type v} {f : OM σ β} (hf : Still f) {s s' : σ} {r : Except Exc β} (h : (f s).Is s' r) : s' = s := by
  have h1 := hf s
  cases r with
  | ok v => simp only [Res.Is] at h; rw [h] at h1; exact h1
  | error e => simp only [Res.Is] at h; rw [h] at h1; exact h1

end Verif
