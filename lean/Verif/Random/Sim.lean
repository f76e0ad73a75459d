import Verif.Random.Props
/-! # Comparing two runs of the model: strict against wrapping, alike objects -/
namespace Verif.Random

variable {δ : Type}

/-- Undefined, or the same as `g`. -/
def Sub {σ β : Type} (f g : OM σ β) : Prop := ∀ s, f s = .ub ∨ f s = g s

theorem Sub.refl {σ β : Type} (f : OM σ β) : Sub f f := fun _ => Or.inr rfl

theorem Sub.bind {σ β γ : Type} {f g : OM σ β} {k l : β → OM σ γ} (h : Sub f g) (hk : ∀ v, Sub (k v) (l v)) : Sub (f.bind k) (g.bind l) := by
  intro s
  unfold OM.bind
  rcases h s with h | h
  · rw [h]; exact Or.inl rfl
  · rw [h]
    cases g s with
    | ret s' v => exact hk v s'
    | exc s' e => exact Or.inr rfl
    | ub => exact Or.inl rfl
    | diverge => exact Or.inr rfl

theorem Sub.lift {σ β : Type} {a b : Outcome β} (h : a = .ub ∨ a = b) : Sub (OM.lift a : OM σ β) (OM.lift b) := by
  rcases h with rfl | rfl
  · exact fun _ => Or.inl rfl
  · exact Sub.refl _

theorem Sub.ite {σ β : Type} {c : Prop} [Decidable c] {f g f' g' : OM σ β} (h : Sub f f') (h' : Sub g g') :
    Sub (if c then f else g) (if c then f' else g') := by
  split
  · exact h
  · exact h'

theorem add_sub (m : Sem) (a b : BitVec w) : CInt.add m a b = .ub ∨ CInt.add m a b = CInt.add .wrap a b := by
  unfold CInt.add; split <;> simp
theorem sub_sub (m : Sem) (a b : BitVec w) : CInt.sub m a b = .ub ∨ CInt.sub m a b = CInt.sub .wrap a b := by
  unfold CInt.sub; split <;> simp
theorem mul_sub (m : Sem) (a b : BitVec w) : CInt.mul m a b = .ub ∨ CInt.mul m a b = CInt.mul .wrap a b := by
  unfold CInt.mul; split <;> simp

theorem bind_sub {α β : Type} {a b : Outcome α} {k l : α → Outcome β} (h : a = .ub ∨ a = b) (hk : ∀ v, k v = .ub ∨ k v = l v) :
    a.bind k = .ub ∨ a.bind k = b.bind l := by
  rcases h with rfl | rfl
  · exact Or.inl rfl
  · cases a with
    | ok v => exact hk v
    | throw e => exact Or.inr rfl
    | ub => exact Or.inl rfl
    | diverge => exact Or.inr rfl

theorem next_sub (m : Sem) (bits : Nat) : Sub (next m bits : OM (Rnd δ) _) (next .wrap bits) := by
  unfold next
  refine Sub.bind (Sub.refl _) fun s => Sub.bind (Sub.lift ?_) fun _ => Sub.refl _
  unfold advance
  exact bind_sub (mul_sub _ _ _) fun x => bind_sub (add_sub _ _ _) fun _ => Or.inr rfl

theorem rejectLoop_sub (m : Sem) (b : BitVec 32) (n : Nat) : Sub (rejectLoop m b n : OM (Rnd δ) _) (rejectLoop .wrap b n) := by
  induction n with
  | zero => exact Sub.refl _
  | succ n ih =>
    unfold rejectLoop
    refine Sub.bind (next_sub m 31) fun r => Sub.bind (Sub.refl _) fun v => Sub.bind (Sub.lift ?_) fun x => Sub.ite ih (Sub.refl _)
    unfold overshoot
    exact bind_sub (sub_sub _ _ _) fun _ => bind_sub (sub_sub _ _ _) fun _ => add_sub _ _ _

theorem nextIntBound_sub (m : Sem) (b : BitVec 32) : Sub (nextIntBound m b : OM (Rnd δ) _) (nextIntBound .wrap b) := by
  unfold nextIntBound
  refine Sub.ite (Sub.refl _) (Sub.ite ?_ (rejectLoop_sub m b _))
  unfold scaled
  exact Sub.bind (next_sub m 31) fun r => Sub.bind (Sub.lift (mul_sub _ _ _)) fun _ => Sub.refl _

theorem pair_sub (m : Sem) (o : Order) (a b : Nat) : Sub (pair m o a b : OM (Rnd δ) _) (pair .wrap o a b) := by
  cases o
  · exact Sub.bind (next_sub m a) fun _ => Sub.bind (next_sub m b) fun _ => Sub.refl _
  · exact Sub.bind (next_sub m b) fun _ => Sub.bind (next_sub m a) fun _ => Sub.refl _

theorem combine_sub (m : Sem) (k : Int) (h0 : 0 ≤ k) (h : k < 64) (p : BitVec 32 × BitVec 32) :
    combine m k p = .ub ∨ combine m k p = combine .wrap k p := by
  unfold combine
  refine bind_sub ?_ fun _ => add_sub _ _ _
  cases m with
  | wrap => exact Or.inr rfl
  | strict =>
    unfold Bits.shl
    split
    · exact Or.inl rfl
    · right
      rw [if_neg (by simp)]

theorem nextDouble_sub (m : Sem) (o : Order) : Sub (nextDouble m o : OM (Rnd δ) _) (nextDouble .wrap o) := by
  unfold nextDouble
  exact Sub.bind (pair_sub m o 26 27) fun p => Sub.lift (combine_sub m 27 (by omega) (by omega) p)

theorem gaussLoop_sub (m : Sem) (o : Order) (fp : BitVec 64 → BitVec 64 → Option (δ × δ)) (n : Nat) :
    Sub (gaussLoop m o fp n) (gaussLoop .wrap o fp n) := by
  induction n with
  | zero => exact Sub.refl _
  | succ n ih =>
    unfold gaussLoop
    refine Sub.bind (nextDouble_sub m o) fun d => Sub.bind (nextDouble_sub m o) fun e => ?_
    cases fp d e with
    | none => exact ih
    | some p => exact Sub.refl _

theorem nextBytesLoop_sub (m : Sem) (n : Nat) : ∀ l, Sub (nextBytesLoop m n l : OM (Rnd δ) _) (nextBytesLoop .wrap n l) := by
  induction n with
  | zero => intro l; exact Sub.refl _
  | succ n ih =>
    intro l
    unfold nextBytesLoop nextInt
    exact Sub.bind (next_sub m 32) fun r => ih _

theorem step_sub (m : Sem) (o : Order) (fp : BitVec 64 → BitVec 64 → Option (δ × δ)) (op : Op) :
    Sub (step m o fp op) (step .wrap o fp op) := by
  cases op with
  | nextInt => exact Sub.bind (next_sub m 32) fun _ => Sub.refl _
  | nextIntBound b => exact Sub.bind (nextIntBound_sub m b) fun _ => Sub.refl _
  | nextBoolean => exact Sub.bind (Sub.bind (next_sub m 1) fun _ => Sub.refl _) fun _ => Sub.refl _
  | nextLong => exact Sub.bind (Sub.bind (pair_sub m o 32 32) fun p => Sub.lift (combine_sub m 32 (by omega) (by omega) p)) fun _ => Sub.refl _
  | nextFloat => exact Sub.bind (next_sub m 24) fun _ => Sub.refl _
  | nextDouble => exact Sub.bind (nextDouble_sub m o) fun _ => Sub.refl _
  | nextGaussian =>
    refine Sub.bind ?_ fun _ => Sub.refl _
    unfold nextGaussian
    exact Sub.bind (Sub.refl _) fun s => Sub.ite (Sub.refl _) (gaussLoop_sub m o fp _)
  | nextBytes l => exact Sub.bind (nextBytesLoop_sub m _ l) fun _ => Sub.refl _
  | setSeed s => exact Sub.refl _

theorem runHist_sub {σ ρ O : Type} (f g : O → OM σ ρ) (h : ∀ op, Sub (f op) (g op)) (ops : List O) :
    ∀ s, runHist f ops s = .ub ∨ runHist f ops s = runHist g ops s := by
  induction ops with
  | nil => intro s; exact Or.inr rfl
  | cons op ops ih =>
    intro s
    unfold runHist
    rcases h op s with h | h
    · rw [h]; exact Or.inl rfl
    · rw [h]
      cases g op s with
      | ret s' v => exact bind_sub (ih s') fun _ => Or.inr rfl
      | exc s' e => exact bind_sub (ih s') fun _ => Or.inr rfl
      | ub => exact Or.inl rfl
      | diverge => exact Or.inr rfl

/-! ## Alike objects -/

/-- The same state; the kept number matters only when it is kept. -/
def Alike (s t : Rnd δ) : Prop := s.seed = t.seed ∧ s.have_ = t.have_ ∧ (s.have_ = true → s.gauss = t.gauss)

/-- The same result, up to `Alike`. -/
inductive Match {β : Type} : Res (Rnd δ) β → Res (Rnd δ) β → Prop
  | ret {s t : Rnd δ} (h : Alike s t) (v : β) : Match (.ret s v) (.ret t v)
  | exc {s t : Rnd δ} (h : Alike s t) (e : Exc) : Match (.exc s e) (.exc t e)
  | ub : Match .ub .ub
  | diverge : Match .diverge .diverge

/-- The method cannot tell alike objects apart. -/
def Blind {β : Type} (f : OM (Rnd δ) β) : Prop := ∀ s t, Alike s t → Match (f s) (f t)

theorem Blind.bind {β γ : Type} {f : OM (Rnd δ) β} {k : β → OM (Rnd δ) γ} (h : Blind f) (hk : ∀ v, Blind (k v)) : Blind (f.bind k) := by
  intro s t hst
  have h1 := h s t hst
  unfold OM.bind
  cases hf : f s with
  | ret s' v =>
    rw [hf] at h1
    generalize f t = r at h1
    cases h1 with
    | ret h2 => exact hk v _ _ h2
  | exc s' e =>
    rw [hf] at h1
    generalize f t = r at h1
    cases h1 with
    | exc h2 => exact .exc h2 e
  | ub =>
    rw [hf] at h1
    generalize f t = r at h1
    cases h1 with
    | ub => exact .ub
  | diverge =>
    rw [hf] at h1
    generalize f t = r at h1
    cases h1 with
    | diverge => exact .diverge

theorem Blind.ret {β : Type} (v : β) : Blind (OM.ret v : OM (Rnd δ) β) := fun _ _ h => .ret h v
theorem Blind.raise {β : Type} (e : Exc) : Blind (OM.raise e : OM (Rnd δ) β) := fun _ _ h => .exc h e
theorem Blind.lift {β : Type} (o : Outcome β) : Blind (OM.lift o : OM (Rnd δ) β) := by
  intro s t h
  cases o with
  | ok v => exact .ret h v
  | throw e => exact .exc h e
  | ub => exact .ub
  | diverge => exact .diverge
theorem Blind.ite {β : Type} {c : Prop} [Decidable c] {f g : OM (Rnd δ) β} (h : Blind f) (h' : Blind g) : Blind (if c then f else g) := by
  split
  · exact h
  · exact h'

theorem next_blind (m : Sem) (bits : Nat) : Blind (next m bits : OM (Rnd δ) _) := by
  intro s t h
  unfold next
  rw [OM.bind_eq, OM.bind_read, OM.bind_read, ← h.1]
  cases advance m s.seed with
  | ok n =>
    show Match (.ret { s with seed := n } _) (.ret { t with seed := n } _)
    apply Match.ret
    exact ⟨rfl, h.2⟩
  | throw e => exact .exc h e
  | ub => exact .ub
  | diverge => exact .diverge

theorem rejectLoop_blind (m : Sem) (b : BitVec 32) (n : Nat) : Blind (rejectLoop m b n : OM (Rnd δ) _) := by
  induction n with
  | zero => exact Blind.lift _
  | succ n ih =>
    unfold rejectLoop
    exact Blind.bind (next_blind m 31) fun r => Blind.bind (Blind.lift _) fun v => Blind.bind (Blind.lift _) fun x => Blind.ite ih (Blind.ret _)

theorem nextIntBound_blind (m : Sem) (b : BitVec 32) : Blind (nextIntBound m b : OM (Rnd δ) _) := by
  unfold nextIntBound scaled
  exact Blind.ite (Blind.raise _) (Blind.ite (Blind.bind (next_blind m 31) fun r => Blind.bind (Blind.lift _) fun _ => Blind.ret _)
    (rejectLoop_blind m b _))

theorem pair_blind (m : Sem) (o : Order) (a b : Nat) : Blind (pair m o a b : OM (Rnd δ) _) := by
  cases o
  · exact Blind.bind (next_blind m a) fun _ => Blind.bind (next_blind m b) fun _ => Blind.ret _
  · exact Blind.bind (next_blind m b) fun _ => Blind.bind (next_blind m a) fun _ => Blind.ret _

theorem nextDouble_blind (m : Sem) (o : Order) : Blind (nextDouble m o : OM (Rnd δ) _) := by
  unfold nextDouble
  exact Blind.bind (pair_blind m o 26 27) fun p => Blind.lift _

theorem gaussLoop_blind (m : Sem) (o : Order) (fp : BitVec 64 → BitVec 64 → Option (δ × δ)) (n : Nat) :
    Blind (gaussLoop m o fp n) := by
  induction n with
  | zero => exact Blind.lift _
  | succ n ih =>
    unfold gaussLoop
    refine Blind.bind (nextDouble_blind m o) fun d => Blind.bind (nextDouble_blind m o) fun e => ?_
    cases fp d e with
    | none => exact ih
    | some p =>
      intro s t h
      show Match (.ret { s with have_ := true, gauss := p.2 } p.1) (.ret { t with have_ := true, gauss := p.2 } p.1)
      apply Match.ret
      exact ⟨h.1, rfl, fun _ => rfl⟩

theorem nextBytesLoop_blind (m : Sem) (n : Nat) : ∀ l, Blind (nextBytesLoop m n l : OM (Rnd δ) _) := by
  induction n with
  | zero => intro l; exact Blind.ret _
  | succ n ih =>
    intro l
    unfold nextBytesLoop nextInt
    exact Blind.bind (next_blind m 32) fun r => ih _

theorem step_blind (m : Sem) (o : Order) (fp : BitVec 64 → BitVec 64 → Option (δ × δ)) (op : Op) : Blind (step m o fp op) := by
  cases op with
  | nextInt => exact Blind.bind (next_blind m 32) fun _ => Blind.ret _
  | nextIntBound b => exact Blind.bind (nextIntBound_blind m b) fun _ => Blind.ret _
  | nextBoolean => exact Blind.bind (Blind.bind (next_blind m 1) fun _ => Blind.ret _) fun _ => Blind.ret _
  | nextLong => exact Blind.bind (Blind.bind (pair_blind m o 32 32) fun p => Blind.lift _) fun _ => Blind.ret _
  | nextFloat => exact Blind.bind (next_blind m 24) fun _ => Blind.ret _
  | nextDouble => exact Blind.bind (nextDouble_blind m o) fun _ => Blind.ret _
  | nextGaussian =>
    refine Blind.bind ?_ fun _ => Blind.ret _
    intro s t h
    unfold nextGaussian
    rw [OM.bind_eq, OM.bind_read, OM.bind_read, ← h.2.1]
    by_cases hh : s.have_ = true
    · rw [if_pos hh, if_pos hh, ← h.2.2 hh]
      show Match (.ret { s with have_ := false } s.gauss) (.ret { t with have_ := false, gauss := s.gauss } s.gauss)
      apply Match.ret
      exact ⟨h.1, rfl, fun _ => rfl⟩
    · rw [if_neg hh, if_neg hh]
      exact gaussLoop_blind m o fp _ s t h
  | nextBytes l => exact Blind.bind (nextBytesLoop_blind m _ l) fun _ => Blind.ret _
  | setSeed sd => 
    intro s t h
    show Match (.ret { s with seed := initialScramble sd, have_ := false } Ans.unit)
      (.ret { t with seed := initialScramble sd, have_ := false } Ans.unit)
    apply Match.ret
    exact ⟨rfl, rfl, fun e => absurd e (by simp)⟩

/-- Answers of a history. -/
def answers (m : Sem) (o : Order) (fp : BitVec 64 → BitVec 64 → Option (δ × δ)) (ops : List Op) (s : Rnd δ) : Outcome (List (Except Exc (Ans δ))) :=
  (runHist (step m o fp) ops s).bind fun r => .ok r.2

theorem answers_alike (m : Sem) (o : Order) (fp : BitVec 64 → BitVec 64 → Option (δ × δ)) (ops : List Op) :
    ∀ s t, Alike s t → answers m o fp ops s = answers m o fp ops t := by
  induction ops with
  | nil => intro s t _; rfl
  | cons op ops ih =>
    intro s t h
    have hm := step_blind m o fp op s t h
    unfold answers runHist
    generalize step m o fp op s = a at hm ⊢
    generalize step m o fp op t = b at hm ⊢
    cases hm with
    | ret h' v =>
      have := ih _ _ h'
      unfold answers at this
      simp only
      rename_i s' t'
      revert this
      cases runHist (step m o fp) ops s' <;> cases runHist (step m o fp) ops t' <;> simp [Outcome.bind]
    | exc h' e =>
      have := ih _ _ h'
      unfold answers at this
      simp only
      rename_i s' t'
      revert this
      cases runHist (step m o fp) ops s' <;> cases runHist (step m o fp) ops t' <;> simp [Outcome.bind]
    | ub => rfl
    | diverge => rfl

end Verif.Random
