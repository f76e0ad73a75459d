import Verif.Random.Sim
import Mathlib.Data.Finset.Card
import Mathlib.Data.Finset.Range
import Mathlib.Data.Finset.Image
/-!
# C41, C42, C69-C72: seeds, bounds, copies, bytes, text, period
-/
namespace Verif.Random

variable {δ : Type}

/-! ## C41: seeds -/

/-- Generators created from one seed answer alike, whatever was in the memory of
the field that is not initialised, on every platform choice. -/
theorem C41_same (m : Sem) (o : Order) (fp : BitVec 64 → BitVec 64 → Option (δ × δ)) (seed : BitVec 64) (g g' : δ) (ops : List Op) :
    answers m o fp ops (ofSeed seed g) = answers m o fp ops (ofSeed seed g') :=
  answers_alike m o fp ops _ _ ⟨rfl, rfl, fun e => absurd e (by simp [ofSeed])⟩

/-- After `setSeed(s)`, in any state, every history answers as on a new generator. -/
theorem C41_setSeed (m : Sem) (o : Order) (fp : BitVec 64 → BitVec 64 → Option (δ × δ)) (seed : BitVec 64) (g : δ) (s : Rnd δ) (ops : List Op) :
    answers m o fp (.setSeed seed :: ops) s = (answers m o fp ops (ofSeed seed g)).bind fun as => .ok (.ok .unit :: as) := by
  have h := answers_alike m o fp ops { s with seed := initialScramble seed, have_ := false } (ofSeed seed g)
    ⟨rfl, rfl, fun e => absurd e (by simp)⟩
  rw [← h]
  have h1 : step m o fp (.setSeed seed) s = .ret { s with seed := initialScramble seed, have_ := false } .unit := rfl
  unfold answers
  rw [runHist, h1]
  simp only
  cases runHist (step m o fp) ops { s with seed := initialScramble seed, have_ := false } <;> rfl

/-- The strict reading is undefined or agrees with the wrapping one. -/
theorem C41_defined (m : Sem) (o : Order) (fp : BitVec 64 → BitVec 64 → Option (δ × δ)) (ops : List Op) (s : Rnd δ) :
    runHist (step m o fp) ops s = .ub ∨ runHist (step m o fp) ops s = runHist (step .wrap o fp) ops s :=
  runHist_sub _ _ (step_sub m o fp) ops s

/-- Every draw from a state whose product does not fit is undefined in C++11. -/
theorem C41_strict_wrong (bits : Nat) (s : Rnd δ) (h : s.seed.toNat < 2 ^ 48) (hb : 2 ^ 63 ≤ s.seed.toNat * 25214903917) :
    next .strict bits s = .ub := by
  have h1 : CInt.mul .strict s.seed MULTIPLIER = .ub := by
    unfold CInt.mul
    rw [if_pos]
    refine ⟨rfl, ?_⟩
    rw [CInt.smulOverflow_iff]
    have h2 : s.seed.toInt = s.seed.toNat := BitVec.toInt_eq_toNat_of_lt (by omega)
    have h3 : MULTIPLIER.toInt = 25214903917 := by decide
    rw [h2, h3]
    unfold CInt.Fits
    simp only [Nat.reduceSub]
    omega
  unfold next advance
  rw [OM.bind_eq, OM.bind_read, h1]
  rfl

/-- `new Random(0)` is in such a state. -/
example : ((ofSeed 0#64 () : Rnd Unit).seed.toNat < 2 ^ 48) ∧ 2 ^ 63 ≤ (ofSeed 0#64 () : Rnd Unit).seed.toNat * 25214903917 := by
  rw [show (ofSeed 0#64 () : Rnd Unit).seed.toNat = 25214903917 by decide]; decide

/-- With the right operand first `nextLong` answers with the halves exchanged. -/
theorem C41_order_wrong (fp : BitVec 64 → BitVec 64 → Option (δ × δ)) (s : Rnd δ) :
    step .wrap .right fp .nextLong s =
      .ret (skip s 2) (.int ((int32 (top 32 2 s.seed.toNat) * 2 ^ 32 + int32 (top 32 1 s.seed.toNat)).bmod (2 ^ 64))) := by
  have h1 := drawn_toNat' 32 s (by omega)
  have h2 := drawn_toNat 32 1 s (by omega)
  have hc : combine .wrap 32 (drawn 32 (skip s 1), drawn 32 s) = .ok _ := combine_wrap 32 (by omega) (drawn 32 (skip s 1), drawn 32 s)
  have hl : nextLong .wrap .right s = .ret (skip s 2) ((drawn 32 (skip s 1)).signExtend 64 <<< 32 + (drawn 32 s).signExtend 64) := by
    unfold nextLong
    rw [OM.bind_eq, OM.bind_of_ret (pair_wrap_right 32 32 s), hc, OM.lift_ok]; rfl
  show ((nextLong .wrap .right).bind fun v => OM.ret (Ans.int v.toInt)) s = _
  rw [OM.bind_of_ret hl, long_toInt, toInt_int32, toInt_int32, h1, h2]
  rfl

/-! ## C42 -/

/-- Whenever `nextInt(bound)` returns, on every platform choice, the answer is in range. -/
theorem C42_range (m : Sem) (b : BitVec 32) (s s' : Rnd δ) (v : BitVec 32) (h : nextIntBound m b s = .ret s' v) :
    0 ≤ v.toInt ∧ v.toInt < b.toInt := by
  rcases nextIntBound_sub m b s with h1 | h1
  · rw [h1] at h; cases h
  · rw [h1] at h
    by_cases hb : 0 < b.toInt
    · obtain ⟨n, w, h2, _, h4⟩ := nextIntBound_ok b hb s
      rw [h2] at h
      cases h
      have hbs := pos_small b hb
      rw [toInt_small v (by omega)]
      omega
    · unfold nextIntBound at h
      rw [if_pos (by
        cases e : b.sle 0#32
        · exact absurd ((pos_iff b).mp e) hb
        · rfl)] at h
      cases h

/-- It raises exactly for a bound that is not positive and draws nothing then. -/
theorem C42_raises (m : Sem) (b : BitVec 32) (s : Rnd δ) (h : b.toInt ≤ 0) : nextIntBound m b s = .exc s .interrupted := by
  unfold nextIntBound
  rw [if_pos (by
    cases e : b.sle 0#32
    · have := (pos_iff b).mp e; omega
    · rfl)]
  rfl

/-- From every state and for every positive bound it returns. -/
theorem C42_terminates (b : BitVec 32) (s : Rnd δ) (h : 0 < b.toInt) : ∃ s' v, nextIntBound .wrap b s = .ret s' v := by
  obtain ⟨n, v, h1, _⟩ := nextIntBound_ok b h s
  exact ⟨_, _, h1⟩

example : (0 : Int) < (62#32).toInt := by decide

/-- The answer is the one the raw draw gives; a draw that gives none is skipped. -/
theorem C42_draws (b : BitVec 32) (hb : 0 < b.toInt) (s : Rnd δ) (n : BitVec 64) (hn : n.toNat = after 1 s.seed.toNat) :
    (∀ v, Gives b.toNat (top 31 1 s.seed.toNat) v → ∃ w, nextIntBound .wrap b s = .ret { s with seed := n } w ∧ w.toInt = v) ∧
    ((∀ v, ¬ Gives b.toNat (top 31 1 s.seed.toNat) v) → nextIntBound .wrap b s = nextIntBound .wrap b { s with seed := n }) := by
  have hs : ({ s with seed := n } : Rnd δ) = skip s 1 := by
    have h1 : n = bump s.seed := BitVec.eq_of_toNat_eq (by rw [hn, bump_toNat, after_succ, after_zero])
    rw [h1, skip, skip]
  obtain ⟨_, hb1, hb2⟩ := pos_small b hb
  have hle : b.sle 0#32 = false := (pos_iff b).mpr hb
  rw [hs]
  by_cases hp : b &&& (b - 1#32) = 0#32
  · obtain ⟨v, hv1, hv2, hv3⟩ := scaled_ok b hb s
    have hp' := (pow_two_iff b hb).mp hp
    constructor
    · intro w hw
      rcases hw with ⟨_, hw⟩ | ⟨hw, _⟩
      · refine ⟨v, ?_, by rw [toInt_small v (by omega), hv2, hw]⟩
        unfold nextIntBound
        rw [if_neg (by simp [hle]), if_pos hp]; exact hv1
      · obtain ⟨j, hj⟩ := hp'; exact absurd hj (hw j)
    · intro h
      exact absurd (Or.inl ⟨hp', rfl⟩) (h _)
  · have hnp : ∀ j, b.toNat ≠ 2 ^ j := fun j e => hp ((pow_two_iff b hb).mpr ⟨j, e⟩)
    have heq : ∀ t : Rnd δ, nextIntBound .wrap b t = rejectLoop .wrap b maxTurns t := by
      intro t
      unfold nextIntBound
      rw [if_neg (by simp [hle]), if_neg hp]
    have hM : maxTurns = 2 ^ 48 := rfl
    rw [heq, heq]
    constructor
    · intro v hv
      rcases hv with ⟨⟨j, hj⟩, _⟩ | ⟨_, hk, rfl⟩
      · exact absurd hj (hnp j)
      · obtain ⟨w, hw1, hw2⟩ := rejectLoop_ok b hb 0 maxTurns s (by rw [hM]; omega) (fun k h1 h2 => by omega) hk
        have := Nat.mod_lt (top 31 1 s.seed.toNat) hb1
        rw [Nat.zero_add] at hw2
        rw [Nat.zero_add] at hw1
        exact ⟨w, hw1, by rw [toInt_small w (by omega), hw2]⟩
    · intro hno
      have hnk : ¬ Kept b.toNat (top 31 1 s.seed.toNat) := fun hk => hno _ (Or.inr ⟨hnp, hk, rfl⟩)
      obtain ⟨k, hk1, hk2, hk3⟩ := kept_exists b.toNat hb2 s.seed.toNat
      obtain ⟨k, rfl⟩ : ∃ j, k = j + 1 := ⟨k - 1, by
        rcases Nat.eq_zero_or_pos k with rfl | h
        · exact absurd hk3 hnk
        · omega⟩
      have htop : ∀ j, top 31 j (skip s 1).seed.toNat = top 31 (j + 1) s.seed.toNat := by
        intro j
        unfold top
        rw [skip_seed, ← after_add, Nat.add_comm]
      obtain ⟨w, hw1, hw2⟩ := rejectLoop_ok b hb (k + 1) maxTurns s (by rw [hM]; exact hk1) hk2 hk3
      obtain ⟨u, hu1, hu2⟩ := rejectLoop_ok b hb k maxTurns (skip s 1) (by rw [hM]; omega)
        (fun j h1 h2 => by rw [htop]; exact hk2 (j + 1) (by omega) (by omega)) (by rw [htop]; exact hk3)
      have : w = u := BitVec.eq_of_toNat_eq (by rw [hw2, hu2, htop])
      rw [hw1, hu1, skip_add, this, Nat.add_comm 1]

/-- No modulo bias: every value in range is given by equally many raw draws. -/
theorem C42_fair (b v : Nat) (hb : 0 < b) (hb' : b < 2 ^ 31) (hv : v < b) [DecidablePred fun r => Gives b r v] :
    ((Finset.range (2 ^ 31)).filter fun r => Gives b r v).card = 2 ^ 31 / b := by
  have key : ∀ (N c d e : Nat), 0 < d → (∀ r, (r < N ∧ Gives b r v) ↔ ∃ q, q < c ∧ r = q * d + e) →
      ((Finset.range N).filter fun r => Gives b r v).card = c := by
    intro N c d e hd h
    have : (Finset.range N).filter (fun r => Gives b r v) = (Finset.range c).image (fun q => q * d + e) := by
      ext r
      rw [Finset.mem_filter, Finset.mem_range, h, Finset.mem_image]
      constructor
      · rintro ⟨q, h1, h2⟩; exact ⟨q, Finset.mem_range.mpr h1, h2.symm⟩
      · rintro ⟨q, h1, h2⟩; exact ⟨q, Finset.mem_range.mp h1, h2.symm⟩
    rw [this, Finset.card_image_of_injective, Finset.card_range]
    intro p q hpq
    exact Nat.eq_of_mul_eq_mul_right hd (Nat.add_right_cancel hpq)
  by_cases hp : ∃ j, b = 2 ^ j
  · obtain ⟨j, hj⟩ := hp
    have hj31 : j < 31 := by
      by_contra h
      have := Nat.pow_le_pow_right (n := 2) (by decide) (Nat.le_of_not_lt h)
      omega
    have hsplit : 2 ^ 31 = b * 2 ^ (31 - j) := by rw [hj, ← Nat.pow_add]; congr 1; omega
    have hpos : 0 < 2 ^ (31 - j) := Nat.two_pow_pos _
    generalize hD : 2 ^ (31 - j) = D at *
    rw [hsplit, Nat.mul_div_cancel_left _ hb]
    refine key (b * D) D 1 (v * D) (by decide) fun r => ?_
    have hdiv : b * r / 2 ^ 31 = r / D := by rw [hsplit, Nat.mul_div_mul_left _ _ hb]
    constructor
    · rintro ⟨h1, h2⟩
      rcases h2 with ⟨_, h2⟩ | ⟨h2, _⟩
      · rw [hdiv] at h2
        refine ⟨r - v * D, ?_, ?_⟩
        · have := Nat.div_add_mod r D
          have := Nat.mod_lt r hpos
          rw [h2, Nat.mul_comm]; omega
        · have := Nat.div_mul_le_self r D
          rw [h2]; omega
      · exact absurd hj (h2 j)
    · rintro ⟨q, h1, rfl⟩
      have h3 : (q * 1 + v * D) / D = v := by
        rw [Nat.mul_one, Nat.add_mul_div_right _ _ hpos, Nat.div_eq_of_lt h1, Nat.zero_add]
      refine ⟨?_, Or.inl ⟨⟨j, hj⟩, by rw [hdiv, h3]⟩⟩
      have : (v + 1) * D ≤ b * D := Nat.mul_le_mul_right _ hv
      rw [Nat.add_mul] at this
      omega
  · have hp' : ∀ j, b ≠ 2 ^ j := fun j e => hp ⟨j, e⟩
    refine key (2 ^ 31) (2 ^ 31 / b) b v hb fun r => ?_
    constructor
    · rintro ⟨h1, h2⟩
      rcases h2 with ⟨h2, _⟩ | ⟨_, h2, rfl⟩
      · exact absurd h2 hp
      · refine ⟨r / b, ?_, ?_⟩
        · unfold Kept at h2
          rw [Nat.lt_iff_add_one_le, Nat.le_div_iff_mul_le hb, Nat.add_mul]
          have := Nat.div_add_mod r b
          rw [Nat.mul_comm] at this
          omega
        · rw [Nat.mul_comm]; exact (Nat.div_add_mod r b).symm
    · rintro ⟨q, h1, rfl⟩
      have h3 : (q * b + v) % b = v := by rw [Nat.mul_comm, Nat.mul_add_mod, Nat.mod_eq_of_lt hv]
      have h4 : (q + 1) * b ≤ 2 ^ 31 := by
        rw [Nat.lt_iff_add_one_le, Nat.le_div_iff_mul_le hb] at h1; exact h1
      rw [Nat.add_mul] at h4
      refine ⟨by omega, Or.inr ⟨hp', ?_, h3.symm⟩⟩
      unfold Kept
      rw [h3]; omega

example : 0 < 10 ∧ 10 < 2 ^ 31 ∧ 7 < 10 := by decide

/-! ## C69: copies -/

/-- A copy made while no Gaussian is kept answers every history as the original would. -/
theorem C69_copy_partial (m : Sem) (o : Order) (fp : BitVec 64 → BitVec 64 → Option (δ × δ)) (s : Rnd δ) (g : δ) (ops : List Op)
    (h : s.have_ = false) : answers m o fp ops (copy s g) = answers m o fp ops s :=
  answers_alike m o fp ops _ _ ⟨rfl, by rw [h]; rfl, fun e => absurd e (by simp [copy])⟩

example : (ofSeed 5#64 () : Rnd Unit).have_ = false := rfl

/-- A copy made while a Gaussian is kept draws a new one where the original
returns the kept one. -/
theorem C69_copy_wrong (m : Sem) (o : Order) (fp : BitVec 64 → BitVec 64 → Option (δ × δ)) (s : Rnd δ) (g : δ) (h : s.have_ = true) :
    step m o fp .nextGaussian s = .ret { s with have_ := false } (.dbl s.gauss) ∧
    step m o fp .nextGaussian (copy s g) = ((gaussLoop m o fp maxTurns).bind fun v => OM.ret (.dbl v)) (copy s g) := by
  constructor
  · show ((nextGaussian m o fp).bind fun v => OM.ret (Ans.dbl v)) s = _
    have h1 : nextGaussian m o fp s = .ret { s with have_ := false } s.gauss := by
      unfold nextGaussian
      rw [OM.bind_eq, OM.bind_read, if_pos h]; rfl
    rw [OM.bind_of_ret h1]; rfl
  · show ((nextGaussian m o fp).bind fun v => OM.ret (Ans.dbl v)) (copy s g) = _
    have h1 : nextGaussian m o fp (copy s g) = gaussLoop m o fp maxTurns (copy s g) := by
      unfold nextGaussian
      rw [OM.bind_eq, OM.bind_read, if_neg (by simp [copy])]
    unfold OM.bind
    rw [h1]

/-- Such a generator is reached by one call, and the answers differ. -/
example : ∃ (fp : BitVec 64 → BitVec 64 → Option (Nat × Nat)) (s s1 s2 : Rnd Nat),
    step .wrap .left fp .nextGaussian (ofSeed 0#64 0) = .ret s (.dbl 1) ∧ s.have_ = true ∧
    step .wrap .left fp .nextGaussian s = .ret s1 (.dbl 2) ∧ step .wrap .left fp .nextGaussian (copy s 7) = .ret s2 (.dbl 1) := by
  let fp : BitVec 64 → BitVec 64 → Option (Nat × Nat) := fun _ _ => some (1, 2)
  have hg : ∀ t : Rnd Nat, t.have_ = false →
      step .wrap .left fp .nextGaussian t = .ret { skip t 4 with have_ := true, gauss := 2 } (.dbl 1) := by
    intro t ht
    have h := gaussLoop_ok fp t 1 2 0 maxTurns 0 (by rw [show maxTurns = 2 ^ 48 from rfl]; omega) (fun i hi => absurd hi (by omega)) rfl
    have h1 : nextGaussian .wrap .left fp t = .ret { skip t 4 with have_ := true, gauss := 2 } 1 := by
      unfold nextGaussian
      rw [OM.bind_eq, OM.bind_read, if_neg (by simp [ht])]
      exact h
    show ((nextGaussian .wrap .left fp).bind fun v => OM.ret (Ans.dbl v)) t = _
    rw [OM.bind_of_ret h1]; rfl
  exact ⟨fp, _, _, _, hg _ rfl, rfl, (C69_copy_wrong .wrap .left fp _ 0 rfl).1, hg _ rfl⟩

/-! ## C70: `nextBytes` -/

/-- `nextBytes` leaves the array's own elements as they were and appends as many
random bytes, for every array. -/
theorem C70_nextBytes_wrong (s : Rnd δ) (l : List Byte) :
    ∃ s' r, nextBytes .wrap l s = .ret s' (l ++ r) ∧ r.length = l.length := by
  have h := nextBytesLoop_ok s l.length 0 l
  refine ⟨_, _, h, by simp⟩

/-! ## C71: `nextString` -/

theorem drawChars_sub (m : Sem) (n : Nat) : Sub (drawChars m n : OM (Rnd δ) _) (drawChars .wrap n) := by
  induction n with
  | zero => exact Sub.refl _
  | succ n ih => exact Sub.bind (nextIntBound_sub m _) fun _ => ih

theorem drawChars_ok (n : Nat) : ∀ s : Rnd δ, ∃ s', drawChars .wrap n s = .ret s' () := by
  induction n with
  | zero => intro s; exact ⟨s, rfl⟩
  | succ n ih =>
    intro s
    obtain ⟨s1, v, h1⟩ := C42_terminates 62#32 s (by decide)
    obtain ⟨s2, h2⟩ := ih s1
    refine ⟨s2, ?_⟩
    unfold drawChars
    rw [OM.bind_eq, OM.bind_of_ret h1, h2]

/-- `nextString(length)` writes past its array for every length. -/
theorem C71_nextString_wrong (m : Sem) (length : Int) (s : Rnd δ) : nextString m length s = .ub := by
  obtain ⟨s', h⟩ := drawChars_ok length.toNat s
  unfold nextString
  rw [OM.bind_eq]
  rcases drawChars_sub m length.toNat s with h1 | h1
  · rw [OM.bind_of_ub h1]
  · rw [OM.bind_of_ret (h1.trans h)]; rfl

/-! ## C72: period -/

theorem surj_count (N c w v : Nat) (f : Nat → Nat) (hw : 0 < w) (hN : N = c * w) (hv : v < c) (hf : ∀ k, f k < N)
    (hs : ∀ y < N, ∃ k < N, f k = y) : ((Finset.range N).filter fun k => f k / w = v).card = w := by
  have himg : (Finset.range N).image f = Finset.range N := by
    ext y
    rw [Finset.mem_image, Finset.mem_range]
    constructor
    · rintro ⟨k, _, rfl⟩; exact hf k
    · intro hy
      obtain ⟨k, h1, h2⟩ := hs y hy
      exact ⟨k, Finset.mem_range.mpr h1, h2⟩
  have hinj : Set.InjOn f (Finset.range N) := Finset.card_image_iff.mp (by rw [himg])
  have h1 : ((Finset.range N).filter fun k => f k / w = v).image f = (Finset.range w).image (fun q => v * w + q) := by
    ext y
    rw [Finset.mem_image, Finset.mem_image]
    constructor
    · rintro ⟨k, hk, rfl⟩
      rw [Finset.mem_filter] at hk
      refine ⟨f k % w, Finset.mem_range.mpr (Nat.mod_lt _ hw), ?_⟩
      rw [← hk.2, Nat.mul_comm]; exact Nat.div_add_mod _ _
    · rintro ⟨q, hq, rfl⟩
      rw [Finset.mem_range] at hq
      have hlt : v * w + q < N := by
        have : (v + 1) * w ≤ c * w := Nat.mul_le_mul_right _ hv
        rw [Nat.add_mul] at this
        omega
      obtain ⟨k, h2, h3⟩ := hs _ hlt
      refine ⟨k, Finset.mem_filter.mpr ⟨Finset.mem_range.mpr h2, ?_⟩, h3⟩
      rw [h3, Nat.add_comm, Nat.add_mul_div_right _ _ hw, Nat.div_eq_of_lt hq, Nat.zero_add]
  have h2 : (((Finset.range N).filter fun k => f k / w = v).image f).card = ((Finset.range N).filter fun k => f k / w = v).card :=
    Finset.card_image_iff.mpr (hinj.mono (by
      intro k hk
      exact Finset.mem_coe.mpr (Finset.mem_of_mem_filter k (Finset.mem_coe.mp hk))))
  rw [← h2, h1, Finset.card_image_of_injective _ (fun a b h => Nat.add_left_cancel h), Finset.card_range]

theorem visits (x y : Nat) (hy : y < 2 ^ 48) : ∃ k, k < 2 ^ 48 ∧ after (k + 1) x = y := by
  obtain ⟨n, h1, h2⟩ := reach 48 (Nat.le_refl _) (lcg x) y
  refine ⟨n, h1, ?_⟩
  rw [after_next]
  rw [Nat.mod_eq_of_lt (after_lt n _ (lcg_lt x)), Nat.mod_eq_of_lt hy] at h2
  exact h2

/-- Over 2^48 draws in a row every `bits`-bit number turns up equally often. -/
theorem top_count (bits x v : Nat) (hb : bits ≤ 48) (hv : v < 2 ^ bits) :
    ((Finset.range (2 ^ 48)).filter fun k => top bits (k + 1) x = v).card = 2 ^ (48 - bits) := by
  unfold top
  refine surj_count (2 ^ 48) (2 ^ bits) (2 ^ (48 - bits)) v (fun k => after (k + 1) x) (Nat.two_pow_pos _) ?_ hv ?_ ?_
  · rw [← Nat.pow_add]; congr 1; omega
  · intro k
    show after (k + 1) x < 2 ^ 48
    rw [after_succ]; exact lcg_lt _
  · exact visits x

theorem nextInts (o : Order) (fp : BitVec 64 → BitVec 64 → Option (δ × δ)) (s : Rnd δ) (n : Nat) : ∀ j,
    answers .wrap o fp (List.replicate n .nextInt) (skip s j) =
      .ok ((List.range n).map fun k => .ok (.int (int32 (top 32 (j + k + 1) s.seed.toNat)))) := by
  induction n with
  | zero => intro j; rfl
  | succ n ih =>
    intro j
    have h1 : step .wrap o fp .nextInt (skip s j) = .ret (skip s (j + 1)) (.int (int32 (top 32 (j + 1) s.seed.toNat))) := by
      show ((nextInt .wrap).bind fun v => OM.ret (Ans.int v.toInt)) (skip s j) = _
      unfold nextInt
      rw [OM.bind_of_ret (next_wrap 32 _), toInt_int32, drawn_toNat 32 j s (by omega), skip_add]
      rfl
    have h2 := ih (j + 1)
    unfold answers at h2 ⊢
    rw [List.replicate_succ, runHist, h1]
    simp only
    revert h2
    cases hr : runHist (step .wrap o fp) (List.replicate n .nextInt) (skip s (j + 1)) with
    | ok r =>
      rw [Outcome.bind_ok, Outcome.bind_ok, Outcome.bind_ok]
      intro h2
      injection h2 with h2
      rw [h2, List.range_succ_eq_map, List.map_cons, List.map_map]
      refine congrArg Outcome.ok (congrArg₂ List.cons (by rw [Nat.add_zero]) (List.map_congr_left ?_))
      intro i _
      rw [Function.comp_apply, Nat.succ_eq_add_one]
      rw [show j + 1 + i + 1 = j + (i + 1) + 1 by omega]
    | throw e => intro h2; cases h2
    | ub => intro h2; cases h2
    | diverge => intro h2; cases h2

/-- From every state, the next 2^48 calls of `nextInt()` return every 32-bit
integer exactly 2^16 times. -/
theorem C72_period (o : Order) (fp : BitVec 64 → BitVec 64 → Option (δ × δ)) (s : Rnd δ) :
    ∃ f : Nat → Int, (∀ n, answers .wrap o fp (List.replicate n .nextInt) s = .ok ((List.range n).map fun k => .ok (.int (f k)))) ∧
      ∀ v : Int, -2 ^ 31 ≤ v → v < 2 ^ 31 → ((Finset.range (2 ^ 48)).filter fun k => f k = v).card = 2 ^ 16 := by
  refine ⟨fun k => int32 (top 32 (k + 1) s.seed.toNat), ?_, ?_⟩
  · intro n
    have := nextInts o fp s n 0
    simp only [Nat.zero_add] at this
    exact this
  · intro v h1 h2
    have hv : (v % 2 ^ 32).toNat < 2 ^ 32 := by omega
    have e := top_count 32 s.seed.toNat (v % 2 ^ 32).toNat (by omega) hv
    rw [show 48 - 32 = 16 from rfl] at e
    rw [← e]
    refine congrArg Finset.card (Finset.filter_congr ?_)
    intro k _
    show int32 (top 32 (k + 1) s.seed.toNat) = v ↔ _
    have ht := top_lt 32 (k + 1) s.seed.toNat (by omega) (by omega)
    generalize top 32 (k + 1) s.seed.toNat = r at ht ⊢
    unfold int32
    rw [Int.bmod_def]
    split <;> omega

end Verif.Random
