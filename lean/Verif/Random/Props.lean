import Verif.Random.Lemmas
/-!
# C41, C42: what a generator hands out
-/
namespace Verif.Random

variable {δ : Type}

/-! ## C41: every call -/

theorem holds_skip {s : Rnd δ} {t : St δ} (h : Holds s t) (k : Nat) : Holds (skip s k) ⟨after k t.x, t.kept⟩ := by
  refine ⟨by rw [skip_seed, h.1], after_lt _ _ h.2.1, ?_⟩
  rw [(skip_have s k).1, (skip_have s k).2]; exact h.2.2

theorem nextBytesLoop_ok (s : Rnd δ) (n : Nat) : ∀ (k : Nat) (l : List Byte),
    nextBytesLoop .wrap n l (skip s k) =
      .ret (skip s (k + n)) (l ++ (List.range n).map fun i => BitVec.ofNat 8 (top 32 (k + i + 1) s.seed.toNat / 256)) := by
  induction n with
  | zero => intro k l; simp only [List.range_zero, List.map_nil, List.append_nil]; rfl
  | succ n ih =>
    intro k l
    unfold nextBytesLoop nextInt
    rw [OM.bind_eq, OM.bind_of_ret (next_wrap 32 _), skip_add, ih]
    have hd := drawn_toNat 32 k s (by omega)
    have hb : ((drawn 32 (skip s k)).sshiftRight 8).setWidth 8 = BitVec.ofNat 8 (top 32 (k + 1) s.seed.toNat / 256) := by
      rw [← hd]
      apply BitVec.eq_of_toNat_eq
      generalize drawn 32 (skip s k) = d
      have hlt := d.isLt
      rw [BitVec.toNat_setWidth, BitVec.toNat_ofNat, BitVec.toNat_sshiftRight]
      split
      · rw [Nat.shiftRight_eq_div_pow]
        omega
      · rw [Nat.shiftRight_eq_div_pow]
    rw [hb, List.append_assoc, List.range_succ_eq_map, List.map_cons, List.map_map]
    congr 2
    · omega
    · simp only [List.singleton_append, Nat.add_zero, List.cons.injEq, true_and]
      apply List.map_congr_left
      intro i _
      simp only [Function.comp, Nat.succ_eq_add_one]
      congr 3; omega

theorem gaussLoop_ok (fp : BitVec 64 → BitVec 64 → Option (δ × δ)) (s : Rnd δ) (r g : δ) (n : Nat) : ∀ (fuel j : Nat), n < fuel →
    (∀ i < n, fp (BitVec.ofNat 64 (dbl (j + 4 * i) s.seed.toNat)) (BitVec.ofNat 64 (dbl (j + 4 * i + 2) s.seed.toNat)) = none) →
    fp (BitVec.ofNat 64 (dbl (j + 4 * n) s.seed.toNat)) (BitVec.ofNat 64 (dbl (j + 4 * n + 2) s.seed.toNat)) = some (r, g) →
    gaussLoop .wrap .left fp fuel (skip s j) = .ret { skip s (j + 4 * n + 4) with have_ := true, gauss := g } r := by
  induction n with
  | zero =>
    intro fuel j hf _ hs
    obtain ⟨fuel, rfl⟩ : ∃ f, fuel = f + 1 := ⟨fuel - 1, by omega⟩
    rw [Nat.mul_zero, Nat.add_zero] at hs ⊢
    unfold gaussLoop
    rw [OM.bind_eq, OM.bind_of_ret (nextDouble_ok s j), OM.bind_eq, OM.bind_of_ret (nextDouble_ok s (j + 2)), hs]
    rfl
  | succ n ih =>
    intro fuel j hf hn hs
    obtain ⟨fuel, rfl⟩ : ∃ f, fuel = f + 1 := ⟨fuel - 1, by omega⟩
    have h0 := hn 0 (by omega)
    rw [Nat.mul_zero, Nat.add_zero] at h0
    unfold gaussLoop
    rw [OM.bind_eq, OM.bind_of_ret (nextDouble_ok s j), OM.bind_eq, OM.bind_of_ret (nextDouble_ok s (j + 2)), h0]
    simp only
    rw [show j + 2 + 2 = j + 4 from rfl, ih fuel (j + 4) (by omega)]
    · rw [show j + 4 + 4 * n + 4 = j + 4 * (n + 1) + 4 by omega]
    · intro i hi
      have := hn (i + 1) (by omega)
      rw [show j + 4 * (i + 1) = j + 4 + 4 * i by omega] at this
      exact this
    · rw [show j + 4 * (n + 1) = j + 4 + 4 * n by omega] at hs
      exact hs

theorem is_ret {σ β : Type} {f : OM σ β} {s s' : σ} {v w : β} (h : f s = .ret s' v) (e : v = w) : (f s).Is s' (.ok w) := by
  subst e; exact h

/-- Every call, with the left operand first and wrapping arithmetic. -/
theorem C41_call_partial (fp : BitVec 64 → BitVec 64 → Option (δ × δ)) (op : Op) (s : Rnd δ) (t : St δ) (hS : Holds s t)
    (hl : Legal fp op t) : ∃ s' t' a, Holds s' t' ∧ R fp op t t' a ∧ (step .wrap .left fp op s).Is s' a := by
  have hx := hS.1
  cases op with
  | nextInt =>
    refine ⟨skip s 1, _, _, holds_skip hS 1, ⟨rfl, rfl⟩, ?_⟩
    show ((nextInt .wrap).bind fun v => OM.ret (Ans.int v.toInt)) s = _
    unfold nextInt
    rw [OM.bind_of_ret (next_wrap 32 s), toInt_int32, drawn_toNat' 32 s (by omega), hx]
    rfl
  | nextIntBound b =>
    by_cases hb : b.toInt ≤ 0
    · refine ⟨s, t, .error .interrupted, hS, ?_, ?_⟩
      · simp only [R, if_pos hb, and_self]
      · show ((nextIntBound .wrap b).bind fun v => OM.ret (Ans.int v.toInt)) s = _
        unfold nextIntBound
        have : b.sle 0#32 = true := by
          cases h : b.sle 0#32
          · have := (pos_iff b).mp h; omega
          · rfl
        rw [if_pos this]
        rfl
    · obtain ⟨n, v, h1, h2, h3⟩ := nextIntBound_ok b (by omega) s
      rw [hx] at h2
      have hbs := pos_small b (by omega)
      refine ⟨skip s (n + 1), ⟨after (n + 1) t.x, t.kept⟩, .ok (.int v.toNat), holds_skip hS _, ?_, ?_⟩
      · simp only [R, if_neg hb]; exact ⟨_, _, h2, rfl, rfl⟩
      · show ((nextIntBound .wrap b).bind fun v => OM.ret (Ans.int v.toInt)) s = _
        rw [OM.bind_of_ret h1, toInt_small v (by omega)]
        rfl
  | nextBoolean =>
    refine ⟨skip s 1, _, _, holds_skip hS 1, ⟨rfl, rfl⟩, ?_⟩
    show ((nextBoolean .wrap).bind fun v => OM.ret (Ans.bool v)) s = _
    have hd := drawn_toNat' 1 s (by omega)
    have ht := top_lt 1 1 s.seed.toNat (by omega) (by omega)
    rw [hx] at hd ht
    have : decide (drawn 1 s ≠ 0#32) = decide (top 1 1 t.x = 1) := by
      apply decide_eq_decide.mpr
      constructor
      · intro h
        have : (drawn 1 s).toNat ≠ 0 := fun e => h (BitVec.eq_of_toNat_eq e)
        omega
      · intro h e
        rw [e] at hd
        simp at hd
        omega
    rw [← this]
    have h2 : nextBoolean .wrap s = .ret (skip s 1) (decide (drawn 1 s ≠ 0#32)) := by
      unfold nextBoolean
      rw [OM.bind_eq, OM.bind_of_ret (next_wrap 1 s)]; rfl
    rw [OM.bind_of_ret h2]
    rfl
  | nextLong =>
    refine ⟨skip s 2, _, _, holds_skip hS 2, ⟨rfl, rfl⟩, ?_⟩
    show ((nextLong .wrap .left).bind fun v => OM.ret (Ans.int v.toInt)) s = _
    have h1 := drawn_toNat' 32 s (by omega)
    have h2 := drawn_toNat 32 1 s (by omega)
    rw [hx] at h1 h2
    have hc := combine_wrap 32 (by omega) (drawn 32 s, drawn 32 (skip s 1))
    have hl : nextLong .wrap .left s = .ret (skip s 2) ((drawn 32 s).signExtend 64 <<< 32 + (drawn 32 (skip s 1)).signExtend 64) := by
      unfold nextLong
      rw [OM.bind_eq, OM.bind_of_ret (pair_wrap 32 32 s)]
      have hc' : combine .wrap 32 (drawn 32 s, drawn 32 (skip s 1)) = .ok _ := hc
      rw [hc', OM.lift_ok]; rfl
    rw [OM.bind_of_ret hl, long_toInt, toInt_int32, toInt_int32, h1, h2]
    rfl
  | nextFloat =>
    refine ⟨skip s 1, _, _, holds_skip hS 1, ⟨rfl, rfl⟩, ?_⟩
    show ((nextFloat .wrap).bind fun v => OM.ret (Ans.int v.toInt)) s = _
    unfold nextFloat
    have ht := top_lt 24 1 s.seed.toNat (by omega) (by omega)
    have hd := drawn_toNat' 24 s (by omega)
    rw [OM.bind_of_ret (next_wrap 24 s), toInt_small _ (by rw [hd]; omega), hd, hx]
    rfl
  | nextDouble =>
    refine ⟨skip s 2, _, _, holds_skip hS 2, ⟨rfl, rfl⟩, ?_⟩
    show ((nextDouble .wrap .left).bind fun v => OM.ret (Ans.int v.toInt)) s = _
    have h1 := nextDouble_ok s 0
    rw [show skip s 0 = s from rfl] at h1
    have h2 := dbl_lt 0 s.seed.toNat
    have h3 : (BitVec.ofNat 64 (dbl 0 s.seed.toNat)).toInt = dbl 0 s.seed.toNat := by
      rw [BitVec.toInt_eq_toNat_of_lt] <;> rw [BitVec.toNat_ofNat, Nat.mod_eq_of_lt (by omega)]
      omega
    rw [OM.bind_of_ret h1, h3, hx]
    rfl
  | nextGaussian =>
    have hk := hS.2.2
    cases hh : s.have_ with
    | true =>
      rw [hh, if_pos rfl] at hk
      refine ⟨{ s with have_ := false }, ⟨t.x, none⟩, .ok (.dbl s.gauss), ⟨hS.1, hS.2.1, rfl⟩, ?_, ?_⟩
      · simp only [R, hk, and_self]
      · show ((nextGaussian .wrap .left fp).bind fun v => OM.ret (Ans.dbl v)) s = _
        have h5 : nextGaussian .wrap .left fp s = .ret { s with have_ := false } s.gauss := by
          unfold nextGaussian
          rw [OM.bind_eq, OM.bind_read, if_pos hh]; rfl
        rw [OM.bind_of_ret h5]
        rfl
    | false =>
      rw [hh, if_neg (by simp)] at hk
      obtain ⟨x', r, k, n, h1, h2, h3, h4⟩ := hl hk
      have hg := gaussLoop_ok fp s r k n maxTurns 0 h1 (by simpa [hx] using h2) (by simpa [hx] using h3)
      rw [Nat.zero_add] at hg
      refine ⟨{ skip s (4 * n + 4) with have_ := true, gauss := k }, ⟨x', some k⟩, .ok (.dbl r), ⟨?_, ?_, rfl⟩, ?_, ?_⟩
      · show (skip s (4 * n + 4)).seed.toNat = x'
        rw [skip_seed, hx, h4]
      · show x' < 2 ^ 48
        rw [h4]; exact after_lt _ _ hS.2.1
      · simp only [R, hk]; exact ⟨x', r, k, ⟨n, h1, h2, h3, h4⟩, rfl, rfl⟩
      · show ((nextGaussian .wrap .left fp).bind fun v => OM.ret (Ans.dbl v)) s = _
        have h5 : nextGaussian .wrap .left fp s = .ret { skip s (4 * n + 4) with have_ := true, gauss := k } r := by
          unfold nextGaussian
          rw [OM.bind_eq, OM.bind_read, if_neg (by simp [hh])]
          exact hg
        rw [OM.bind_of_ret h5]
        rfl
  | nextBytes l =>
    refine ⟨skip s l.length, _, _, holds_skip hS l.length, ⟨rfl, rfl⟩, ?_⟩
    show ((nextBytes .wrap l).bind fun v => OM.ret (Ans.bytes v)) s = _
    have h1 := nextBytesLoop_ok s l.length 0 l
    rw [show skip s 0 = s from rfl] at h1
    simp only [Nat.zero_add, hx] at h1
    unfold nextBytes
    rw [OM.bind_of_ret h1]
    rfl
  | setSeed sd =>
    refine ⟨{ s with seed := initialScramble sd, have_ := false }, _, _, ⟨?_, ?_, ?_⟩, ⟨rfl, rfl⟩, rfl⟩
    · exact scramble_toNat sd
    · exact start_lt sd
    · rfl

/-- Every history of a new generator. -/
theorem C41_history_partial (fp : BitVec 64 → BitVec 64 → Option (δ × δ)) (seed : BitVec 64) (g : δ) (ops : List Op)
    (hl : Always (R fp) (Legal fp) ops ⟨start seed, none⟩) :
    ∃ s' t' as, runHist (step .wrap .left fp) ops (ofSeed seed g) = .ok (s', as) ∧ Follows (R fp) ops as ⟨start seed, none⟩ t' := by
  obtain ⟨s', t', as, _, h2, h3⟩ := runHist_follows (step .wrap .left fp) (R fp) Holds (Legal fp) (C41_call_partial fp) ops
    (ofSeed seed g) ⟨start seed, none⟩ ⟨scramble_toNat seed, start_lt seed, rfl⟩ hl
  exact ⟨s', t', as, h3, h2⟩

end Verif.Random
