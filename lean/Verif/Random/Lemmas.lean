import Verif.Random.Period
/-! # The model's draws are the documented ones -/
namespace Verif.Random

variable {δ : Type}

theorem mask_toNat (x : BitVec 64) : (x &&& MASK).toNat = x.toNat % 2 ^ 48 := by
  rw [BitVec.toNat_and, show MASK.toNat = 2 ^ 48 - 1 from rfl, Nat.and_two_pow_sub_one_eq_mod]

theorem scramble_toNat (seed : BitVec 64) : (initialScramble seed).toNat = start seed := by
  unfold initialScramble start
  rw [mask_toNat, BitVec.toNat_xor]; rfl

theorem start_lt (seed : BitVec 64) : start seed < 2 ^ 48 := Nat.mod_lt _ (by decide)

/-- One step of the state. -/
@[irreducible] def bump (x : BitVec 64) : BitVec 64 := (x * MULTIPLIER + ADDEND) &&& MASK

theorem bump_toNat (x : BitVec 64) : (bump x).toNat = lcg x.toNat := by
  unfold bump lcg
  rw [mask_toNat, BitVec.toNat_add, BitVec.toNat_mul, show MULTIPLIER.toNat = 25214903917 from rfl, show ADDEND.toNat = 11 from rfl,
    Nat.mod_mod_of_dvd _ (by decide : 2 ^ 48 ∣ 2 ^ 64), Nat.add_mod, Nat.mod_mod_of_dvd _ (by decide : 2 ^ 48 ∣ 2 ^ 64), ← Nat.add_mod]

theorem advance_wrap (x : BitVec 64) : advance .wrap x = .ok (bump x) := by
  unfold advance bump
  rw [CInt.mul_wrap, Outcome.bind_ok, CInt.add_wrap, Outcome.bind_ok]

/-- The object after `k` draws. -/
def skip (s : Rnd δ) : Nat → Rnd δ
  | 0 => s
  | k + 1 => skip { s with seed := bump s.seed } k

theorem skip_succ (s : Rnd δ) (k : Nat) : skip s (k + 1) = { skip s k with seed := bump (skip s k).seed } := by
  induction k generalizing s with
  | zero => rfl
  | succ k ih => rw [skip, ih, skip]

theorem skip_have (s : Rnd δ) (k : Nat) : (skip s k).have_ = s.have_ ∧ (skip s k).gauss = s.gauss := by
  induction k with
  | zero => exact ⟨rfl, rfl⟩
  | succ k ih => rw [skip_succ]; exact ih

theorem skip_seed (s : Rnd δ) (k : Nat) : (skip s k).seed.toNat = after k s.seed.toNat := by
  induction k with
  | zero => rw [after_zero]; rfl
  | succ k ih => rw [skip_succ, after_succ, ← ih]; exact bump_toNat _

theorem skip_add (s : Rnd δ) (j k : Nat) : skip (skip s j) k = skip s (j + k) := by
  induction k with
  | zero => rfl
  | succ k ih => rw [skip_succ, ih, ← Nat.add_assoc, skip_succ]

theorem bump_lt (x : BitVec 64) : (bump x).toNat < 2 ^ 48 := by rw [bump_toNat]; exact lcg_lt _

theorem sshift_of_lt (n : BitVec 64) (h : n.toNat < 2 ^ 48) (k : Nat) : (n.sshiftRight k).toNat = n.toNat / 2 ^ k := by
  have hm : n.msb = false := by
    rw [BitVec.msb_eq_false_iff_two_mul_lt]; omega
  rw [BitVec.sshiftRight_eq_of_msb_false hm, BitVec.toNat_ushiftRight, Nat.shiftRight_eq_div_pow]

/-- The number handed out by `next(bits)`. -/
def drawn (bits : Nat) (s : Rnd δ) : BitVec 32 := ((bump s.seed).sshiftRight (48 - bits)).setWidth 32

theorem next_wrap (bits : Nat) (s : Rnd δ) : next .wrap bits s = .ret (skip s 1) (drawn bits s) := by
  unfold next
  rw [OM.bind_eq, OM.bind_read, OM.bind_eq, advance_wrap, OM.lift_ok, OM.bind_ret, OM.bind_eq, OM.bind_write]
  rfl

theorem top_lt (bits k x : Nat) (hb : bits ≤ 48) (hk : 1 ≤ k) : top bits k x < 2 ^ bits := by
  unfold top
  rw [Nat.div_lt_iff_lt_mul (Nat.two_pow_pos _), ← Nat.pow_add, show bits + (48 - bits) = 48 by omega]
  obtain ⟨j, rfl⟩ : ∃ j, k = j + 1 := ⟨k - 1, by omega⟩
  rw [after_succ]; exact lcg_lt _

theorem drawn_toNat (bits k : Nat) (s : Rnd δ) (hb : bits ≤ 32) : (drawn bits (skip s k)).toNat = top bits (k + 1) s.seed.toNat := by
  unfold drawn
  have h1 : (bump (skip s k).seed).toNat = after (k + 1) s.seed.toNat := by
    rw [bump_toNat, skip_seed, after_succ]
  rw [BitVec.toNat_setWidth, sshift_of_lt _ (bump_lt _), h1]
  have h2 := top_lt bits (k + 1) s.seed.toNat (by omega) (by omega)
  have h3 : 2 ^ bits ≤ 2 ^ 32 := Nat.pow_le_pow_right (by decide) hb
  unfold top at h2 ⊢
  exact Nat.mod_eq_of_lt (by omega)

theorem drawn_toNat' (bits : Nat) (s : Rnd δ) (hb : bits ≤ 32) : (drawn bits s).toNat = top bits 1 s.seed.toNat :=
  drawn_toNat bits 0 s hb

theorem toInt_int32 (b : BitVec 32) : b.toInt = int32 b.toNat := by
  unfold int32
  rw [BitVec.toInt_eq_toNat_bmod]

theorem toInt_small (b : BitVec 32) (h : b.toNat < 2 ^ 31) : b.toInt = b.toNat := by
  rw [BitVec.toInt_eq_toNat_of_lt (by omega)]

/-! ## Bounded draws -/

theorem pos_iff (b : BitVec 32) : b.sle 0#32 = false ↔ 0 < b.toInt := by
  rw [BitVec.sle]; simp

theorem pos_small (b : BitVec 32) (h : 0 < b.toInt) : b.toInt = b.toNat ∧ 0 < b.toNat ∧ b.toNat < 2 ^ 31 := by
  have h1 := b.isLt
  rw [BitVec.toInt_eq_toNat_cond] at h ⊢
  split at h
  · rw [if_pos (by assumption)]; omega
  · omega

theorem pow_two_iff (b : BitVec 32) (h : 0 < b.toInt) : b &&& (b - 1#32) = 0#32 ↔ ∃ j, b.toNat = 2 ^ j := by
  obtain ⟨_, h1, h2⟩ := pos_small b h
  have h3 : (b - 1#32).toNat = b.toNat - 1 := by
    rw [BitVec.toNat_sub]
    simp
    omega
  have h4 := Nat.and_sub_one_eq_zero_iff_isPowerOfTwo (n := b.toNat) (by omega)
  unfold Nat.isPowerOfTwo at h4
  rw [← h4, ← h3, ← BitVec.toNat_and]
  exact ⟨fun e => by rw [e]; rfl, fun e => BitVec.eq_of_toNat_eq e⟩

theorem rem_ok (r b : BitVec 32) (hr : r.toNat < 2 ^ 31) (hb : 0 < b.toInt) :
    ∃ v, CInt.rem r b = .ok v ∧ v.toNat = r.toNat % b.toNat := by
  obtain ⟨h0, h1, h2⟩ := pos_small b hb
  refine ⟨r.srem b, ?_, ?_⟩
  · unfold CInt.rem
    rw [if_neg]
    intro h
    rcases h with h | h
    · subst h; simp at h1
    · have hr' := toInt_small r hr
      have h3 : 0 ≤ r.toInt / b.toInt := Int.ediv_nonneg (by omega) (by omega)
      have h4 : r.toInt / b.toInt ≤ r.toInt := Int.ediv_le_self _ (by omega)
      rw [BitVec.sdivOverflow] at h
      simp only [Nat.reduceSub, decide_eq_true_eq, Bool.or_eq_true, ge_iff_le] at h
      omega
  · have hm1 : r.msb = false := by rw [BitVec.msb_eq_false_iff_two_mul_lt]; omega
    have hm2 : b.msb = false := by rw [BitVec.msb_eq_false_iff_two_mul_lt]; omega
    rw [BitVec.srem_eq, hm1, hm2]
    exact BitVec.toNat_umod

theorem overshoot_wrap (r v b : BitVec 32) (hr : r.toNat < 2 ^ 31) (hb : 0 < b.toInt) (hv : v.toNat = r.toNat % b.toNat) :
    ∃ x, overshoot .wrap r v b = .ok x ∧ (x.slt 0#32 = true ↔ ¬ Kept b.toNat r.toNat) := by
  obtain ⟨h0, h1, h2⟩ := pos_small b hb
  have hle : r.toNat % b.toNat ≤ r.toNat := Nat.mod_le _ _
  have hlt : r.toNat % b.toNat < b.toNat := Nat.mod_lt _ h1
  refine ⟨r - v + (b - 1#32), ?_, ?_⟩
  · unfold overshoot
    rw [CInt.sub_wrap, Outcome.bind_ok, CInt.sub_wrap, Outcome.bind_ok, CInt.add_wrap]
  · have hs : (r - v + (b - 1#32)).toNat = r.toNat - r.toNat % b.toNat + b.toNat - 1 := by
      rw [BitVec.toNat_add, BitVec.toNat_sub, BitVec.toNat_sub, hv]
      simp
      omega
    rw [show (r - v + (b - 1#32)).slt 0#32 = (r - v + (b - 1#32)).msb from BitVec.slt_zero_eq_msb, BitVec.msb_eq_true_iff_two_mul_ge, hs]
    unfold Kept
    omega

/-- The rejection loop draws until a value is kept. -/
theorem rejectLoop_ok (b : BitVec 32) (hb : 0 < b.toInt) (n : Nat) : ∀ (fuel : Nat) (s : Rnd δ), n < fuel →
    (∀ k, 1 ≤ k → k ≤ n → ¬ Kept b.toNat (top 31 k s.seed.toNat)) → Kept b.toNat (top 31 (n + 1) s.seed.toNat) →
    ∃ v, rejectLoop .wrap b fuel s = .ret (skip s (n + 1)) v ∧ v.toNat = top 31 (n + 1) s.seed.toNat % b.toNat := by
  induction n with
  | zero =>
    intro fuel s hf _ hk
    obtain ⟨fuel, rfl⟩ : ∃ f, fuel = f + 1 := ⟨fuel - 1, by omega⟩
    have hd := drawn_toNat' 31 s (by omega)
    have hlt : (drawn 31 s).toNat < 2 ^ 31 := by rw [hd]; exact top_lt 31 1 _ (by omega) (by omega)
    obtain ⟨v, hv1, hv2⟩ := rem_ok (drawn 31 s) b hlt hb
    obtain ⟨x, hx1, hx2⟩ := overshoot_wrap (drawn 31 s) v b hlt hb hv2
    refine ⟨v, ?_, by rw [hv2, hd]⟩
    unfold rejectLoop
    rw [OM.bind_eq, OM.bind_of_ret (next_wrap 31 s), OM.bind_eq, hv1, OM.lift_ok, OM.bind_ret, OM.bind_eq, hx1, OM.lift_ok, OM.bind_ret,
      if_neg (by rw [hx2, hd]; exact fun h => h hk)]
    rfl
  | succ n ih =>
    intro fuel s hf hno hk
    obtain ⟨fuel, rfl⟩ : ∃ f, fuel = f + 1 := ⟨fuel - 1, by omega⟩
    have hd := drawn_toNat' 31 s (by omega)
    have hlt : (drawn 31 s).toNat < 2 ^ 31 := by rw [hd]; exact top_lt 31 1 _ (by omega) (by omega)
    obtain ⟨v, hv1, hv2⟩ := rem_ok (drawn 31 s) b hlt hb
    obtain ⟨x, hx1, hx2⟩ := overshoot_wrap (drawn 31 s) v b hlt hb hv2
    have htop : ∀ k, top 31 k (skip s 1).seed.toNat = top 31 (k + 1) s.seed.toNat := by
      intro k
      unfold top
      rw [skip_seed, ← after_add, Nat.add_comm]
    obtain ⟨w, hw1, hw2⟩ := ih fuel (skip s 1) (by omega)
      (fun k h1 h2 => by rw [htop]; exact hno (k + 1) (by omega) (by omega)) (by rw [htop]; exact hk)
    refine ⟨w, ?_, by rw [hw2, htop]⟩
    unfold rejectLoop
    rw [OM.bind_eq, OM.bind_of_ret (next_wrap 31 s), OM.bind_eq, hv1, OM.lift_ok, OM.bind_ret, OM.bind_eq, hx1, OM.lift_ok, OM.bind_ret,
      if_pos (by rw [hx2, hd]; exact hno 1 (by omega) (by omega)), hw1, skip_add]
    congr 2; omega

theorem kept_zero (b : Nat) (h : b < 2 ^ 31) : Kept b 0 := by unfold Kept; simp; omega

/-- Some draw is kept. -/
theorem kept_exists (b : Nat) (h : b < 2 ^ 31) (x : Nat) :
    ∃ n, n < 2 ^ 48 ∧ (∀ k, 1 ≤ k → k ≤ n → ¬ Kept b (top 31 k x)) ∧ Kept b (top 31 (n + 1) x) := by
  obtain ⟨n, h1, h2⟩ := reach_zero x
  obtain ⟨m, h3, h4, h5⟩ := exists_first (fun n => Kept b (top 31 (n + 1) x)) n (by
    show Kept b (top 31 (n + 1) x)
    unfold top
    rw [h2, Nat.zero_div]; exact kept_zero b h)
  refine ⟨m, by omega, ?_, h4⟩
  intro k hk1 hk2
  have := h5 (k - 1) (by omega)
  rwa [show k - 1 + 1 = k by omega] at this

theorem scaled_ok (b : BitVec 32) (hb : 0 < b.toInt) (s : Rnd δ) :
    ∃ v, scaled .wrap b s = .ret (skip s 1) v ∧ v.toNat = b.toNat * top 31 1 s.seed.toNat / 2 ^ 31 ∧
      b.toNat * top 31 1 s.seed.toNat / 2 ^ 31 < b.toNat := by
  obtain ⟨h0, h1, h2⟩ := pos_small b hb
  have hd := drawn_toNat' 31 s (by omega)
  have hlt : (drawn 31 s).toNat < 2 ^ 31 := by rw [hd]; exact top_lt 31 1 _ (by omega) (by omega)
  have hse : ∀ c : BitVec 32, c.toNat < 2 ^ 31 → (c.signExtend 64).toNat = c.toNat := by
    intro c hc
    have hm : c.msb = false := by rw [BitVec.msb_eq_false_iff_two_mul_lt]; omega
    rw [BitVec.signExtend_eq_setWidth_of_msb_false hm, BitVec.toNat_setWidth]; omega
  have hmul : b.toNat * (drawn 31 s).toNat < 2 ^ 62 := by
    calc b.toNat * (drawn 31 s).toNat < 2 ^ 31 * 2 ^ 31 := Nat.mul_lt_mul'' h2 hlt
      _ = 2 ^ 62 := by decide
  have hp : (b.signExtend 64 * (drawn 31 s).signExtend 64).toNat = b.toNat * (drawn 31 s).toNat := by
    rw [BitVec.toNat_mul, hse b h2, hse _ hlt]
    exact Nat.mod_eq_of_lt (by omega)
  have hq : b.toNat * top 31 1 s.seed.toNat / 2 ^ 31 < b.toNat := by
    rw [Nat.div_lt_iff_lt_mul (by decide), ← hd]
    exact Nat.mul_lt_mul_of_pos_left hlt h1
  refine ⟨((b.signExtend 64 * (drawn 31 s).signExtend 64).sshiftRight 31).setWidth 32, ?_, ?_, hq⟩
  · unfold scaled
    rw [OM.bind_eq, OM.bind_of_ret (next_wrap 31 s), OM.bind_eq, CInt.mul_wrap, OM.lift_ok, OM.bind_ret]; rfl
  · have hm : (b.signExtend 64 * (drawn 31 s).signExtend 64).msb = false := by
      rw [BitVec.msb_eq_false_iff_two_mul_lt, hp]; omega
    rw [BitVec.toNat_setWidth, BitVec.sshiftRight_eq_of_msb_false hm, BitVec.toNat_ushiftRight, Nat.shiftRight_eq_div_pow, hp, hd]
    exact Nat.mod_eq_of_lt (by omega)

/-- `nextInt(bound)`, exactly. -/
theorem nextIntBound_ok (b : BitVec 32) (hb : 0 < b.toInt) (s : Rnd δ) :
    ∃ n v, nextIntBound .wrap b s = .ret (skip s (n + 1)) v ∧ Drawn b.toNat s.seed.toNat (after (n + 1) s.seed.toNat) v.toNat ∧
      v.toNat < b.toNat := by
  obtain ⟨h0, h1, h2⟩ := pos_small b hb
  unfold nextIntBound
  rw [if_neg (by rw [(pos_iff b).mpr hb]; simp)]
  by_cases hp : b &&& (b - 1#32) = 0#32
  · obtain ⟨v, hv1, hv2, hv3⟩ := scaled_ok b hb s
    refine ⟨0, v, by rw [if_pos hp]; exact hv1, Or.inl ⟨(pow_two_iff b hb).mp hp, rfl, hv2⟩, by omega⟩
  · obtain ⟨n, hn1, hn2, hn3⟩ := kept_exists b.toNat h2 s.seed.toNat
    obtain ⟨v, hv1, hv2⟩ := rejectLoop_ok b hb n maxTurns s hn1 hn2 hn3
    refine ⟨n, v, by rw [if_neg hp]; exact hv1, Or.inr ⟨?_, n, hn2, hn3, rfl, hv2⟩, by rw [hv2]; exact Nat.mod_lt _ h1⟩
    intro j e
    exact hp ((pow_two_iff b hb).mpr ⟨j, e⟩)

/-! ## Pairs of draws -/

theorem pair_wrap (a b : Nat) (s : Rnd δ) : pair .wrap .left a b s = .ret (skip s 2) (drawn a s, drawn b (skip s 1)) := by
  show ((next .wrap a).bind fun x => (next .wrap b).bind fun y => OM.ret (x, y)) s = _
  rw [OM.bind_of_ret (next_wrap a s), OM.bind_of_ret (next_wrap b _), skip_add]; rfl

theorem pair_wrap_right (a b : Nat) (s : Rnd δ) : pair .wrap .right a b s = .ret (skip s 2) (drawn a (skip s 1), drawn b s) := by
  show ((next .wrap b).bind fun y => (next .wrap a).bind fun x => OM.ret (x, y)) s = _
  rw [OM.bind_of_ret (next_wrap b s), OM.bind_of_ret (next_wrap a _), skip_add]; rfl

theorem combine_wrap (k : Nat) (hk : k < 64) (p : BitVec 32 × BitVec 32) :
    combine .wrap k p = .ok (p.1.signExtend 64 <<< k + p.2.signExtend 64) := by
  unfold combine Bits.shl
  rw [if_neg (by simp), Outcome.bind_ok, CInt.add_wrap, show ((k : Int) % ((64 : Nat) : Int)).toNat = k by omega]

theorem long_toInt (x y : BitVec 32) :
    (x.signExtend 64 <<< 32 + y.signExtend 64).toInt = (x.toInt * 2 ^ 32 + y.toInt).bmod (2 ^ 64) := by
  rw [BitVec.toInt_add, BitVec.toInt_shiftLeft, BitVec.toInt_signExtend_of_le (by decide), Int.add_bmod]
  have h1 : (((x.signExtend 64).toNat <<< 32 : Nat) : Int).bmod (2 ^ 64) = (x.toInt * 2 ^ 32).bmod (2 ^ 64) := by
    rw [Nat.shiftLeft_eq]
    have : (x.toInt).bmod (2 ^ 64) = ((x.signExtend 64).toNat : Int).bmod (2 ^ 64) := by
      rw [← BitVec.toInt_eq_toNat_bmod, BitVec.toInt_signExtend_of_le (by decide)]
      have h1 := x.isLt
      have h3 := BitVec.toInt_eq_toNat_cond x
      apply Int.bmod_eq_of_le <;> (split at h3 <;> omega)
    rw [Int.natCast_mul, Int.mul_bmod, ← this, ← Int.mul_bmod]; rfl
  rw [h1]
  simp [Int.add_bmod]

theorem dbl_bits (x y : BitVec 32) (a c : Nat) (hx : x.toNat = a) (hy : y.toNat = c) (ha : a < 2 ^ 26) (hc : c < 2 ^ 27) :
    x.signExtend 64 <<< 27 + y.signExtend 64 = BitVec.ofNat 64 (a * 2 ^ 27 + c) := by
  have hse : ∀ c : BitVec 32, c.toNat < 2 ^ 31 → (c.signExtend 64).toNat = c.toNat := by
    intro c hc
    have hm : c.msb = false := by rw [BitVec.msb_eq_false_iff_two_mul_lt]; omega
    rw [BitVec.signExtend_eq_setWidth_of_msb_false hm, BitVec.toNat_setWidth]; omega
  apply BitVec.eq_of_toNat_eq
  rw [BitVec.toNat_add, BitVec.toNat_shiftLeft, hse _ (by omega), hse _ (by omega), hx, hy, Nat.shiftLeft_eq, BitVec.toNat_ofNat]
  omega

theorem nextDouble_ok (s : Rnd δ) (k : Nat) :
    nextDouble .wrap .left (skip s k) = .ret (skip s (k + 2)) (BitVec.ofNat 64 (dbl k s.seed.toNat)) := by
  have hd1 := drawn_toNat 26 k s (by omega)
  have hd2 := drawn_toNat 27 (k + 1) s (by omega)
  have ht1 := top_lt 26 (k + 1) s.seed.toNat (by omega) (by omega)
  have ht2 := top_lt 27 (k + 2) s.seed.toNat (by omega) (by omega)
  have hb := dbl_bits _ _ _ _ hd1 hd2 ht1 ht2
  unfold dbl
  rw [← hb]
  unfold nextDouble
  rw [OM.bind_eq, OM.bind_of_ret (pair_wrap 26 27 _), skip_add, skip_add]
  have hc := combine_wrap 27 (by omega) (drawn 26 (skip s k), drawn 27 (skip s (k + 1)))
  generalize drawn 26 (skip s k) = u at hc ⊢
  generalize drawn 27 (skip s (k + 1)) = w at hc ⊢
  generalize skip s (k + 2) = z
  have hc' : combine .wrap 27 (u, w) = .ok (u.signExtend 64 <<< 27 + w.signExtend 64) := hc
  rw [hc', OM.lift_ok]
  rfl

theorem dbl_lt (k x : Nat) : dbl k x < 2 ^ 53 := by
  have ht1 := top_lt 26 (k + 1) x (by omega) (by omega)
  have ht2 := top_lt 27 (k + 2) x (by omega) (by omega)
  unfold dbl
  generalize top 26 (k + 1) x = a at *
  generalize top 27 (k + 2) x = b at *
  omega

end Verif.Random
