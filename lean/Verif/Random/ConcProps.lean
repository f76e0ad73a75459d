import Verif.Random.Conc
import Verif.Random.BoundProps
import Mathlib.Tactic.Ring
/-!
# C43, C73: `Random` under concurrency
-/
namespace Verif.Random.Conc

open Verif.Random

/-! ## Specification: one thread making the same calls -/

/-- What a sequential generator in state `x` returns to the calls of thread `t`
when all the calls are made one after the other. -/
def sequential (t : Nat) : List Did → Nat → List Int
  | [], _ => []
  | .next u bits :: ds, x => if u = t then int32 (top bits 1 x) :: sequential t ds (after 1 x) else sequential t ds (after 1 x)
  | .setSeed seed :: ds, _ => sequential t ds (start seed)

/-- The calls thread `t` made. -/
def made (t : Nat) : List Did → Nat
  | [] => 0
  | .next u _ :: ds => (if u = t then 1 else 0) + made t ds
  | .setSeed _ :: ds => made t ds

/-- Every argument is one `next` is called with. -/
def Args : List Ev → Prop
  | [] => True
  | .call _ bits :: es => bits ≤ 32 ∧ Args es
  | _ :: es => Args es

/-- A result on its way: won but not returned. -/
def pending (s : Sys) (t : Nat) : List Int :=
  match s.pos t with
  | .won bits new => [(output bits new).toInt]
  | _ => []

/-- Whether `t` is in a call that has not won. -/
def trying (s : Sys) (t : Nat) : Nat :=
  match s.pos t with
  | .start _ => 1
  | .got _ _ => 1
  | _ => 0

/-- Arguments in use. -/
def Fine (s : Sys) : Prop := ∀ t, match s.pos t with
  | .start bits => bits ≤ 32
  | .got bits _ => bits ≤ 32
  | .won bits _ => bits ≤ 32
  | .idle => True

theorem move_self (pos : Nat → Pos) (t : Nat) (p : Pos) : move pos t p t = p := by unfold move; rw [if_pos rfl]
theorem move_other (pos : Nat → Pos) {t u : Nat} (p : Pos) (h : u ≠ t) : move pos t p u = pos u := by unfold move; rw [if_neg h]

theorem nextSeed_eq (x : BitVec 64) : nextSeed x = bump x := by unfold nextSeed bump; rfl

theorem output_toInt (bits : Nat) (x : BitVec 64) (hb : bits ≤ 32) : (output bits (nextSeed x)).toInt = int32 (top bits 1 x.toNat) := by
  rw [toInt_int32, nextSeed_eq]
  have := drawn_toNat' bits (⟨x, false, ()⟩ : Rnd Unit) hb
  unfold drawn at this
  unfold output
  rw [this]

theorem fine_acc {f : BitVec 64 → BitVec 64} {s s' : Sys} {e : Ev} (h : Acc f s e s') (hf : Fine s) (ha : Args [e]) : Fine s' := by
  intro u
  cases h with
  | call t bits h =>
    by_cases hu : u = t
    · subst hu; simp only [move_self]; exact ha.1
    · simp only [move_other _ _ hu]; exact hf u
  | load t bits h =>
    by_cases hu : u = t
    · subst hu; simp only [move_self]; have := hf u; rw [h] at this; exact this
    · simp only [move_other _ _ hu]; exact hf u
  | win t bits old h he =>
    by_cases hu : u = t
    · subst hu; simp only [move_self]; have := hf u; rw [h] at this; exact this
    · simp only [move_other _ _ hu]; exact hf u
  | fail t bits old h =>
    by_cases hu : u = t
    · subst hu; simp only [move_self]; have := hf u; rw [h] at this; exact this
    · simp only [move_other _ _ hu]; exact hf u
  | ret t bits new h =>
    by_cases hu : u = t
    · subst hu; simp only [move_self]
    · simp only [move_other _ _ hu]; exact hf u
  | store seed => exact hf u

theorem args_cons {e : Ev} {es : List Ev} (h : Args (e :: es)) : Args [e] ∧ Args es := by
  cases e with
  | call t bits => exact ⟨⟨h.1, trivial⟩, h.2⟩
  | _ => exact ⟨trivial, h⟩

theorem run_sequential {s s' : Sys} {es : List Ev} (h : Run nextSeed s es s') (t : Nat) : Fine s → Args es →
    pending s t ++ sequential t (order es) s.mem.toNat = (returned t es).map BitVec.toInt ++ pending s' t := by
  induction h with
  | nil s => intro _ _; simp [order, sequential, returned]
  | @cons s s1 s2 e es hstep hr ih =>
    intro hf ha
    obtain ⟨ha1, ha2⟩ := args_cons ha
    have ih' := ih (fine_acc hstep hf ha1) ha2
    cases hstep with
    | call u bits hp =>
      show pending s t ++ sequential t (order es) s.mem.toNat = (returned t es).map BitVec.toInt ++ _
      rw [← ih']
      congr 1
      by_cases hu : t = u
      · subst hu; simp only [pending, hp, move_self]
      · simp only [pending, move_other _ _ hu]
    | load u bits hp =>
      show pending s t ++ sequential t (order es) s.mem.toNat = (returned t es).map BitVec.toInt ++ _
      rw [← ih']
      congr 1
      by_cases hu : t = u
      · subst hu; simp only [pending, hp, move_self]
      · simp only [pending, move_other _ _ hu]
    | win u bits old hp he =>
      have hx : (nextSeed old).toNat = after 1 s.mem.toNat := by
        rw [nextSeed_eq, bump_toNat, after_succ, after_zero, he]
      have hb : bits ≤ 32 := by have := hf u; rw [hp] at this; exact this
      show pending s t ++ (if u = t then int32 (top bits 1 s.mem.toNat) :: sequential t (order es) (after 1 s.mem.toNat)
        else sequential t (order es) (after 1 s.mem.toNat)) = (returned t es).map BitVec.toInt ++ _
      rw [← ih', ← hx]
      by_cases hu : t = u
      · subst hu
        rw [if_pos rfl]
        simp only [pending, hp, move_self, output_toInt bits old hb, he]
        rfl
      · rw [if_neg (fun e => hu e.symm)]
        simp only [pending, move_other _ _ hu]
    | fail u bits old hp =>
      show pending s t ++ sequential t (order es) s.mem.toNat = (returned t es).map BitVec.toInt ++ _
      rw [← ih']
      congr 1
      by_cases hu : t = u
      · subst hu; simp only [pending, hp, move_self]
      · simp only [pending, move_other _ _ hu]
    | ret u bits new hp =>
      show pending s t ++ sequential t (order es) s.mem.toNat =
        (if u = t then output bits new :: returned t es else returned t es).map BitVec.toInt ++ _
      by_cases hu : t = u
      · subst hu
        rw [if_pos rfl, List.map_cons, List.cons_append, ← ih']
        simp only [pending, hp, move_self]
        rfl
      · rw [if_neg (fun e => hu e.symm), ← ih']
        simp only [pending, move_other _ _ hu]
    | store seed =>
      show pending s t ++ sequential t (order es) (start seed) = (returned t es).map BitVec.toInt ++ _
      rw [← ih']
      simp only [pending, scramble_toNat]

/-! ## C43 -/

/-- Nobody is in a call. -/
def quiet (x : BitVec 64) : Sys := ⟨x, fun _ => .idle⟩

/-- Every thread is handed what the sequential generator returns to it when the
calls are made one at a time in some order; what is missing is one result that is
won but not returned. -/
theorem C43_consecutive (x : BitVec 64) (es : List Ev) (s : Sys) (h : Run nextSeed (quiet x) es s) (ha : Args es) (t : Nat) :
    sequential t (order es) x.toNat = (returned t es).map BitVec.toInt ++ pending s t := by
  have := run_sequential h t (fun _ => trivial) ha
  exact this

theorem run_counts {s s' : Sys} {es : List Ev} {f : BitVec 64 → BitVec 64} (h : Run f s es s') (t : Nat) :
    trying s t + begun t es = made t (order es) + trying s' t := by
  induction h with
  | nil s => simp [order, made, begun]
  | @cons s s1 s2 e es hstep hr ih =>
    cases hstep with
    | call u bits hp =>
      show trying s t + ((if u = t then 1 else 0) + begun t es) = made t (order es) + _
      rw [← ih]
      by_cases hu : t = u
      · subst hu; simp [trying, hp, move_self]
      · rw [if_neg (fun e => hu e.symm)]; simp only [trying, move_other _ _ hu]; omega
    | load u bits hp =>
      show trying s t + begun t es = made t (order es) + _
      rw [← ih]
      by_cases hu : t = u
      · subst hu; simp only [trying, hp, move_self]
      · simp only [trying, move_other _ _ hu]
    | win u bits old hp he =>
      show trying s t + begun t es = (if u = t then 1 else 0) + made t (order es) + _
      by_cases hu : t = u
      · subst hu; rw [if_pos rfl]; simp only [trying, hp, move_self] at ih ⊢; omega
      · rw [if_neg (fun e => hu e.symm)]; simp only [trying, move_other _ _ hu] at ih ⊢; omega
    | fail u bits old hp =>
      show trying s t + begun t es = made t (order es) + _
      rw [← ih]
      by_cases hu : t = u
      · subst hu; simp only [trying, hp, move_self]
      · simp only [trying, move_other _ _ hu]
    | ret u bits new hp =>
      show trying s t + begun t es = made t (order es) + _
      rw [← ih]
      by_cases hu : t = u
      · subst hu; simp only [trying, hp, move_self]
      · simp only [trying, move_other _ _ hu]
    | store seed => exact ih

/-- Every call takes exactly one state, and takes it while it runs: at every point
of the execution the calls of a thread that have drawn are those it has begun,
except at most the last, and those that have returned are those that have drawn,
except at most the last. -/
theorem C43_once (x : BitVec 64) (es : List Ev) (s : Sys) (h : Run nextSeed (quiet x) es s) (ha : Args es) (t : Nat) :
    made t (order es) ≤ begun t es ∧ begun t es ≤ (returned t es).length + 1 ∧ (returned t es).length ≤ made t (order es) := by
  have h1 := run_counts h t
  have h2 := congrArg List.length (C43_consecutive x es s h ha t)
  have h3 : ∀ (ds : List Did) (y : Nat), (sequential t ds y).length = made t ds := by
    intro ds
    induction ds with
    | nil => intro y; rfl
    | cons d ds ih =>
      intro y
      cases d with
      | next u bits =>
        show (if u = t then _ else _ : List Int).length = (if u = t then 1 else 0) + made t ds
        by_cases hu : u = t
        · rw [if_pos hu, if_pos hu, List.length_cons, ih]; omega
        · rw [if_neg hu, if_neg hu, ih]; omega
      | setSeed sd => exact ih _
  have h4 : trying (quiet x) t = 0 := rfl
  rw [h3, List.length_append, List.length_map] at h2
  unfold trying at h1 h4
  unfold pending at h2
  rw [h4] at h1
  cases hp : s.pos t <;> rw [hp] at h1 h2 <;> simp only [List.length_nil, List.length_cons] at h1 h2 <;> omega

/-- Without `setSeed` the states taken are the consecutive ones. -/
theorem C43_states (x : BitVec 64) (es : List Ev) (s s' : Sys) (hx : s.mem = x) (h : Run nextSeed s es s') (hn : NoStore es) :
    (stored es).map BitVec.toNat = (List.range (stored es).length).map (fun k => after (k + 1) x.toNat) ∧
      s'.mem.toNat = after (stored es).length x.toNat := by
  induction h generalizing x with
  | nil s => subst hx; exact ⟨rfl, (after_zero _).symm⟩
  | @cons s s1 s2 e es hstep hr ih =>
    cases hstep with
    | win u bits old hp he =>
      have hx1 : (nextSeed old).toNat = after 1 x.toNat := by
        rw [nextSeed_eq, bump_toNat, after_succ, after_zero, ← hx, he]
      obtain ⟨h1, h2⟩ := ih (nextSeed old) rfl hn
      rw [hx1, ← after_add] at h2
      constructor
      · show (nextSeed old :: stored es).map BitVec.toNat = _
        rw [List.map_cons, h1, stored, List.length_cons, List.range_succ_eq_map, List.map_cons, List.map_map, hx1]
        refine congrArg₂ List.cons rfl (List.map_congr_left fun k _ => ?_)
        rw [Function.comp_apply, ← after_add, Nat.succ_eq_add_one, Nat.add_comm 1]
      · show s2.mem.toNat = after (stored es).length.succ x.toNat
        rw [h2, Nat.succ_eq_add_one, Nat.add_comm 1]
    | call u bits hp => exact ih x hx hn
    | load u bits hp => exact ih x hx hn
    | fail u bits old hp => exact ih x hx hn
    | ret u bits new hp => exact ih x hx hn
    | store seed => exact absurd hn id

/-- An exchange that does not fail spuriously fails only because another call
succeeded (or the generator was reseeded) since the load. -/
theorem C43_progress (f : BitVec 64 → BitVec 64) (s s' : Sys) (es : List Ev) (h : Run f s es s') (hn : NoStore es) (hw : stored es = []) :
    s'.mem = s.mem := by
  induction h with
  | nil s => rfl
  | @cons s s1 s2 e es hstep hr ih =>
    cases hstep with
    | win u bits old hp he => cases hw
    | store seed => exact absurd hn id
    | call u bits hp => exact ih hn hw
    | load u bits hp => exact ih hn hw
    | fail u bits old hp => exact ih hn hw
    | ret u bits new hp => exact ih hn hw

/-- Two threads draw at once: the second exchange of thread 1 succeeds after it
lost to thread 2. -/
example (x : BitVec 64) : ∃ s, Run nextSeed (quiet x)
    [.call 1 32, .load 1, .call 2 31, .load 2, .win 2 31 (nextSeed x), .fail 1, .load 1, .ret 2 31 (nextSeed x),
      .win 1 32 (nextSeed (nextSeed x)), .ret 1 32 (nextSeed (nextSeed x))] s ∧
    Args [.call 1 32, .load 1, .call 2 31, .load 2, .win 2 31 (nextSeed x), .fail 1, .load 1, .ret 2 31 (nextSeed x),
      .win 1 32 (nextSeed (nextSeed x)), .ret 1 32 (nextSeed (nextSeed x))] := by
  refine ⟨⟨nextSeed (nextSeed x), move (move (move (move (move (move (move (move (move (move (fun _ => .idle) 1 (.start 32)) 1 (.got 32 x))
    2 (.start 31)) 2 (.got 31 x)) 2 (.won 31 (nextSeed x))) 1 (.start 32)) 1 (.got 32 (nextSeed x))) 2 .idle)
    1 (.won 32 (nextSeed (nextSeed x)))) 1 .idle⟩, ?_, ⟨by decide, by decide, trivial⟩⟩
  exact .cons (.call _ 1 32 rfl) (.cons (.load _ 1 32 rfl) (.cons (.call _ 2 31 rfl) (.cons (.load _ 2 31 rfl)
    (.cons (.win _ 2 31 x rfl rfl) (.cons (.fail _ 1 32 x rfl) (.cons (.load _ 1 32 rfl) (.cons (.ret _ 2 31 _ rfl)
    (.cons (.win _ 1 32 (nextSeed x) rfl rfl) (.cons (.ret _ 1 32 _ rfl) (.nil _))))))))))

/-! ## C73: generators created without a seed -/

theorem pow_shape (g c : Nat) (hg : g = 1 + 4 * (2 * c + 1)) (k : Nat) : ∃ u, g ^ 2 ^ k = 1 + 2 ^ (k + 2) * (2 * u + 1) := by
  induction k with
  | zero => exact ⟨c, by rw [Nat.pow_zero, Nat.pow_one, hg]; rfl⟩
  | succ k ih =>
    obtain ⟨u, h⟩ := ih
    refine ⟨u + 2 ^ k * (2 * u + 1) ^ 2, ?_⟩
    rw [Nat.pow_succ, Nat.pow_mul, h]
    ring

theorem odd_pow (k w q : Nat) (hw : w % 2 = 1) : ∃ z, (1 + 2 ^ (k + 2) * w) ^ (2 * q + 1) = 1 + 2 ^ (k + 2) * z ∧ z % 2 = 1 := by
  induction q with
  | zero => exact ⟨w, by rw [Nat.mul_zero, Nat.zero_add, Nat.pow_one], hw⟩
  | succ q ih =>
    obtain ⟨z, h1, h2⟩ := ih
    refine ⟨z + 2 * ((w + 2 ^ (k + 1) * w ^ 2) * (1 + 2 ^ (k + 2) * z)), ?_, by omega⟩
    rw [show 2 * (q + 1) + 1 = 2 * q + 1 + 2 by omega, Nat.pow_add, h1]
    ring

theorem split_odd (n : Nat) (h : 0 < n) : ∃ k q, n = 2 ^ k * (2 * q + 1) := by
  induction n using Nat.strongRecOn with
  | _ n ih =>
    by_cases ho : n % 2 = 1
    · exact ⟨0, n / 2, by omega⟩
    · obtain ⟨k, q, hk⟩ := ih (n / 2) (by omega) (by omega)
      refine ⟨k + 1, q, ?_⟩
      rw [Nat.pow_succ, Nat.mul_right_comm, ← hk]; omega

theorem odd_mul {a b : Nat} (ha : a % 2 = 1) (hb : b % 2 = 1) : a * b % 2 = 1 := by rw [Nat.mul_mod, ha, hb]

theorem odd_pow' (a n : Nat) (ha : a % 2 = 1) : a ^ n % 2 = 1 := by
  induction n with
  | zero => rfl
  | succ n ih => rw [Nat.pow_succ]; exact odd_mul ih ha

/-- Powers of such a number, times four times an odd number, differ in their low
48 bits for 2^44 steps. -/
theorem apart (g c e d : Nat) (hg : g = 1 + 4 * (2 * c + 1)) (he : e = 4 * (2 * d + 1)) (a n : Nat) (h0 : 0 < n) (hn : n < 2 ^ 44) :
    e * g ^ a % 2 ^ 48 ≠ e * g ^ (a + n) % 2 ^ 48 := by
  intro h
  obtain ⟨k, q, hk⟩ := split_odd n h0
  have hk44 : k < 44 := by
    by_contra hc
    have h1 : 2 ^ 44 ≤ 2 ^ k := Nat.pow_le_pow_right (by decide) (Nat.le_of_not_lt hc)
    have h2 : 2 ^ k * 1 ≤ 2 ^ k * (2 * q + 1) := Nat.mul_le_mul_left _ (by omega)
    omega
  obtain ⟨u, hu⟩ := pow_shape g c hg k
  obtain ⟨z, hz, hzo⟩ := odd_pow k (2 * u + 1) q (by omega)
  have hpow : g ^ n = 1 + 2 ^ (k + 2) * z := by rw [hk, Nat.pow_mul, hu, hz]
  have hodd : g ^ a % 2 = 1 := odd_pow' _ _ (by omega)
  have h2 : e * g ^ (a + n) = e * g ^ a + 2 ^ (k + 4) * ((2 * d + 1) * g ^ a * z) := by
    rw [Nat.pow_add, hpow, he]
    ring
  rw [h2] at h
  have h3 : 2 ^ 48 ∣ 2 ^ (k + 4) * ((2 * d + 1) * g ^ a * z) := by
    have := Nat.sub_mod_eq_zero_of_mod_eq h.symm
    rw [Nat.add_sub_cancel_left] at this
    exact Nat.dvd_of_mod_eq_zero this
  rw [show 48 = k + 4 + (43 - k + 1) by omega, Nat.pow_add] at h3
  have h4 := Nat.dvd_of_mul_dvd_mul_left (Nat.two_pow_pos (k + 4)) h3
  have h5 : 2 ∣ (2 * d + 1) * g ^ a * z := Nat.dvd_trans ⟨2 ^ (43 - k), by rw [Nat.pow_succ, Nat.mul_comm]⟩ h4
  have h6 : (2 * d + 1) * g ^ a * z % 2 = 1 := odd_mul (odd_mul (by omega) hodd) hzo
  omega

theorem pow_toNat (x : BitVec 64) (k : Nat) : (x ^ k).toNat = x.toNat ^ k % 2 ^ 64 := by
  induction k with
  | zero => rw [BitVec.pow_zero]; rfl
  | succ k ih => rw [BitVec.pow_succ, BitVec.toNat_mul, ih, Nat.mod_mul_mod, ← Nat.pow_succ]

theorem apart_bits (g e : BitVec 64) (c d : Nat) (hg : g.toNat = 1 + 4 * (2 * c + 1)) (he : e.toNat = 4 * (2 * d + 1)) (a n : Nat)
    (h0 : 0 < n) (hn : n < 2 ^ 44) : (e * g ^ a).toNat % 2 ^ 48 ≠ (e * g ^ (a + n)).toNat % 2 ^ 48 := by
  have h2 : ∀ k, (e * g ^ k).toNat % 2 ^ 48 = e.toNat * g.toNat ^ k % 2 ^ 48 := by
    intro k
    rw [BitVec.toNat_mul, pow_toNat, Nat.mul_mod_mod, Nat.mod_mod_of_dvd _ (by decide : 2 ^ 48 ∣ 2 ^ 64)]
  rw [h2, h2]
  exact apart _ c _ d hg he a n h0 hn

theorem stored_powers (g : BitVec 64) (s s' : Sys) (es : List Ev) (h : Run (fun x => x * g) s es s') (hn : NoStore es) :
    stored es = (List.range (stored es).length).map (fun k => s.mem * g ^ (k + 1)) := by
  induction h with
  | nil s => rfl
  | @cons s s1 s2 e es hstep hr ih =>
    cases hstep with
    | win u bits old hp he =>
      have h1 := ih hn
      show old * g :: stored es = (List.range (stored es).length.succ).map _
      conv => lhs; rw [h1]
      rw [List.range_succ_eq_map, List.map_cons, List.map_map]
      refine congrArg₂ List.cons ?_ (List.map_congr_left fun k _ => ?_)
      · subst he; rw [Nat.zero_add, BitVec.pow_succ, BitVec.pow_zero, BitVec.one_mul]
      · subst he
        show s.mem * g * g ^ (k + 1) = s.mem * g ^ (k + 1 + 1)
        rw [BitVec.pow_succ (n := k + 1), BitVec.mul_assoc, BitVec.mul_comm g]
    | call u bits hp => exact ih hn
    | load u bits hp => exact ih hn
    | fail u bits old hp => exact ih hn
    | ret u bits new hp => exact ih hn
    | store seed => exact absurd hn id

theorem created_low (u v c : BitVec 64) (h : created u c = created v c) : u.toNat % 2 ^ 48 = v.toNat % 2 ^ 48 := by
  have h1 : (u &&& MASK) = (v &&& MASK) := by
    have h2 : ∀ w : BitVec 64, w &&& MASK = (created w c) ^^^ ((c ^^^ MULTIPLIER) &&& MASK) := by
      intro w
      unfold created initialScramble
      ext i
      simp only [BitVec.getElem_xor, BitVec.getElem_and]
      cases w[i] <;> cases c[i] <;> cases MULTIPLIER[i] <;> cases MASK[i] <;> rfl
    rw [h2 u, h2 v, h]
  rw [← mask_toNat, ← mask_toNat, h1]

theorem distinct_of (g e : BitVec 64) (c d : Nat) (hg : g.toNat = 1 + 4 * (2 * c + 1)) (he : e.toNat = 4 * (2 * d + 1))
    (es : List Ev) (s : Sys) (h : Run (fun x => x * g) (quiet e) es s) (hn : NoStore es)
    (hl : (stored es).length ≤ 2 ^ 44) (clock : BitVec 64) : ((stored es).map fun u => created u clock).Nodup := by
  have hs := stored_powers g _ _ _ h hn
  rw [hs, List.map_map, List.nodup_map_iff_inj_on List.nodup_range]
  have key : ∀ i j, i < j → j < (stored es).length → created (e * g ^ (i + 1)) clock ≠ created (e * g ^ (j + 1)) clock := by
    intro i j hij hj hc
    have h1 := created_low _ _ _ hc
    refine apart_bits g e c d hg he (i + 1) (j - i) (by omega) (by omega) ?_
    rw [h1, show i + 1 + (j - i) = j + 1 by omega]
  intro i hi j hj hc
  rw [List.mem_range] at hi hj
  rcases Nat.lt_trichotomy i j with hlt | hlt | hlt
  · exact absurd hc (key i j hlt hj)
  · exact hlt
  · exact absurd hc.symm (key j i hlt hi)

/-- Any number of threads create generators without a seed, in any interleaving:
among 2^44 of them no two given the same clock reading start in the same state. -/
theorem C73_distinct (es : List Ev) (s : Sys) (h : Run nextUniquifier (quiet firstUniquifier) es s) (hn : NoStore es)
    (hl : (stored es).length ≤ 2 ^ 44) (clock : BitVec 64) : ((stored es).map fun u => created u clock).Nodup :=
  distinct_of 181783497276652981#64 firstUniquifier 22722937159581622 1085315350893501 (by decide) (by decide) es s h hn hl clock

example : ∃ s, Run nextUniquifier (quiet firstUniquifier)
    [.call 1 0, .load 1, .win 1 0 (nextUniquifier firstUniquifier), .ret 1 0 (nextUniquifier firstUniquifier)] s ∧
    NoStore [.call 1 0, .load 1, .win 1 0 (nextUniquifier firstUniquifier), .ret 1 0 (nextUniquifier firstUniquifier)] :=
  ⟨_, .cons (.call _ 1 0 rfl) (.cons (.load _ 1 0 rfl) (.cons (.win _ 1 0 _ rfl rfl) (.cons (.ret _ 1 0 _ rfl) (.nil _)))), trivial⟩

end Verif.Random.Conc
