import Verif.StringBuffer.Spec
import Verif.StringBuilder.Lemmas
/-! # Lemmas on `StringBuffer` edits -/
namespace Verif.StringBuffer

open Verif.StringBuilder (SB swap anySurrogate reverseLoop fixPairs take_mem slice_mem)

theorem iter_next {σ : Type u} {ρ : Type v} {body : σ → Outcome (Step σ ρ)} {n : Nat} {s s' : σ} (h : body s = .ok (.next s')) :
    iter body (n + 1) s = iter body n s' := by simp [iter, h]

theorem iter_done {σ : Type u} {ρ : Type v} {body : σ → Outcome (Step σ ρ)} {n : Nat} {s : σ} {r : ρ} (h : body s = .ok (.done r)) :
    iter body (n + 1) s = .ok r := by simp [iter, h]

theorem grow_of_le {cap n : Nat} (h : n ≤ cap) : grow cap n = cap := by
  unfold grow; rw [if_pos h]

theorem grow_of_gt {cap n : Nat} (h : cap < n) : grow cap n = grow (2 * cap + 2) n := by
  rw [grow, if_neg (by omega)]

theorem le_grow (cap n : Nat) : n ≤ grow cap n ∧ cap ≤ grow cap n := by
  induction hk : n - cap using Nat.strongRecOn generalizing cap with
  | _ k ih =>
    by_cases h : n ≤ cap
    · rw [grow_of_le h]; omega
    · rw [grow_of_gt (by omega)]
      have := ih (n - (2 * cap + 2)) (by omega) (2 * cap + 2) rfl
      omega

theorem growLoop_ok (n : Nat) (hn : n < 2 ^ 30) (fuel : Nat) : ∀ cap : Nat, cap < n → n + 2 ≤ (cap + 2) * 2 ^ fuel →
    iter (growBody (n : Int)) fuel (cap : Int) = .ok (grow cap n : Int) := by
  induction fuel with
  | zero => intro cap h1 h2; omega
  | succ f ih =>
    intro cap h1 h2
    have hb : growBody (n : Int) (cap : Int) = .ok (if ((2 * cap + 2 : Nat) : Int) < (n : Int) then .next ((2 * cap + 2 : Nat) : Int) else .done ((2 * cap + 2 : Nat) : Int)) := by
      unfold growBody
      rw [show (cap : Int) * 2 + 2 = ((2 * cap + 2 : Nat) : Int) by omega,
        chk32_ok (by unfold INT_MIN; omega) (by unfold INT_MAX; omega), Outcome.bind_ok]
    rw [grow_of_gt h1]
    by_cases hlt : 2 * cap + 2 < n
    · rw [if_pos (show ((2 * cap + 2 : Nat) : Int) < (n : Int) by omega)] at hb
      rw [iter_next hb]
      exact ih (2 * cap + 2) hlt (by rw [Nat.pow_succ] at h2; rw [show (2 * cap + 2 + 2) = (cap + 2) * 2 by omega, Nat.mul_assoc, Nat.mul_comm 2]; exact h2)
    · rw [if_neg (show ¬ ((2 * cap + 2 : Nat) : Int) < (n : Int) by omega)] at hb
      rw [iter_done hb, grow_of_le (by omega)]

/-- The part of a block behind its text. -/
theorem drop_text (t : List Byte) (rest : Block) (n : Nat) (h : t.length ≤ n) :
    (t.map some ++ rest).drop n = rest.drop (n - t.length) := by
  rw [List.drop_append, List.length_map, List.drop_eq_nil_of_le (as := t.map some) (by simpa using h), List.nil_append]

theorem Holds.len_le {s : SB} {a : Txt} (h : Holds s a) : a.text.length ≤ a.cap := by
  obtain ⟨_, _, h3, rest, h4, _⟩ := h
  have := congrArg List.length h4
  simp at this; omega

/-- The block of a grown object. -/
theorem ensure_ok {s : SB} {a : Txt} (h : Holds s a) {n : Int} (hn : n < 2 ^ 30) :
    ∃ s', ensureCapacity n s = .ret s' () ∧ Holds s' (a.room n.toNat a.text) := by
  have hle := h.len_le
  obtain ⟨hl, hc, hm, rest, hr, hz⟩ := h
  unfold ensureCapacity
  simp only [OM.bind_eq, OM.bind_read]
  by_cases h1 : n ≤ 0
  · rw [if_pos h1]
    refine ⟨s, rfl, hl, ?_, ?_, rest, hr, ?_⟩
    · rw [hc]; simp only [Txt.room]; rw [grow_of_le (by omega)]
    · rw [hm]; simp only [Txt.room]; rw [grow_of_le (by omega)]
    · intro hx; simp only [Txt.room, Bool.and_eq_true] at hx; exact hz hx.1
  · rw [if_neg h1]
    by_cases h2 : n ≤ s.cap
    · rw [if_pos h2]
      refine ⟨s, rfl, hl, ?_, ?_, rest, hr, ?_⟩
      · rw [hc]; simp only [Txt.room]; rw [grow_of_le (by omega)]
      · rw [hm]; simp only [Txt.room]; rw [grow_of_le (by omega)]
      · intro hx; simp only [Txt.room, Bool.and_eq_true] at hx; exact hz hx.1
    · rw [if_neg h2]
      obtain ⟨k, rfl⟩ : ∃ k : Nat, n = k := ⟨n.toNat, by omega⟩
      have hg := growLoop_ok k (by omega) 33 a.cap (by omega) (by
        have : (2 : Nat) ^ 33 = 8589934592 := by decide
        rw [this]; omega)
      rw [hc, hg, OM.lift_ok, OM.bind_ret, OM.write_apply]
      have hgr := le_grow a.cap k
      obtain ⟨rest', hr'⟩ := Block.realloc_of a.text rest (grow a.cap k) (by omega)
      refine ⟨_, rfl, hl, rfl, ?_, rest', ?_, ?_⟩
      · show (s.mem.realloc _).length = _
        rw [Block.length_realloc]; rfl
      · show s.mem.realloc _ = _
        rw [hr]; exact hr'
      · intro hx
        simp only [Txt.room, Bool.and_eq_true, decide_eq_true_eq] at hx
        omega

theorem copyIn_of (m : Block) (i : Nat) (l : List Byte) (n : Nat) (h1 : n ≤ l.length) (h2 : i + n ≤ m.length) :
    Block.copyIn m i l n = .ok (m.take i ++ (l.take n).map some ++ m.drop (i + n)) := by
  unfold Block.copyIn
  by_cases hn : n = 0
  · subst hn; simp
  · rw [if_neg (by omega), if_pos (by omega), show ((i : Int) + n).toNat = i + n by omega,
      show ((n : Int).toNat) = n by omega, List.take_append_of_le_length h1]
    rfl

/-- Appending a piece `q` of `n` characters. -/
theorem appendAt_ok {s : SB} {a : Txt} (h : Holds s a) {l : List Byte} {o n : Nat} (hon : o + n ≤ l.length)
    (hn : a.text.length + n < 2 ^ 30) :
    ∃ s', appendAt l o n s = .ret s' () ∧ Holds s' (a.room (a.text.length + n) (a.text ++ (l.drop o).take n)) := by
  unfold appendAt
  simp only [OM.bind_eq, OM.bind_read]
  have hl := h.1
  rw [hl, chk32_ok (by unfold INT_MIN; omega) (by unfold INT_MAX; omega), OM.lift_ok, OM.bind_ret,
    show (a.text.length : Int) + n = ((a.text.length + n : Nat) : Int) by omega]
  obtain ⟨s', h1, hl', hc', hm', rest, hr', hz'⟩ := ensure_ok h (n := ((a.text.length + n : Nat) : Int)) (by omega)
  have hgr := le_grow a.cap (a.text.length + n)
  simp only [Txt.room, Int.toNat_natCast] at hl' hc' hm' hr' hz'
  rw [OM.bind_of_ret h1, OM.bind_read, hl', show ((o : Int).toNat) = o by omega,
    copyIn_of _ _ _ _ (by simp; omega) (by omega), OM.lift_ok, OM.bind_ret, OM.write_apply]
  have hlen : ((l.drop o).take n).length = n := by simp; omega
  refine ⟨_, rfl, ?_, hc', ?_, rest.drop n, ?_, ?_⟩
  · simp only [Txt.room, List.length_append, hlen]
  · show (s'.mem.take _ ++ _ ++ _).length = _
    simp only [List.length_append, List.length_map, hlen, List.length_take, List.length_drop, Txt.room]; omega
  · show s'.mem.take _ ++ _ ++ s'.mem.drop _ = _
    rw [hr', take_mem _ _ _ (Nat.le_refl _), List.take_length]
    simp only [Txt.room, List.map_append]
    rw [drop_text _ _ _ (by omega), Nat.add_sub_cancel_left]
  · intro hx x hmem
    exact hz' hx x (List.mem_of_mem_drop hmem)

theorem append_ok {s : SB} {a : Txt} (h : Holds s a) {l : List Byte} (hn : a.text.length + l.length < 2 ^ 30) :
    ∃ s', append l s = .ret s' () ∧ Holds s' (a.room (a.text.length + l.length) (a.text ++ l)) := by
  unfold append appendSlice
  rw [if_neg (by omega), OM.bind_eq, chk32_ok (by unfold INT_MIN; omega) (by unfold INT_MAX; omega), OM.lift_ok, OM.bind_ret,
    if_neg (by omega)]
  obtain ⟨s', h1, h2⟩ := appendAt_ok h (l := l) (o := 0) (n := l.length) (by omega) hn
  rw [List.drop_zero, List.take_length] at h2
  exact ⟨s', h1, h2⟩

/-- Inserting a piece of `n` characters. -/
theorem insertAt_ok {s : SB} {a : Txt} (h : Holds s a) {l : List Byte} {i o n : Nat} (hi : i ≤ a.text.length) (hon : o + n ≤ l.length)
    (hn : a.text.length + n < 2 ^ 30) :
    ∃ s', insertAt i l o n s = .ret s' () ∧
      Holds s' (a.room (a.text.length + n) (a.text.take i ++ (l.drop o).take n ++ a.text.drop i)) := by
  unfold insertAt
  simp only [OM.bind_eq, OM.bind_read]
  have hl := h.1
  rw [hl, chk32_ok (by unfold INT_MIN; omega) (by unfold INT_MAX; omega), OM.lift_ok, OM.bind_ret,
    show (a.text.length : Int) + n = ((a.text.length + n : Nat) : Int) by omega]
  obtain ⟨s', h1, hl', hc', hm', rest, hr', hz'⟩ := ensure_ok h (n := ((a.text.length + n : Nat) : Int)) (by omega)
  have hgr := le_grow a.cap (a.text.length + n)
  simp only [Txt.room, Int.toNat_natCast] at hl' hc' hm' hr' hz'
  have hrl : a.text.length + rest.length = s'.mem.length := by rw [hr']; simp
  have ht := take_mem a.text rest i hi
  have hd := slice_mem a.text rest i hi
  rw [← hr'] at ht hd
  rw [OM.bind_of_ret h1, OM.bind_read, hl', show (i : Int) + n = ((i + n : Nat) : Int) by omega,
    show (a.text.length : Int) - (i : Int) = ((a.text.length - i : Nat) : Int) by omega,
    Block.move_of _ _ _ _ (by omega) (by omega), OM.lift_ok, OM.bind_ret, hd]
  have hT : (s'.mem.take (i + n)).length = i + n := by simp; omega
  have hlen : ((l.drop o).take n).length = n := by simp; omega
  rw [show ((o : Int).toNat) = o by omega, List.append_assoc,
    copyIn_of _ _ _ _ (by simp; omega) (by simp; omega), OM.lift_ok, OM.bind_ret, OM.write_apply,
    List.take_append_of_le_length (by rw [hT]; omega), List.take_take, Nat.min_eq_left (by omega), ht,
    List.drop_append_of_le_length (by rw [hT]; omega), List.drop_eq_nil_of_le (as := s'.mem.take (i + n)) (by rw [hT]; omega), List.nil_append]
  refine ⟨_, rfl, ?_, hc', ?_, rest.drop n, ?_, ?_⟩
  · simp only [Txt.room, List.length_append, hlen, List.length_take, List.length_drop]; omega
  · show List.length (_ ++ _ ++ (_ ++ _)) = _
    simp only [List.length_append, List.length_map, hlen, List.length_take, List.length_drop, Txt.room]; omega
  · show _ ++ _ ++ (_ ++ s'.mem.drop _) = _
    rw [hr', show i + n + (a.text.length - i) = a.text.length + n by omega, drop_text _ _ _ (by omega), Nat.add_sub_cancel_left]
    simp [Txt.room]
  · intro hx x hmem
    exact hz' hx x (List.mem_of_mem_drop hmem)

/-- Memory after moving `n` bytes from `src`, the text and its spare room spelled
out: for `dst ≤ src ≤` the length. -/
theorem moveDown_of (t : List Byte) (rest : Block) (d e n : Nat) (hd : d ≤ e) (he : e ≤ t.length)
    (hn : t.length - e ≤ n) (hr : e + n ≤ t.length + rest.length) (hk : t.length ≤ d + n) :
    Block.move (t.map some ++ rest) d e n =
      .ok ((t.take d ++ t.drop e).map some ++ (rest.take (e + n - t.length) ++ rest.drop (d + n - t.length))) := by
  rw [Block.move_of _ _ _ _ (by simp; omega) (by simp; omega), take_mem _ _ _ (by omega)]
  congr 1
  rw [drop_text _ _ _ hk, List.drop_append_of_le_length (by simpa using he), List.take_append,
    List.take_of_length_le (show ((t.map some).drop e).length ≤ n by simp; omega), List.length_drop, List.length_map,
    show n - (t.length - e) = e + n - t.length by omega]
  simp

/-- Bytes of a part of the spare room. -/
theorem parts_zero {rest : Block} (hz : ∀ x ∈ rest, x = some 0#8) (i j : Nat) : ∀ x ∈ rest.take i ++ rest.drop j, x = some 0#8 := by
  intro x hx
  rcases List.mem_append.mp hx with h | h
  · exact hz x (List.mem_of_mem_take h)
  · exact hz x (List.mem_of_mem_drop h)

theorem deleteMove_ok {s : SB} {a : Txt} (h : Holds s a) {i j : Nat} (hi : i < j) (hit : i < a.text.length)
    (hl : if a.text.length < j then 2 * a.text.length ≤ a.cap else (j - i) + a.text.length ≤ a.cap) :
    ∃ s', deleteMove i j s = .ret s' () ∧ Holds s' (a.put (a.text.take i ++ a.text.drop j)) := by
  have hle := h.len_le
  obtain ⟨hlen, hc, hm, rest, hr, hz⟩ := h
  have hrl : a.text.length + rest.length = a.cap := by rw [← hm, hr]; simp
  unfold deleteMove
  simp only [OM.bind_eq, OM.bind_read]
  rw [hlen]
  by_cases hj : a.text.length < j
  · rw [if_pos hj] at hl
    rw [if_pos (show (j : Int) > (a.text.length : Int) by omega), hr,
      moveDown_of _ _ _ _ _ (by omega) (Nat.le_refl _) (by omega) (by omega) (by omega), OM.lift_ok, OM.bind_ret, OM.write_apply]
    refine ⟨_, rfl, ?_, hc, ?_, rest.take (a.text.length + a.text.length - a.text.length) ++ rest.drop (i + a.text.length - a.text.length), ?_, ?_⟩
    · simp only [Txt.put, List.length_append, List.length_take, List.length_drop]; omega
    · simp only [Txt.put, List.length_append, List.length_map, List.length_take, List.length_drop]; omega
    · simp only [Txt.put]
      rw [List.drop_eq_nil_of_le (show a.text.length ≤ j by omega), List.drop_eq_nil_of_le (Nat.le_refl _)]
    · intro hx; exact parts_zero (hz hx) _ _
  · rw [if_neg hj] at hl
    rw [if_neg (show ¬ (j : Int) > (a.text.length : Int) by omega), hr,
      show (a.text.length : Int) - (i : Int) = ((a.text.length - i : Nat) : Int) by omega,
      moveDown_of _ _ _ _ _ (by omega) (by omega) (by omega) (by omega) (by omega), OM.lift_ok, OM.bind_ret, OM.write_apply]
    refine ⟨_, rfl, ?_, hc, ?_, _, rfl, ?_⟩
    · simp only [Txt.put, List.length_append, List.length_take, List.length_drop]; omega
    · simp only [Txt.put, List.length_append, List.length_map, List.length_take, List.length_drop]; omega
    · intro hx; exact parts_zero (hz hx) _ _

theorem deleteCharAt_ok {s : SB} {a : Txt} (h : Holds s a) {i : Nat} (hi : i < a.text.length) (hl : a.text.length < a.cap) :
    ∃ s', deleteCharAt i s = .ret s' () ∧ Holds s' (a.put (a.text.eraseIdx i)) := by
  obtain ⟨hlen, hc, hm, rest, hr, hz⟩ := h
  have hrl : a.text.length + rest.length = a.cap := by rw [← hm, hr]; simp
  unfold deleteCharAt
  simp only [OM.bind_eq, OM.bind_read]
  rw [if_neg (by omega), if_neg (by omega), hlen, hr, show (i : Int) + 1 = ((i + 1 : Nat) : Int) by omega,
    show (a.text.length : Int) - (i : Int) = ((a.text.length - i : Nat) : Int) by omega,
    moveDown_of _ _ _ _ _ (by omega) (by omega) (by omega) (by omega) (by omega), OM.lift_ok, OM.bind_ret, OM.write_apply,
    ← List.eraseIdx_eq_take_drop_succ]
  refine ⟨_, rfl, ?_, hc, ?_, _, rfl, ?_⟩
  · simp only [Txt.put, List.length_eraseIdx, if_pos hi]; omega
  · simp only [Txt.put, List.length_append, List.length_map, List.length_take, List.length_drop, List.length_eraseIdx, if_pos hi]; omega
  · intro hx; exact parts_zero (hz hx) _ _

theorem drop_stop (a : Txt) (j : Int) : a.text.drop (stop a j) = a.text.drop j.toNat := by
  unfold stop
  by_cases h : j.toNat ≤ a.text.length
  · rw [Nat.min_eq_left h]
  · rw [Nat.min_eq_right (by omega), List.drop_length, List.drop_eq_nil_of_le (by omega)]

/-- The block after `replace` has moved the tail and stored the text. -/
theorem replace_mem (t l : List Byte) (rest : Block) (i e : Nat) (hi : i ≤ e) (he : e ≤ t.length)
    (hk : t.length - e ≤ l.length ∨ e = i + l.length) (h1 : l ≠ [] → e + l.length ≤ t.length + rest.length ∧ i + 2 * l.length ≤ t.length + rest.length) :
    ∃ rest', ((Block.move (t.map some ++ rest) ((i : Int) + l.length) e l.length).bind fun m => m.copyIn i l l.length) =
        .ok ((t.take i ++ l ++ t.drop e).map some ++ rest') ∧
      ((∀ x ∈ rest, x = some 0#8) → t.length ≤ i + 2 * l.length → ∀ x ∈ rest', x = some 0#8) := by
  by_cases hl : l = []
  · subst hl
    simp only [List.length_nil] at *
    unfold Block.move
    rw [if_pos (show ((0 : Nat) : Int) = 0 from rfl), Outcome.bind_ok]
    unfold Block.copyIn
    rw [if_pos (show ((0 : Nat) : Int) = 0 from rfl)]
    by_cases hie : e = i
    · subst hie
      refine ⟨rest, ?_, fun hz _ => hz⟩
      rw [List.append_nil, List.take_append_drop]
    · have : e = t.length := by omega
      subst this
      refine ⟨(t.drop i).map some ++ rest, ?_, ?_⟩
      · rw [List.drop_length, List.append_nil, List.append_nil, ← List.append_assoc, ← List.map_append, List.take_append_drop]
      · intro _ hle; omega
  · obtain ⟨h1, h2⟩ := h1 hl
    have hpos : 0 < l.length := List.length_pos_iff.mpr hl
    have hT : ((t.map some ++ rest).take (i + l.length)).length = i + l.length := by simp; omega
    rw [show (i : Int) + l.length = ((i + l.length : Nat) : Int) by omega,
      Block.move_of _ _ _ _ (by simp; omega) (by simp; omega), Outcome.bind_ok, List.append_assoc,
      copyIn_of _ _ _ _ (Nat.le_refl _) (by simp; omega),
      List.take_append_of_le_length (by rw [hT]; omega), List.take_take, Nat.min_eq_left (by omega), take_mem _ _ _ (by omega),
      List.drop_append_of_le_length (by rw [hT]; omega),
      List.drop_eq_nil_of_le (as := (t.map some ++ rest).take (i + l.length)) (by rw [hT]; omega), List.nil_append, List.take_length]
    by_cases hc : t.length - e ≤ l.length
    · refine ⟨rest.take (l.length - (t.length - e)) ++ (t.map some ++ rest).drop (i + l.length + l.length), ?_, ?_⟩
      · congr 1
        rw [List.drop_append_of_le_length (l₁ := t.map some) (i := e) (by simpa using he), List.take_append,
          List.take_of_length_le (show ((t.map some).drop e).length ≤ l.length by simp; omega), List.length_drop, List.length_map]
        simp
      · intro hz hle
        rw [drop_text _ _ _ (by omega)]
        exact parts_zero hz _ _
    · have he2 : e = i + l.length := by omega
      refine ⟨rest, ?_, fun hz _ => hz⟩
      congr 1
      rw [← he2, ← List.drop_drop, List.take_append_drop, List.drop_append_of_le_length (by simpa using he)]
      simp

theorem replaceTail_ok {s : SB} {a : Txt} (h : Holds s a) {l : List Byte} {i e : Nat} (hi : i ≤ e) (he : e ≤ a.text.length)
    (hn : a.text.length + l.length < 2 ^ 30) (hk : a.text.length - e ≤ l.length ∨ e = i + l.length)
    (h1 : l ≠ [] → e + l.length ≤ grow a.cap (a.text.length + l.length + i - e) ∧ i + 2 * l.length ≤ grow a.cap (a.text.length + l.length + i - e)) :
    ∃ s', replaceTail i e l s = .ret s' () ∧
      Holds s' ⟨a.text.take i ++ l ++ a.text.drop e, grow a.cap (a.text.length + l.length + i - e),
        a.clean && decide (a.text.length + l.length + i - e ≤ a.cap ∧ a.text.length ≤ i + 2 * l.length)⟩ := by
  have hl := h.1
  unfold replaceTail
  simp only [OM.bind_eq, OM.bind_read]
  rw [hl, chk32_ok (by unfold INT_MIN; omega) (by unfold INT_MAX; omega), OM.lift_ok, OM.bind_ret,
    show (a.text.length : Int) + l.length - e + i = ((a.text.length + l.length + i - e : Nat) : Int) by omega]
  obtain ⟨s', h2, hl', hc', hm', rest, hr', hz'⟩ := ensure_ok h (n := ((a.text.length + l.length + i - e : Nat) : Int)) (by omega)
  have hgr := le_grow a.cap (a.text.length + l.length + i - e)
  simp only [Txt.room, Int.toNat_natCast] at hl' hc' hm' hr' hz'
  have hrl : a.text.length + rest.length = s'.mem.length := by rw [hr']; simp
  rw [OM.bind_of_ret h2, OM.bind_read]
  obtain ⟨rest', h3, h4⟩ := replace_mem a.text l rest i e hi he hk (fun hne => by have := h1 hne; omega)
  rw [hr']
  have h5 : ∀ (x : Outcome Block) (f : Block → Outcome Block) (r : Block) (g : Block → OM SB Unit), x.bind f = .ok r →
      (OM.lift x).bind (fun m => (OM.lift (f m)).bind g) = (OM.ret r : OM SB Block).bind g := by
    intro x f r g hx
    cases x with
    | ok m => rw [Outcome.bind_ok] at hx; rw [OM.lift_ok]; funext s; rw [OM.bind_ret, hx, OM.lift_ok]
    | throw e => rw [Outcome.bind_throw] at hx; simp at hx
    | ub => rw [Outcome.bind_ub] at hx; simp at hx
    | diverge => rw [Outcome.bind_diverge] at hx; simp at hx
  rw [h5 _ _ _ _ h3, OM.bind_ret, OM.write_apply]
  refine ⟨_, rfl, ?_, hc', ?_, rest', rfl, ?_⟩
  · simp only [List.length_append, List.length_take, List.length_drop]; omega
  · have hlen : ∀ (x : Block) (d e n : Int) (i : Int) (l : List Byte) (k : Int) (r : Block), ((x.move d e n).bind fun m => m.copyIn i l k) = .ok r →
        k ≤ l.length → r.length = x.length := by
      intro x d e n i l k r hx hk
      unfold Block.move at hx
      split at hx
      · rw [Outcome.bind_ok] at hx
        unfold Block.copyIn at hx
        split at hx
        · cases hx; rfl
        · split at hx
          · cases hx; simp; omega
          · cases hx
      · split at hx
        · rw [Outcome.bind_ok] at hx
          unfold Block.copyIn at hx
          split at hx
          · cases hx; simp; omega
          · split at hx
            · rename_i h9 _ h8
              have h7 : ∀ y z : Nat, (y : Int) = z → y = z := by omega
              cases hx
              simp only [List.length_append, List.length_take, List.length_map, List.length_drop, List.length_cons, List.length_nil] at h8 ⊢
              omega
            · cases hx
        · rw [Outcome.bind_ub] at hx; cases hx
    have := hlen _ _ _ _ _ _ _ _ h3 (Int.le_refl _)
    show List.length _ = _
    rw [this, ← hr', hm']
  · intro hx
    simp only [Bool.and_eq_true, decide_eq_true_eq] at hx
    exact h4 (hz' (by simp only [Bool.and_eq_true, decide_eq_true_eq]; exact ⟨hx.1, hx.2.1⟩)) hx.2.2

theorem wipeDown_of (m : Block) (i k : Nat) (hk : k ≤ i + 1) (hi : i < m.length) :
    wipeDown m i k = .ok (m.take (i + 1 - k) ++ List.replicate k (some 0#8) ++ m.drop (i + 1)) := by
  induction k generalizing m i with
  | zero => simp [wipeDown]
  | succ k ih =>
    unfold wipeDown
    rw [Block.wr_of _ _ _ (by omega), Outcome.bind_ok, show ((i : Int).toNat) = i by omega]
    cases k with
    | zero =>
      unfold wipeDown
      rw [List.set_eq_take_append_cons_drop, if_pos hi]
      simp
    | succ k =>
      obtain ⟨i, rfl⟩ : ∃ x, i = x + 1 := ⟨i - 1, by omega⟩
      rw [show (((i + 1 : Nat) : Int) - 1) = ((i : Nat) : Int) by omega, ih _ _ (by omega) (by simp; omega)]
      congr 1
      rw [List.take_set_of_le (by omega), show i + 1 + 1 - (k + 1 + 1) = i + 1 - (k + 1) by omega]
      rw [List.set_eq_take_append_cons_drop, if_pos (by omega), List.drop_append, List.length_take,
        Nat.min_eq_left (by omega), Nat.sub_self, List.drop_eq_nil_of_le (as := m.take (i + 1)) (by rw [List.length_take]; omega), List.nil_append, List.drop_zero,
        List.replicate_succ' (n := k + 1)]
      simp

theorem setLength_ok {s : SB} {a : Txt} (h : Holds s a) {n : Nat} (hn : n < 2 ^ 30)
    (hl : if a.text.length < n then n < grow a.cap n else a.text.length < a.cap) :
    ∃ s', setLength n s = .ret s' () ∧ Holds s' (a.room n (a.text.take n ++ List.replicate (n - a.text.length) 0#8)) := by
  have hlen := h.1
  have hle := h.len_le
  unfold setLength
  rw [if_neg (by omega)]
  simp only [OM.bind_eq, OM.bind_read]
  by_cases hc : a.text.length < n
  · rw [if_pos hc] at hl
    rw [if_pos (by omega)]
    obtain ⟨s', h2, hl', hc', hm', rest, hr', hz'⟩ := ensure_ok h (n := (n : Int)) (by omega)
    simp only [Txt.room, Int.toNat_natCast] at hl' hc' hm' hr' hz'
    rw [OM.bind_of_ret h2, OM.bind_read, hl', show ((n : Int) - (a.text.length : Int) + 1).toNat = n - a.text.length + 1 by omega,
      Block.store_of _ _ _ (by simp only [List.length_replicate]; omega), OM.lift_ok, OM.bind_ret, OM.write_apply]
    refine ⟨_, rfl, ?_, hc', ?_, some 0#8 :: rest.drop (n + 1 - a.text.length), ?_, ?_⟩
    · simp only [Txt.room, List.length_append, List.length_take, List.length_replicate]; omega
    · simp only [Txt.room, List.length_append, List.length_map, List.length_take, List.length_replicate, List.length_drop]; omega
    · show s'.mem.take _ ++ _ ++ s'.mem.drop _ = _
      rw [hr', take_mem _ _ _ (Nat.le_refl _), List.take_length, drop_text _ _ _ (by simp only [List.length_replicate]; omega), List.length_replicate,
        show a.text.length + (n - a.text.length + 1) - a.text.length = n + 1 - a.text.length by omega]
      simp only [Txt.room]
      rw [List.take_of_length_le (by omega : a.text.length ≤ n), List.replicate_succ']
      simp
    · intro hx x hmem
      rcases List.mem_cons.mp hmem with h | h
      · exact h
      · exact hz' hx x (List.mem_of_mem_drop h)
  · rw [if_neg hc] at hl
    obtain ⟨hlen, hcap, hm, rest, hr, hz⟩ := h
    have hrl : a.text.length + rest.length = a.cap := by rw [← hm, hr]; simp
    rw [if_neg (by omega), hlen, show ((a.text.length : Int) - (n : Int) + 1).toNat = a.text.length - n + 1 by omega,
      wipeDown_of _ _ _ (by omega) (by omega), OM.lift_ok, OM.bind_ret, OM.write_apply]
    refine ⟨_, rfl, ?_, ?_, ?_, List.replicate (a.text.length - n + 1) (some 0#8) ++ rest.drop 1, ?_, ?_⟩
    · simp only [Txt.room, List.length_append, List.length_take, List.length_replicate]; omega
    · simp only [Txt.room, grow_of_le (show n ≤ a.cap by omega)]; exact hcap
    · simp only [Txt.room, grow_of_le (show n ≤ a.cap by omega), List.length_append, List.length_take, List.length_replicate, List.length_drop]; omega
    · show s.mem.take _ ++ _ ++ s.mem.drop _ = _
      rw [hr, drop_text _ _ _ (by omega), show a.text.length + 1 - (a.text.length - n + 1) = n by omega, take_mem _ _ _ (by omega),
        show a.text.length + 1 - a.text.length = 1 by omega]
      simp only [Txt.room]
      rw [show n - a.text.length = 0 by omega, List.replicate_zero, List.append_nil, List.append_assoc]
    · intro hx x hmem
      simp only [Txt.room, Bool.and_eq_true] at hx
      rcases List.mem_append.mp hmem with h | h
      · exact (List.mem_replicate.mp h).2
      · exact hz hx.1 x (List.mem_of_mem_drop h)

theorem reverse_ok {s : SB} {a : Txt} (h : Holds s a) : ∃ s', reverse s = .ret s' () ∧ Holds s' (a.put a.text.reverse) := by
  obtain ⟨hl, hc, hm, rest, hr, hz⟩ := h
  unfold reverse
  simp only [OM.bind_eq, OM.bind_read]
  obtain ⟨u, hu, hh⟩ := StringBuilder.reverseLoop_ok a.text rest (a.text.length / 2) 0 a.text ⟨rfl, fun x hx => by rw [if_neg (by omega)]⟩ (by omega)
  have hd : ((s.len).tdiv 2).toNat = a.text.length / 2 := by
    rw [hl, Int.tdiv_eq_ediv_of_nonneg (by omega)]; omega
  rw [hd, hl, hr, show (0 : Int) = ((0 : Nat) : Int) from rfl, hu, OM.lift_ok, OM.bind_ret, if_neg (by simp), OM.lift_ok,
    OM.bind_ret, OM.write_apply]
  have hrev := hh.full (by omega)
  subst hrev
  refine ⟨_, rfl, ?_, hc, ?_, rest, rfl, hz⟩
  · simp [Txt.put, hl]
  · simp only [Txt.put, ← hm, hr]; simp

/-! ## Reading -/

theorem cstring_nul (t : List Byte) (h : 0 ∉ t) (r : Block) : Block.cstring (t.map some ++ some 0#8 :: r) = .ok t := by
  induction t with
  | nil => simp [Block.cstring]
  | cons c t ih =>
    have hc : c ≠ 0 := by rintro rfl; simp at h
    simp only [List.map_cons, List.cons_append, Block.cstring]
    rw [if_neg hc, ih (fun h' => h (List.mem_cons_of_mem _ h')), Outcome.bind_ok]

theorem cstring_none (t : List Byte) (h : 0 ∉ t) (r : Block) : Block.cstring (t.map some ++ none :: r) = .ub := by
  induction t with
  | nil => simp [Block.cstring]
  | cons c t ih =>
    have hc : c ≠ 0 := by rintro rfl; simp at h
    simp only [List.map_cons, List.cons_append, Block.cstring]
    rw [if_neg hc, ih (fun h' => h (List.mem_cons_of_mem _ h')), Outcome.bind_ub]

theorem cstring_full (t : List Byte) (h : 0 ∉ t) : Block.cstring (t.map some) = .ub := by
  induction t with
  | nil => simp [Block.cstring]
  | cons c t ih =>
    have hc : c ≠ 0 := by rintro rfl; simp at h
    simp only [List.map_cons, Block.cstring]
    rw [if_neg hc, ih (fun h' => h (List.mem_cons_of_mem _ h')), Outcome.bind_ub]

theorem toString_ok {s : SB} {a : Txt} (h : Holds s a) (hc : a.clean = true) (hl : a.text.length < a.cap) (hz : 0 ∉ a.text) :
    toString s = .ret s a.text := by
  obtain ⟨_, _, hm, rest, hr, hzz⟩ := h
  unfold toString
  rw [OM.bind_eq, OM.bind_read]
  cases rest with
  | nil => rw [hr] at hm; simp at hm; omega
  | cons x rest =>
    have := hzz hc x (by simp)
    subst this
    rw [hr, cstring_nul _ hz]
    rfl

theorem rd_ok {s : SB} {a : Txt} (h : Holds s a) {i : Int} (hi : 0 ≤ i ∧ i < a.text.length) :
    s.mem.rd i = .ok (a.text[i.toNat]'(by omega)) := by
  obtain ⟨_, _, _, rest, hr, _⟩ := h
  rw [hr, Block.rd_of _ _ _ hi]

/-- The byte behind the text. -/
theorem rd_end {s : SB} {a : Txt} (h : Holds s a) (hc : a.clean = true) (hl : a.text.length < a.cap) :
    s.mem.rd a.text.length = .ok 0#8 := by
  obtain ⟨_, _, hm, rest, hr, hz⟩ := h
  cases rest with
  | nil => rw [hr] at hm; simp at hm; omega
  | cons x rest =>
    have := hz hc x (by simp)
    subst this
    rw [hr]
    unfold Block.rd
    rw [if_neg (by omega), show ((a.text.length : Int).toNat) = a.text.length by omega, List.getElem?_append_right (by simp)]
    simp

theorem countLoop_ok (m : Block) (stop : Int) (n : Nat) : ∀ (i count : Int), (∀ k, i < k → k ≤ stop → ∃ c, m.rd k = .ok c) →
    countLoop m stop n i count = .ok count := by
  induction n with
  | zero => intro i count _; rfl
  | succ n ih =>
    intro i count h
    unfold countLoop
    by_cases hi : i < stop
    · obtain ⟨c, hc⟩ := h (i + 1) (by omega) (by omega)
      have hp : pairHere m i = .ok false := by
        unfold pairHere
        rw [hc, Outcome.bind_eq, Outcome.bind_ok, (Character.C65_no_surrogates _).1, if_neg (by simp)]
      rw [if_pos hi, hp, Outcome.bind_eq, Outcome.bind_ok, if_neg (by simp)]
      exact ih _ _ (fun k h1 h2 => h k (by omega) h2)
    · rw [if_neg hi]

end Verif.StringBuffer
