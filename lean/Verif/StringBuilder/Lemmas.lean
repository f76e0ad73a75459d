import Verif.StringBuilder.Spec
import Verif.Character.Props
/-! # Lemmas on `StringBuilder` edits -/
namespace Verif.StringBuilder

theorem take_mem (t : List Byte) (rest : Block) (i : Nat) (h : i ≤ t.length) :
    (t.map some ++ rest).take i = (t.take i).map some := by
  rw [List.take_append_of_le_length (by simpa using h), List.map_take]

theorem slice_mem (t : List Byte) (rest : Block) (i : Nat) (h : i ≤ t.length) :
    ((t.map some ++ rest).drop i).take (t.length - i) = (t.drop i).map some := by
  rw [List.drop_append_of_le_length (by simpa using h), List.take_append_of_le_length (by simp),
    List.take_of_length_le (by simp), List.map_drop]

theorem newCapacity_ok {cap n : Int} (h0 : 0 ≤ cap) (h1 : cap < n) (h2 : n < 2 ^ 30) :
    ∃ r, newCapacity cap n = .ok r ∧ n ≤ r := by
  unfold newCapacity
  rw [chk32_ok (by unfold INT_MIN; omega) (by unfold INT_MAX; omega), Outcome.bind_ok]
  exact ⟨_, rfl, by split <;> omega⟩

theorem ensure_ok {s : SB} {t : List Byte} (h : Holds s t) {n : Int} (hn : n < 2 ^ 30) :
    ∃ s', ensureCapacity n s = .ret s' () ∧ Holds s' t ∧ n ≤ s'.cap := by
  obtain ⟨hl, hc, rest, hm⟩ := h
  unfold ensureCapacity
  simp only [OM.bind_eq, OM.bind_read]
  by_cases hcase : n ≤ 0 ∨ n ≤ s.cap
  · rw [if_pos hcase]
    exact ⟨s, rfl, ⟨hl, hc, rest, hm⟩, by omega⟩
  · rw [if_neg hcase]
    obtain ⟨r, hr, hnr⟩ := newCapacity_ok (cap := s.cap) (n := n) (by omega) (by omega) hn
    rw [hr, OM.lift_ok, OM.bind_ret, OM.write_apply]
    have hlen : (t.length : Int) ≤ s.cap := by rw [hc, hm]; simp; omega
    obtain ⟨rest', hr'⟩ := Block.realloc_of t rest r.toNat (by omega)
    refine ⟨_, rfl, ⟨hl, ?_, rest', ?_⟩, hnr⟩
    · show r = ((s.mem.realloc r.toNat).length : Int)
      rw [Block.length_realloc]; omega
    · show s.mem.realloc r.toNat = _
      rw [hm]; exact hr'

theorem append_ok {s : SB} {t : List Byte} (h : Holds s t) {l : List Byte} (hn : t.length + l.length < 2 ^ 30) :
    ∃ s', append l s = .ret s' () ∧ Holds s' (t ++ l) := by
  unfold append
  simp only [OM.bind_eq, OM.bind_read]
  have hl := h.1
  rw [chk32_ok (by unfold INT_MIN; omega) (by unfold INT_MAX; omega), OM.lift_ok, OM.bind_ret]
  obtain ⟨s', h1, ⟨hl', hc', rest, hm'⟩, h2⟩ := ensure_ok h (n := s.len + l.length) (by omega)
  rw [OM.bind_of_ret h1, OM.bind_read, hl', Block.store_of _ _ _ (by omega), OM.lift_ok, OM.bind_ret, OM.write_apply]
  refine ⟨_, rfl, ?_, ?_, (s'.mem).drop (t.length + l.length), ?_⟩
  · simp only [List.length_append]; omega
  · simp only [List.length_append, List.length_take, List.length_drop, List.length_map]; omega
  · show s'.mem.take t.length ++ l.map some ++ _ = _
    rw [hm', take_mem _ _ _ (Nat.le_refl _), List.take_length]; simp

theorem insertAt_ok {s : SB} {t : List Byte} (h : Holds s t) {l : List Byte} (hn : t.length + l.length < 2 ^ 30)
    {i : Int} (hi : 0 ≤ i ∧ i ≤ t.length) :
    ∃ s', insertAt i l s = .ret s' () ∧ Holds s' (t.take i.toNat ++ l ++ t.drop i.toNat) := by
  obtain ⟨i, rfl⟩ : ∃ k : Nat, i = k := ⟨i.toNat, by omega⟩
  unfold insertAt
  simp only [OM.bind_eq, OM.bind_read]
  have hl := h.1
  rw [chk32_ok (by unfold INT_MIN; omega) (by unfold INT_MAX; omega), OM.lift_ok, OM.bind_ret]
  obtain ⟨s', h1, ⟨hl', hc', rest, hm'⟩, h2⟩ := ensure_ok h (n := s.len + l.length) (by omega)
  rw [OM.bind_of_ret h1, OM.bind_read, hl', show (i : Int) + l.length = ((i + l.length : Nat) : Int) by omega,
    show (t.length : Int) - (i : Int) = ((t.length - i : Nat) : Int) by omega,
    Block.move_of _ _ _ _ (by omega) (by omega), OM.lift_ok, OM.bind_ret]
  have hlen : t.length + l.length ≤ s'.mem.length := by omega
  have hit : i ≤ t.length := by omega
  have ht := take_mem t rest i hit
  have hd := slice_mem t rest i hit
  rw [← hm'] at ht hd
  have hX : s'.mem.take (i + l.length) ++ (s'.mem.drop i).take (t.length - i) ++ s'.mem.drop (i + l.length + (t.length - i)) =
      s'.mem.take (i + l.length) ++ ((t.drop i).map some ++ s'.mem.drop (i + l.length + (t.length - i))) := by
    rw [hd, List.append_assoc]
  rw [hX, Block.store_of _ _ _ (by simp; omega), OM.lift_ok, OM.bind_ret, OM.write_apply]
  have hT : (s'.mem.take (i + l.length)).length = i + l.length := by simp; omega
  rw [List.take_append_of_le_length (by rw [hT]; omega), List.take_take, Nat.min_eq_left (by omega), ht,
    List.drop_append_of_le_length (by rw [hT]; omega), List.drop_eq_nil_of_le (by rw [hT]; omega), List.nil_append]
  refine ⟨_, rfl, ?_, ?_, s'.mem.drop (i + l.length + (t.length - i)), ?_⟩
  · simp; omega
  · show s'.cap = _
    simp only [List.length_append, List.length_map, List.length_take, List.length_drop]; omega
  · show _ ++ _ ++ (_ ++ _) = _
    simp [List.append_assoc]

theorem copy_ok {s : SB} {t : List Byte} (h : Holds s t) : ∃ r, copy s = .ok r ∧ Holds r t := by
  obtain ⟨hl, hc, rest, hm⟩ := h
  have hlen : t.length ≤ s.mem.length := by rw [hm]; simp
  unfold copy
  have := Block.load_of t rest 0 t.length (by omega)
  rw [List.drop_zero, List.take_length, ← hm] at this
  rw [hl, show ((t.length : Int).toNat) = t.length by omega, show (0 : Int) = ((0 : Nat) : Int) by rfl, this, Outcome.bind_ok,
    Block.store_of _ _ _ (by unfold Block.calloc; simp; omega), Outcome.bind_ok]
  refine ⟨_, rfl, rfl, ?_, (Block.calloc s.cap.toNat).drop (0 + t.length), ?_⟩
  · show s.cap = _
    unfold Block.calloc; simp; omega
  · simp

theorem returnThis_ok {s : SB} {t : List Byte} (h : Holds s t) : ∃ r, returnThis s = .ret s r ∧ Holds r t := by
  obtain ⟨r, hr, hh⟩ := copy_ok h
  unfold returnThis
  simp only [OM.bind_eq, OM.bind_read]
  rw [hr]
  exact ⟨r, rfl, hh⟩

theorem load_all {s : SB} {t : List Byte} (h : Holds s t) : s.mem.load 0 s.len.toNat = .ok t := by
  obtain ⟨hl, hc, rest, hm⟩ := h
  have := Block.load_of t rest 0 t.length (by omega)
  rw [List.drop_zero, List.take_length, ← hm] at this
  rw [hl]; exact this

theorem built_ok {r : SB} {t : List Byte} (h : Holds r t) (s : SB) : built r s = .ret s (.built t) := by
  unfold built
  simp only [OM.bind_eq]
  rw [load_all h]; rfl

/-- Continue after a method that returns a builder. -/
theorem bind_built {m : OM SB SB} {s s' r : SB} {t : List Byte} (h : m s = .ret s' r) (hh : Holds r t) :
    (m.bind fun r => built r) s = .ret s' (.built t) := by
  rw [OM.bind_of_ret h, built_ok hh]

theorem deleteTail_ok {s : SB} {t : List Byte} (h : Holds s t) {a b : Int} (hi : 0 ≤ a ∧ a ≤ b ∧ b ≤ t.length) :
    ∃ s' r, deleteTail a b s = .ret s' r ∧ Holds s' (t.take a.toNat ++ t.drop b.toNat) ∧
      Holds r (t.take a.toNat ++ t.drop b.toNat) := by
  obtain ⟨a, rfl⟩ : ∃ k : Nat, a = k := ⟨a.toNat, by omega⟩
  obtain ⟨b, rfl⟩ : ∃ k : Nat, b = k := ⟨b.toNat, by omega⟩
  obtain ⟨hl, hc, rest, hm⟩ := h
  have hlen : t.length ≤ s.mem.length := by rw [hm]; simp
  unfold deleteTail
  simp only [OM.bind_eq, OM.bind_read]
  rw [hl, show (t.length : Int) - (b : Int) = ((t.length - b : Nat) : Int) by omega,
    Block.move_of _ _ _ _ (by omega) (by omega), OM.lift_ok, OM.bind_ret, OM.bind_write]
  have ht := take_mem t rest a (by omega)
  have hd := slice_mem t rest b (by omega)
  rw [← hm] at ht hd
  rw [ht, hd]
  have hh : Holds { s with mem := (t.take a).map some ++ (t.drop b).map some ++ s.mem.drop (a + (t.length - b)), len := (t.length : Int) - ((b : Int) - (a : Int)) }
      (t.take a ++ t.drop b) := by
    refine ⟨?_, ?_, s.mem.drop (a + (t.length - b)), ?_⟩
    · simp; omega
    · show s.cap = _
      simp only [List.length_append, List.length_map, List.length_take, List.length_drop]; omega
    · simp
  obtain ⟨r, hr, hrr⟩ := returnThis_ok hh
  exact ⟨_, r, hr, hh, hrr⟩

theorem replaceTail_ok {s : SB} {t : List Byte} (h : Holds s t) {l : List Byte} (hn : t.length + l.length < 2 ^ 30)
    {a b : Int} (hi : 0 ≤ a ∧ a ≤ b ∧ b ≤ t.length) :
    ∃ s' r, replaceTail a b l s = .ret s' r ∧ Holds s' (t.take a.toNat ++ l ++ t.drop b.toNat) ∧
      Holds r (t.take a.toNat ++ l ++ t.drop b.toNat) := by
  obtain ⟨a, rfl⟩ : ∃ k : Nat, a = k := ⟨a.toNat, by omega⟩
  obtain ⟨b, rfl⟩ : ∃ k : Nat, b = k := ⟨b.toNat, by omega⟩
  have hl := h.1
  unfold replaceTail
  simp only [OM.bind_eq, OM.bind_read]
  rw [chk32_ok (by unfold INT_MIN; omega) (by unfold INT_MAX; omega), OM.lift_ok, OM.bind_ret]
  obtain ⟨s', h1, ⟨hl', hc', rest, hm'⟩, h2⟩ := ensure_ok h (n := s.len + l.length - ((b : Int) - (a : Int))) (by omega)
  have hlen : t.length ≤ s'.mem.length := by rw [hm']; simp
  rw [OM.bind_of_ret h1, OM.bind_read, hl', show (b : Int) + l.length - ((b : Int) - (a : Int)) = ((a + l.length : Nat) : Int) by omega,
    show (t.length : Int) - (b : Int) = ((t.length - b : Nat) : Int) by omega,
    Block.move_of _ _ _ _ (by omega) (by omega), OM.lift_ok, OM.bind_ret]
  have ht := take_mem t rest a (by omega)
  have hd := slice_mem t rest b (by omega)
  rw [← hm'] at ht hd
  have hX : s'.mem.take (a + l.length) ++ (s'.mem.drop b).take (t.length - b) ++ s'.mem.drop (a + l.length + (t.length - b)) =
      s'.mem.take (a + l.length) ++ ((t.drop b).map some ++ s'.mem.drop (a + l.length + (t.length - b))) := by
    rw [hd, List.append_assoc]
  have hT : (s'.mem.take (a + l.length)).length = a + l.length := by simp; omega
  rw [hX]
  have hcp : Block.copyIn (s'.mem.take (a + l.length) ++ ((t.drop b).map some ++ s'.mem.drop (a + l.length + (t.length - b)))) a l l.length =
      .ok ((t.take a).map some ++ l.map some ++ ((t.drop b).map some ++ s'.mem.drop (a + l.length + (t.length - b)))) := by
    unfold Block.copyIn
    by_cases hz : l.length = 0
    · rw [if_pos (by omega)]
      have : l = [] := List.length_eq_zero_iff.mp hz
      subst this
      simp only [List.length_nil, Nat.add_zero, List.map_nil, List.append_nil, ht]
    · rw [if_neg (by omega), if_pos (by simp only [List.length_append, List.length_map, List.length_drop, hT]; omega)]
      rw [show ((l.length : Int).toNat) = l.length by omega, show ((a : Int).toNat) = a by omega,
        show ((a : Int) + (l.length : Int)).toNat = a + l.length by omega,
        List.take_append_of_le_length (by rw [hT]; omega), List.take_take, Nat.min_eq_left (by omega), ht,
        List.drop_append_of_le_length (by rw [hT]; omega), List.drop_eq_nil_of_le (by rw [hT]; omega), List.nil_append,
        List.take_append_of_le_length (Nat.le_refl _), List.take_length]
  rw [hcp, OM.lift_ok, OM.bind_ret, OM.bind_write]
  have hh : Holds { s' with mem := (t.take a).map some ++ l.map some ++ ((t.drop b).map some ++ s'.mem.drop (a + l.length + (t.length - b))),
                            len := s.len + l.length - ((b : Int) - (a : Int)) } (t.take a ++ l ++ t.drop b) := by
    refine ⟨?_, ?_, s'.mem.drop (a + l.length + (t.length - b)), ?_⟩
    · simp; omega
    · show s'.cap = _
      simp only [List.length_append, List.length_map, List.length_take, List.length_drop]; omega
    · simp
  obtain ⟨r, hr, hrr⟩ := returnThis_ok hh
  exact ⟨_, r, hr, hh, hrr⟩

/-! ## reverse -/

theorem wr_text (t : List Byte) (rest : Block) (i : Nat) (c : Byte) (h : i < t.length) :
    Block.wr (t.map some ++ rest) i c = .ok ((t.set i c).map some ++ rest) := by
  rw [Block.wr_of _ _ _ (by simp; omega)]
  congr 1
  rw [show ((i : Int).toNat) = i by omega, List.set_append_left _ _ (by simpa using h), List.map_set]

theorem swap_ok (t : List Byte) (rest : Block) (i j : Nat) (hi : i < t.length) (hj : j < t.length) :
    swap (t.map some ++ rest) i j = .ok (((t.set i t[j]).set j t[i]).map some ++ rest) := by
  unfold swap
  simp only [Outcome.bind_eq]
  rw [Block.rd_of _ _ _ (by omega), Outcome.bind_ok, Block.rd_of _ _ _ (by omega), Outcome.bind_ok]
  rw [wr_text _ _ _ _ (by omega), Outcome.bind_ok, wr_text _ _ _ _ (by simp; omega)]
  rfl

theorem anySurrogate_ok (t : List Byte) (rest : Block) (i j : Nat) (hi : i < t.length) (hj : j < t.length) :
    anySurrogate (t.map some ++ rest) i j = .ok false := by
  unfold anySurrogate
  simp only [Outcome.bind_eq]
  rw [Block.rd_of _ _ _ (by omega), Outcome.bind_ok, Block.rd_of _ _ _ (by omega), Outcome.bind_ok,
    (Character.C65_no_surrogates _).2.2, (Character.C65_no_surrogates _).2.2]
  rfl

/-- `u` is `t` with its outer `k` characters on each side reversed. -/
def Half (t u : List Byte) (k : Nat) : Prop :=
  u.length = t.length ∧ ∀ x, x < t.length → u[x]? = if x < k ∨ t.length - k ≤ x then t[t.length - 1 - x]? else t[x]?

theorem Half.swap {t u : List Byte} {k : Nat} (h : Half t u k) (hk : 2 * (k + 1) ≤ t.length) :
    Half t ((u.set k (u[t.length - 1 - k]'(by have := h.1; omega))).set (t.length - 1 - k) (u[k]'(by have := h.1; omega))) (k + 1) := by
  obtain ⟨h1, h2⟩ := h
  refine ⟨by simp [h1], ?_⟩
  intro x hx
  have ha := h2 (t.length - 1 - k) (by omega)
  have hb := h2 k (by omega)
  rw [if_neg (by omega), List.getElem?_eq_getElem (by omega)] at ha hb
  have hc := h2 x hx
  rw [List.getElem?_set, List.getElem?_set]
  by_cases hxa : t.length - 1 - k = x
  · subst hxa
    rw [if_pos rfl, if_pos (by simp; omega), if_pos (by omega), show t.length - 1 - (t.length - 1 - k) = k by omega]
    exact hb
  · rw [if_neg hxa]
    by_cases hxk : k = x
    · subst hxk
      rw [if_pos rfl, if_pos (by omega), if_pos (by omega)]
      exact ha
    · rw [if_neg hxk, hc]
      by_cases hcond : x < k ∨ t.length - k ≤ x
      · rw [if_pos hcond, if_pos (by omega)]
      · rw [if_neg hcond, if_neg (by omega)]

theorem reverseLoop_ok (t : List Byte) (rest : Block) (n k : Nat) (u : List Byte) (h : Half t u k) (hn : 2 * (k + n) ≤ t.length) :
    ∃ u', reverseLoop t.length n k (u.map some ++ rest, false) = .ok (u'.map some ++ rest, false) ∧ Half t u' (k + n) := by
  induction n generalizing k u with
  | zero => exact ⟨u, rfl, h⟩
  | succ n ih =>
    unfold reverseLoop
    simp only [Outcome.bind_eq]
    have h1 := h.1
    rw [show (t.length : Int) - 1 - (k : Int) = ((t.length - 1 - k : Nat) : Int) by omega,
      swap_ok _ _ _ _ (by omega) (by omega), Outcome.bind_ok, anySurrogate_ok _ _ _ _ (by simp; omega) (by simp; omega),
      Outcome.bind_ok, show (k : Int) + 1 = ((k + 1 : Nat) : Int) by omega]
    obtain ⟨u', hu, hh⟩ := ih (k + 1) _ (h.swap (by omega)) (by omega)
    exact ⟨u', hu, by rw [show k + (n + 1) = k + 1 + n by omega]; exact hh⟩

theorem Half.full {t u : List Byte} {k : Nat} (h : Half t u k) (hk : k = t.length / 2) : u = t.reverse := by
  obtain ⟨h1, h2⟩ := h
  apply List.ext_getElem?
  intro x
  by_cases hx : x < t.length
  · rw [h2 x hx, List.getElem?_reverse hx]
    split
    · rfl
    · rw [show t.length - 1 - x = x by omega]
  · rw [List.getElem?_eq_none (by omega), List.getElem?_eq_none (by simp; omega)]

theorem reverse_ok {s : SB} {t : List Byte} (h : Holds s t) :
    ∃ s' r, reverse s = .ret s' r ∧ Holds s' t.reverse ∧ Holds r t.reverse := by
  obtain ⟨hl, hc, rest, hm⟩ := h
  unfold reverse
  simp only [OM.bind_eq, OM.bind_read]
  obtain ⟨u, hu, hh⟩ := reverseLoop_ok t rest (t.length / 2) 0 t ⟨rfl, fun x hx => by rw [if_neg (by omega)]⟩ (by omega)
  have hd : ((s.len).tdiv 2).toNat = t.length / 2 := by
    rw [hl, Int.tdiv_eq_ediv_of_nonneg (by omega)]; omega
  rw [hd, hl, hm, show (0 : Int) = ((0 : Nat) : Int) from rfl, hu, OM.lift_ok, OM.bind_ret, if_neg (by simp), OM.lift_ok,
    OM.bind_ret, OM.bind_write]
  have hrev := hh.full (by omega)
  subst hrev
  have hH : Holds { s with mem := t.reverse.map some ++ rest } t.reverse := by
    refine ⟨?_, ?_, rest, rfl⟩
    · simp [hl]
    · show s.cap = _
      rw [hc, hm]; simp
  obtain ⟨r, hr, hrr⟩ := returnThis_ok hH
  refine ⟨_, r, ?_, hH, hrr⟩
  rw [← hr]
  simp only [hl, hm]

end Verif.StringBuilder
