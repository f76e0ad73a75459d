import Verif.Wrappers.Spec
import Verif.NumText.Props
/-! # Lemmas about number objects -/
namespace Verif.Wrappers

open Verif.JString Verif.NumText

/-! ## Decimal text -/

theorem digit_char (d : Nat) (h : d < 10) : digitChar d = chr (Nat.digitChar d) := by
  have : ∀ d : Fin 10, digitChar d.val = chr (Nat.digitChar d.val) := by decide
  exact this ⟨d, h⟩

theorem digits_toDigits : ∀ fuel n, n < 2 ^ fuel → 0 < fuel → digits 10 fuel n = (Nat.toDigits 10 n).map chr := by
  intro fuel
  induction fuel with
  | zero => intro n _ h; omega
  | succ f ih =>
    intro n hn _
    unfold digits
    by_cases h : n < 10
    · rw [if_pos h, Nat.toDigits_of_lt_base h, digit_char n h]; rfl
    · rw [if_neg h, Nat.toDigits_of_base_le (by omega) (by omega)]
      have hf : 0 < f := by
        rcases f with _ | f
        · simp at hn; omega
        · omega
      rw [ih (n / 10) (by rw [Nat.pow_succ] at hn; omega) hf, digit_char _ (Nat.mod_lt _ (by omega))]
      simp

theorem natText (n : Nat) : txt (ToString.toString n) = (Nat.toDigits 10 n).map chr := by
  show (Nat.repr n).toList.map chr = _
  rw [Nat.toList_repr]

theorem fmt_decimal (v : Int) (h : v.natAbs < 2 ^ 64) : fmt v = decimal v := by
  unfold fmt decimal
  have e := digits_toDigits 64 v.natAbs h (by omega)
  cases v with
  | ofNat n =>
    rw [if_neg (by simp), e]
    show _ = txt (ToString.toString n)
    rw [natText]; rfl
  | negSucc n =>
    rw [if_pos (by omega), e]
    show _ = txt ("-" ++ Nat.repr (n + 1))
    unfold txt
    rw [String.toList_append, List.map_append, Nat.toList_repr]; rfl

theorem digits_signed (v : Int) (h : v.natAbs < 2 ^ 64) : SignedCanonical 10 (fmt v) v := by
  unfold fmt
  have e := digits_canonical (b := 10) (by omega) (by omega) (fuel := 64) h (by omega)
  by_cases hv : v < 0
  · rw [if_pos hv]; exact Or.inr ⟨hv, _, rfl, e⟩
  · rw [if_neg hv]; exact Or.inl ⟨by omega, e⟩

theorem fmt_nul (v : Int) (h : v.natAbs < 2 ^ 64) : (0 : Byte) ∉ fmt v := by
  unfold fmt
  have e := (digits_canonical (b := 10) (by omega) (by omega) (fuel := 64) h (by omega)).1.nul
  by_cases hv : v < 0
  · rw [if_pos hv, List.mem_cons]
    rintro (h | h)
    · exact absurd h (by decide)
    · exact e h
  · rw [if_neg hv]; exact e

/-! ## Arithmetic -/

theorem range_natAbs {c : Cls} {v : Int} (h : c.Range v) : v.natAbs < 2 ^ 64 := by
  cases c <;> (unfold Cls.Range at h; omega)

theorem conv_keep (c : Cls) (v : Int) : conv c v = c.keep v := by
  cases c
  · show ((BitVec.ofInt 8 v).toNat : Int) = v % 256
    rw [BitVec.toNat_ofInt]
    omega
  · show (BitVec.ofInt 16 v).toInt = v.bmod 65536
    rw [BitVec.toInt_ofInt]
  · rfl
  · rfl

theorem keep_small (c : Cls) (hc : c = .bytes ∨ c = .short) (v : Int) : c.Range (c.keep v) := by
  rcases hc with rfl | rfl
  · show 0 ≤ v % 256 ∧ v % 256 ≤ 255
    omega
  · show -32768 ≤ v.bmod 65536 ∧ v.bmod 65536 ≤ 32767
    have h1 := Int.le_bmod (x := v) (m := 65536) (by omega)
    have h2 := Int.bmod_lt (x := v) (m := 65536) (by omega)
    omega

theorem tdiv_abs (a b : Int) : (a.tdiv b).natAbs ≤ a.natAbs := by
  rw [Int.natAbs_tdiv]
  exact Nat.div_le_self _ _

theorem tmod_abs (a b : Int) : (a.tmod b).natAbs ≤ a.natAbs := by
  rw [Int.natAbs_tmod]
  exact Nat.mod_le _ _

theorem mul_abs {a b : Int} {n : Nat} (ha : a.natAbs ≤ n) (hb : b.natAbs ≤ n) : (a * b).natAbs ≤ n * n := by
  rw [Int.natAbs_mul]
  exact Nat.mul_le_mul ha hb

theorem expr_small {c : Cls} (hc : c = .bytes ∨ c = .short) {x : Int} (h : x.natAbs ≤ 32768 * 32768) : expr c x = .ok x := by
  have : expr c x = chk32 x := by rcases hc with rfl | rfl <;> rfl
  rw [this]
  exact chk32_ok (by unfold INT_MIN; omega) (by unfold INT_MAX; omega)

theorem expr_large {c : Cls} (hc : c = .integer ∨ c = .long) {x : Int} (h : c.Range x) : expr c x = .ok x := by
  rcases hc with rfl | rfl
  · have h' : -2147483648 ≤ x ∧ x ≤ 2147483647 := h
    exact chk32_ok (by unfold INT_MIN; omega) (by unfold INT_MAX; omega)
  · have h' : -9223372036854775808 ≤ x ∧ x ≤ 9223372036854775807 := h
    exact if_pos (by omega)

theorem range_small {c : Cls} (hc : c = .bytes ∨ c = .short) {v : Int} (h : c.Range v) : v.natAbs ≤ 32768 := by
  rcases hc with rfl | rfl
  · have h' : 0 ≤ v ∧ v ≤ 255 := h
    omega
  · have h' : -32768 ≤ v ∧ v ≤ 32767 := h
    omega

/-- What the operators compute. -/
def expected (c : Cls) : Option Int → Outcome Int
  | some r => .ok r
  | none => zeroDivisor c

theorem compute_small {c : Cls} (hc : c = .bytes ∨ c = .short) (o : Arith) {a b : Int} (ha : c.Range a) (hb : c.Range b) :
    compute c o a b = expected c (o.exact a b) := by
  have ha' := range_small hc ha
  have hb' := range_small hc hb
  have hd := tdiv_abs a b
  cases o
  · exact expr_small hc (by omega)
  · exact expr_small hc (by omega)
  · exact expr_small hc (mul_abs ha' hb')
  · show (if b = 0 then zeroDivisor c else expr c (a.tdiv b)) = expected c (if b = 0 then none else some (a.tdiv b))
    by_cases h : b = 0
    · rw [if_pos h, if_pos h]; rfl
    · rw [if_neg h, if_neg h]; exact expr_small hc (by omega)
  · show (if b = 0 then zeroDivisor c else (expr c (a.tdiv b)).bind fun _ => .ok (a.tmod b)) = expected c (if b = 0 then none else some (a.tmod b))
    by_cases h : b = 0
    · rw [if_pos h, if_pos h]; rfl
    · rw [if_neg h, if_neg h, expr_small hc (by omega)]; rfl

theorem compute_large {c : Cls} (hc : c = .integer ∨ c = .long) (o : Arith) {a b : Int} (hf : Fits c o a b) :
    compute c o a b = expected c (o.exact a b) := by
  cases o
  · exact expr_large hc (hf _ rfl)
  · exact expr_large hc (hf _ rfl)
  · exact expr_large hc (hf _ rfl)
  · show (if b = 0 then zeroDivisor c else expr c (a.tdiv b)) = expected c (if b = 0 then none else some (a.tdiv b))
    by_cases h : b = 0
    · rw [if_pos h, if_pos h]; rfl
    · rw [if_neg h, if_neg h]
      exact expr_large hc (hf _ (if_neg h))
  · show (if b = 0 then zeroDivisor c else (expr c (a.tdiv b)).bind fun _ => .ok (a.tmod b)) = expected c (if b = 0 then none else some (a.tmod b))
    by_cases h : b = 0
    · rw [if_pos h, if_pos h]; rfl
    · rw [if_neg h, if_neg h, expr_large hc (hf h)]; rfl

theorem range_of_abs {c : Cls} (hc : c = .integer ∨ c = .long) {a x : Int} (ha : c.Range a) (h : x.natAbs ≤ a.natAbs)
    (hx : x.natAbs < a.natAbs ∨ 0 ≤ a ∨ x ≤ 0) (hs : 0 ≤ a → 0 ≤ x) : c.Range x := by
  rcases hc with rfl | rfl <;> (unfold Cls.Range at ha ⊢; omega)

theorem fits_range {c : Cls} (hc : c = .integer ∨ c = .long) (o : Arith) {a b r : Int} (ha : c.Range a) (hf : Fits c o a b)
    (hr : o.exact a b = some r) : c.Range r := by
  cases o
  case mod =>
    have hr' : (if b = 0 then none else some (a.tmod b)) = some r := hr
    by_cases h : b = 0
    · rw [if_pos h] at hr'; cases hr'
    · rw [if_neg h] at hr'
      cases hr'
      have h1 := tmod_abs a b
      have h2 : 0 ≤ a → 0 ≤ a.tmod b := fun h => Int.tmod_nonneg b h
      have h3 : a ≤ 0 → a.tmod b ≤ 0 := by
        intro h
        have := Int.tmod_nonneg (a := -a) b (by omega)
        rw [Int.neg_tmod] at this
        omega
      exact range_of_abs hc ha h1 (by omega) h2
  all_goals exact hf r hr

theorem compute_exact {c : Cls} (o : Arith) {a b : Int} (ha : c.Range a) (hb : c.Range b)
    (hf : (c = .integer ∨ c = .long) → Fits c o a b) : compute c o a b = expected c (o.exact a b) := by
  cases c
  · exact compute_small (Or.inl rfl) o ha hb
  · exact compute_small (Or.inr rfl) o ha hb
  · exact compute_large (Or.inl rfl) o (hf (Or.inl rfl))
  · exact compute_large (Or.inr rfl) o (hf (Or.inr rfl))

theorem keep_range {c : Cls} (o : Arith) {a b r : Int} (ha : c.Range a) (hf : (c = .integer ∨ c = .long) → Fits c o a b)
    (hr : o.exact a b = some r) : c.Range (c.keep r) := by
  cases c
  · exact keep_small _ (Or.inl rfl) r
  · exact keep_small _ (Or.inr rfl) r
  · exact fits_range (Or.inl rfl) o ha (hf (Or.inl rfl)) hr
  · exact fits_range (Or.inr rfl) o ha (hf (Or.inr rfl)) hr

/-! ## Variables -/

/-- The objects hold the integers of the specification, and their texts. -/
def Match (c : Cls) (s : Vars) (t : Ints) : Prop := ∀ i, s i = ⟨t i, fmt (t i)⟩ ∧ c.Range (t i)

theorem match_set {c : Cls} {s : Vars} {t : Ints} (h : Match c s t) (i : Nat) {v : Int} (hv : c.Range v) :
    Match c (set s i ⟨v, fmt v⟩) (put t i v) := by
  intro j
  unfold set put
  by_cases hj : j = i
  · rw [if_pos hj, if_pos hj]; exact ⟨rfl, hv⟩
  · rw [if_neg hj, if_neg hj]; exact h j

theorem match_start (c : Cls) : Match c start (fun _ => 0) := by
  intro i
  exact ⟨rfl, by show c.Range 0; cases c <;> (unfold Cls.Range; constructor <;> decide)⟩

/-- A zero divisor is answered by an exception or does not occur. -/
def Answered (c : Cls) (op : Op) (t : Ints) : Prop := c = .bytes ∨ c = .integer ∨ NonZero op t

theorem expected_none {c : Cls} (h : c = .bytes ∨ c = .integer) : expected c none = .throw .arithmetic := by
  rcases h with rfl | rfl <;> rfl

theorem step_binary {c : Cls} {s : Vars} {t : Ints} (h : Match c s t) (o : Arith) (i j k : Nat)
    (hf : (c = .integer ∨ c = .long) → Fits c o (t j) (t k)) (hz : c = .bytes ∨ c = .integer ∨ ∃ r, o.exact (t j) (t k) = some r) :
    ∃ s', Match c s' (result c t i (o.exact (t j) (t k))).1 ∧ (step c (.binary o i j k) s).Is s' (result c t i (o.exact (t j) (t k))).2 := by
  have hc := compute_exact o (h j).2 (h k).2 hf
  cases hr : o.exact (t j) (t k) with
  | some r =>
    rw [hr] at hc
    refine ⟨_, match_set h i (keep_range o (h j).2 hf hr), ?_⟩
    have ho : operate c o (s j) (s k) = .ok (make (c.keep r)) := by
      unfold operate
      rw [(h j).1, (h k).1]
      simp only [hc, expected, Outcome.bind_eq, Outcome.bind_ok, conv_keep]
    show (store s i ((operate c o (s j) (s k)).bind _)).Is _ _
    rw [ho]
    rfl
  | none =>
    rw [hr] at hc
    have hz' : c = .bytes ∨ c = .integer := by
      rcases hz with h | h | ⟨r, h⟩
      · exact Or.inl h
      · exact Or.inr h
      · rw [hr] at h; cases h
    rw [expected_none hz'] at hc
    refine ⟨s, h, ?_⟩
    have ho : operate c o (s j) (s k) = .throw .arithmetic := by
      unfold operate
      rw [(h j).1, (h k).1]
      simp only [hc, Outcome.bind_eq, Outcome.bind_throw]
    show (store s i ((operate c o (s j) (s k)).bind _)).Is _ _
    rw [ho]
    rfl

theorem step_update {c : Cls} (hl : c ≠ .long) {s : Vars} {t : Ints} (h : Match c s t) (o : Arith) (i j : Nat)
    (hf : (c = .integer ∨ c = .long) → Fits c o (t i) (t j)) (hz : c = .bytes ∨ c = .integer ∨ ∃ r, o.exact (t i) (t j) = some r) :
    ∃ s', Match c s' (result c t i (o.exact (t i) (t j))).1 ∧ (step c (.update o i j) s).Is s' (result c t i (o.exact (t i) (t j))).2 := by
  have hc := compute_exact o (h i).2 (h j).2 hf
  cases hr : o.exact (t i) (t j) with
  | some r =>
    rw [hr] at hc
    refine ⟨_, match_set h i (keep_range o (h i).2 hf hr), ?_⟩
    have ho : compound c o (s i) (s j) = .ok ⟨c.keep r, fmt (c.keep r)⟩ := by
      unfold compound
      rw [(h i).1, (h j).1]
      simp only [hc, expected, Outcome.bind_eq, Outcome.bind_ok, conv_keep]
    show (store s i (compound c o (s i) (s j))).Is _ _
    rw [ho]
    rfl
  | none =>
    rw [hr] at hc
    have hz' : c = .bytes ∨ c = .integer := by
      rcases hz with h | h | ⟨r, h⟩
      · exact Or.inl h
      · exact Or.inr h
      · rw [hr] at h; cases h
    rw [expected_none hz'] at hc
    refine ⟨s, h, ?_⟩
    have ho : compound c o (s i) (s j) = .throw .arithmetic := by
      unfold compound
      rw [(h i).1, (h j).1]
      simp only [hc, Outcome.bind_eq, Outcome.bind_throw]
    show (store s i (compound c o (s i) (s j))).Is _ _
    rw [ho]
    rfl

theorem toString_fmt {c : Cls} {v : Int} (h : c.Range v) : toString ⟨v, fmt v⟩ = decimal v := by
  unfold toString
  rw [cstr_eq_self (fmt_nul v (range_natAbs h)), fmt_decimal v (range_natAbs h)]

theorem exists_of_nonzero_binary {o : Arith} {i j k : Nat} {t : Ints} (h : NonZero (.binary o i j k) t) : ∃ r, o.exact (t j) (t k) = some r := by
  cases o
  case div => exact ⟨_, if_neg h⟩
  case mod => exact ⟨_, if_neg h⟩
  all_goals exact ⟨_, rfl⟩

theorem exists_of_nonzero_update {o : Arith} {i j : Nat} {t : Ints} (h : NonZero (.update o i j) t) : ∃ r, o.exact (t i) (t j) = some r := by
  cases o
  case div => exact ⟨_, if_neg h⟩
  case mod => exact ⟨_, if_neg h⟩
  all_goals exact ⟨_, rfl⟩

theorem compare_spec {c : Cls} (a b : Int) : compareTo c ⟨a, fmt a⟩ ⟨b, fmt b⟩ = if c = .bytes then a - b else if a < b then -1 else if a = b then 0 else 1 := by
  have key : (if a < b then (-1 : Int) else if a > b then 1 else 0) = if a < b then -1 else if a = b then 0 else 1 := by
    split
    · rfl
    · by_cases h : a = b
      · rw [if_pos h, if_neg (by omega)]
      · rw [if_neg h, if_pos (by omega)]
  cases c
  · rfl
  all_goals exact key

/-- One call. -/
theorem step_spec (c : Cls) (op : Op) (s : Vars) (t : Ints) (h : Match c s t) (hh : Has c op) (he : Exact c op t) (ha : Answered c op t)
    (hp : c = .long → Plain op) : ∃ s', Match c s' (spec c op t).1 ∧ (step c op s).Is s' (spec c op t).2 := by
  cases op with
  | new i v => exact ⟨_, match_set h i he, rfl⟩
  | copy i j =>
    refine ⟨_, match_set h i (h j).2, ?_⟩
    show Res.ret _ _ = _
    unfold assign
    rw [(h j).1]
  | binary o i j k =>
    exact step_binary h o i j k he (by
      rcases ha with h | h | h
      · exact Or.inl h
      · exact Or.inr (Or.inl h)
      · exact Or.inr (Or.inr (exists_of_nonzero_binary h)))
  | update o i j =>
    exact step_update (fun e => hp e) h o i j he (by
      rcases ha with h | h | h
      · exact Or.inl h
      · exact Or.inr (Or.inl h)
      · exact Or.inr (Or.inr (exists_of_nonzero_update h)))
  | text i =>
    refine ⟨s, h, ?_⟩
    show Res.ret _ _ = _
    rw [(h i).1, toString_fmt (h i).2]
  | value i =>
    refine ⟨s, h, ?_⟩
    show Res.ret _ _ = _
    rw [(h i).1]
  | compare i j =>
    refine ⟨s, h, ?_⟩
    show Res.ret _ _ = _
    rw [(h i).1, (h j).1, compare_spec]
  | rel r i j =>
    refine ⟨s, h, ?_⟩
    show Res.ret _ _ = _
    rw [(h i).1, (h j).1]
    have e : relate r ⟨t i, fmt (t i)⟩ ⟨t j, fmt (t j)⟩ = r.holds (t i) (t j) := by
      cases r
      case ne =>
        show (!(t i == t j)) = decide (t i ≠ t j)
        by_cases h : t i = t j <;> simp [h]
      all_goals rfl
    rw [e]

end Verif.Wrappers
