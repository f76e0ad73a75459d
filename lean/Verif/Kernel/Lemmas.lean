import Verif.Kernel.Spec
/-!
# Lemmas about the kernel
-/
namespace Verif.Kernel

theorem asInt_id {n : Nat} (h : n < 2147483648) : asInt n = n := by
  unfold asInt
  omega

theorem asInt_neg {n : Nat} (h : 2147483648 ≤ n) (h' : n < 4294967296) : asInt n < 0 := by
  unfold asInt
  omega

/-! ### Arrays -/

theorem listStep_mono {α : Type u} (l : List α) (op : ArrOp α) : l.length ≤ (listStep l op).1.length := by
  cases op with
  | push x => simp [listStep]
  | append m => simp [listStep]
  | get i => simp [listStep]
  | set i x => simp only [listStep]; split <;> simp
  | length => simp [listStep]

theorem listRun_mono {α : Type u} : ∀ (ops : List (ArrOp α)) (l : List α), l.length ≤ (listRun l ops).1.length
  | [], _ => Nat.le_refl _
  | op :: ops, l => Nat.le_trans (listStep_mono l op) (listRun_mono ops _)

theorem arrStep_eq {α : Type u} {a : KArr α} (ha : a.len = a.items.length) (op : ArrOp α)
    (h : (listStep a.items op).1.length < 2147483648) :
    (arrStep a op).2 = (listStep a.items op).2 ∧ (arrStep a op).1.items = (listStep a.items op).1 ∧
      (arrStep a op).1.len = (arrStep a op).1.items.length := by
  cases op with
  | push x => exact ⟨rfl, rfl, asInt_id h⟩
  | append m => exact ⟨rfl, rfl, asInt_id h⟩
  | get i =>
    refine ⟨?_, rfl, ha⟩
    simp only [arrStep, listStep, KArr.get, Arr.get]
    by_cases h0 : i < 0
    · rw [if_pos h0, dif_neg (by omega)]
    · rw [if_neg h0]
      by_cases h1 : i.toNat < a.items.length
      · rw [dif_pos ⟨by omega, h1⟩, List.getElem?_eq_getElem h1]
      · rw [dif_neg (by omega), List.getElem?_eq_none (by omega)]
  | set i x =>
    simp only [arrStep, listStep, KArr.set, Arr.set]
    by_cases h0 : i < 0
    · have h2 : ¬ (0 ≤ i ∧ i.toNat < a.items.length) := by omega
      simp only [if_pos h0, if_neg h2, Outcome.bind_throw]
      exact ⟨trivial, trivial, ha⟩
    · by_cases h1 : i.toNat < a.items.length
      · have h2 : 0 ≤ i ∧ i.toNat < a.items.length := by omega
        simp only [if_neg h0, if_pos h1, if_pos h2, Outcome.bind_ok]
        exact ⟨trivial, trivial, by rw [List.length_set]; exact ha⟩
      · have h2 : ¬ (0 ≤ i ∧ i.toNat < a.items.length) := by omega
        simp only [if_neg h0, if_neg h1, if_neg h2, Outcome.bind_throw]
        exact ⟨trivial, trivial, ha⟩
  | length => exact ⟨congrArg ArrRes.int ha, rfl, ha⟩

theorem arrRun_eq {α : Type u} : ∀ (ops : List (ArrOp α)) {a : KArr α}, a.len = a.items.length →
    (listRun a.items ops).1.length < 2147483648 →
    (arrRun a ops).2 = (listRun a.items ops).2 ∧ (arrRun a ops).1.items = (listRun a.items ops).1 ∧
      (arrRun a ops).1.len = (arrRun a ops).1.items.length
  | [], a, ha, _ => ⟨rfl, rfl, ha⟩
  | op :: ops, a, ha, h => by
    have h1 : (listRun (listStep a.items op).1 ops).1.length < 2147483648 := h
    have hm := listRun_mono ops (listStep a.items op).1
    obtain ⟨e1, e2, e3⟩ := arrStep_eq ha op (by omega)
    have ih := arrRun_eq ops e3 (by rw [e2]; exact h1)
    rw [e2] at ih
    exact ⟨by simp only [arrRun, listRun, e1, ih.1], ih.2.1, ih.2.2⟩

theorem readPtrs_ok {α : Type u} (l : List α) (rest : List (Option α)) :
    KArr.readPtrs (l.map some ++ none :: rest) = .ok l := by
  induction l with
  | nil => rfl
  | cons a l ih =>
    simp only [List.map_cons, List.cons_append, KArr.readPtrs, ih, Outcome.bind_ok]

theorem each_ok {α : Type u} {body : α → KArr α → KArr α} {l : List α} (hn : l.length < 2147483648)
    (hb : ∀ x b, b.items.take l.length = l → (body x b).items.take l.length = l) :
    ∀ (k : Nat) (fuel : Nat) (pos : Nat) (b : KArr α), pos + k = l.length → k < fuel →
      b.items.take l.length = l → ∃ a', KArr.each body l.length fuel pos b = .ok (a', l.drop pos)
  | 0, fuel, pos, b, hp, hf, _ => by
    obtain ⟨fuel, rfl⟩ : ∃ f, fuel = f + 1 := ⟨fuel - 1, by omega⟩
    have hp' : pos = l.length := by omega
    refine ⟨b, ?_⟩
    simp only [KArr.each]
    rw [if_pos (by omega), List.drop_of_length_le (by omega)]
  | k + 1, fuel, pos, b, hp, hf, hbl => by
    obtain ⟨fuel, rfl⟩ : ∃ f, fuel = f + 1 := ⟨fuel - 1, by omega⟩
    have hlt : pos < l.length := by omega
    have hlen : pos < b.items.length := by
      have := congrArg List.length hbl
      rw [List.length_take] at this
      omega
    have hget : b.get (pos : Int) = .ok l[pos] := by
      have h1 : b.items[pos] = l[pos] := by
        have : (b.items.take l.length)[pos]? = l[pos]? := by rw [hbl]
        rw [List.getElem?_take, if_pos hlt, List.getElem?_eq_getElem hlen, List.getElem?_eq_getElem hlt] at this
        exact Option.some.inj this
      unfold KArr.get
      rw [Arr.get_nat hlen, h1]
    obtain ⟨a', ih⟩ := each_ok hn hb k fuel (pos + 1) (body l[pos] b) (by omega) (by omega) (hb _ _ hbl)
    refine ⟨a', ?_⟩
    have hchk : chk32 ((pos : Int) + 1) = .ok ((pos : Int) + 1) :=
      chk32_ok (by unfold INT_MIN; omega) (by unfold INT_MAX; omega)
    simp only [KArr.each]
    rw [if_neg (by omega), hget, Outcome.bind_ok, hchk, Outcome.bind_ok]
    have hcast : ((pos : Int) + 1) = ((pos + 1 : Nat) : Int) := by omega
    rw [hcast, ih, Outcome.bind_ok, ← List.getElem_cons_drop hlt]

theorem each_huge {α : Type u} {e : Int} (he : e < 0) {b : KArr α} (hb : 2147483648 ≤ b.items.length) :
    ∀ (k : Nat) (fuel : Nat) (pos : Nat), pos + k = 2147483647 → k < fuel →
      KArr.each (fun _ b => b) e fuel pos b = .ub
  | 0, fuel, pos, hp, hf => by
    obtain ⟨fuel, rfl⟩ : ∃ f, fuel = f + 1 := ⟨fuel - 1, by omega⟩
    have hchk : chk32 ((pos : Int) + 1) = .ub := by
      unfold chk32
      rw [if_neg (by unfold INT_MIN INT_MAX; omega)]
    simp only [KArr.each]
    rw [if_neg (by omega)]
    unfold KArr.get
    rw [Arr.get_nat (by omega), Outcome.bind_ok, hchk, Outcome.bind_ub]
  | k + 1, fuel, pos, hp, hf => by
    obtain ⟨fuel, rfl⟩ : ∃ f, fuel = f + 1 := ⟨fuel - 1, by omega⟩
    have hchk : chk32 ((pos : Int) + 1) = .ok ((pos : Int) + 1) :=
      chk32_ok (by unfold INT_MIN; omega) (by unfold INT_MAX; omega)
    have hcast : ((pos : Int) + 1) = ((pos + 1 : Nat) : Int) := by omega
    simp only [KArr.each]
    rw [if_neg (by omega)]
    unfold KArr.get
    rw [Arr.get_nat (by omega), Outcome.bind_ok, hchk, Outcome.bind_ok, hcast,
      each_huge he hb k fuel (pos + 1) (by omega) (by omega), Outcome.bind_ub]

/-! ### Sets -/

section
variable {α : Type u} {lt : α → α → Bool}

theorem same_refl (h : WeakOrder lt) (x : α) : same lt x x := ⟨h.irrefl x, h.irrefl x⟩

theorem lt_asymm (h : WeakOrder lt) {x y : α} (hxy : lt x y = true) : lt y x = false := by
  cases hyx : lt y x with
  | false => rfl
  | true =>
    have := h.trans x y x hxy hyx
    rw [h.irrefl] at this
    cases this

theorem same_lt_left (h : WeakOrder lt) {x y z : α} (hs : same lt x y) (hxz : lt x z = true) :
    lt y z = true := by
  rcases h.weak x y z hxz with h' | h'
  · rw [hs.1] at h'; cases h'
  · exact h'

theorem same_lt_right (h : WeakOrder lt) {x y z : α} (hs : same lt x y) (hzx : lt z x = true) :
    lt z y = true := by
  rcases h.weak z y x hzx with h' | h'
  · exact h'
  · rw [hs.2] at h'; cases h'

theorem mem_insert {x y : α} : ∀ {l : List α}, y ∈ insert lt x l → y = x ∨ y ∈ l
  | [], h => by
    simp only [insert, List.mem_singleton] at h
    exact .inl h
  | z :: l, h => by
    simp only [insert] at h
    split at h
    · rcases List.mem_cons.mp h with h | h
      · exact .inl h
      · exact .inr h
    · split at h
      · rcases List.mem_cons.mp h with h | h
        · exact .inr (h ▸ List.mem_cons_self)
        · rcases mem_insert h with h | h
          · exact .inl h
          · exact .inr (List.mem_cons_of_mem _ h)
      · exact .inr h

theorem mem_insert_of {x y : α} : ∀ {l : List α}, y ∈ l → y ∈ insert lt x l
  | z :: l, h => by
    simp only [insert]
    split
    · exact List.mem_cons_of_mem _ h
    · split
      · rcases List.mem_cons.mp h with h | h
        · exact h ▸ List.mem_cons_self
        · exact List.mem_cons_of_mem _ (mem_insert_of h)
      · exact h

theorem insert_has (h : WeakOrder lt) (x : α) : ∀ (l : List α), ∃ y ∈ insert lt x l, same lt x y
  | [] => ⟨x, List.mem_cons_self, same_refl h x⟩
  | z :: l => by
    simp only [insert]
    split
    · exact ⟨x, List.mem_cons_self, same_refl h x⟩
    · split
      · obtain ⟨y, hy, hs⟩ := insert_has h x l
        exact ⟨y, List.mem_cons_of_mem _ hy, hs⟩
      · rename_i h1 h2
        exact ⟨z, List.mem_cons_self, by simpa using h1, by simpa using h2⟩

theorem insert_sorted (h : WeakOrder lt) (x : α) : ∀ {l : List α}, l.Pairwise (fun a b => lt a b = true) →
    (insert lt x l).Pairwise (fun a b => lt a b = true)
  | [], _ => List.pairwise_singleton ..
  | z :: l, hl => by
    obtain ⟨hz, hl'⟩ := List.pairwise_cons.mp hl
    simp only [insert]
    split
    · rename_i hxz
      refine List.pairwise_cons.mpr ⟨fun y hy => ?_, hl⟩
      rcases List.mem_cons.mp hy with hy | hy
      · rw [hy]; exact hxz
      · exact h.trans x z y hxz (hz y hy)
    · split
      · rename_i hzx
        refine List.pairwise_cons.mpr ⟨fun y hy => ?_, insert_sorted h x hl'⟩
        rcases mem_insert hy with hy | hy
        · rw [hy]; exact hzx
        · exact hz y hy
      · exact hl

/-- An element that has an equal in the set is not inserted. -/
theorem insert_not_new (h : WeakOrder lt) {x y : α} : ∀ {l : List α},
    l.Pairwise (fun a b => lt a b = true) → y ∈ l → same lt x y → insert lt x l = l
  | z :: l, hl, hy, hs => by
    obtain ⟨hz, hl'⟩ := List.pairwise_cons.mp hl
    simp only [insert]
    rcases List.mem_cons.mp hy with hy | hy
    · subst hy
      rw [hs.1, hs.2]
      rfl
    · have h1 := hz y hy
      have h2 : lt z x = true := same_lt_right h ⟨hs.2, hs.1⟩ h1
      rw [lt_asymm h h2, if_neg (by simp), h2, if_pos rfl, insert_not_new h hl' hy hs]

/-- The invariant of a set: sorted, of the elements added, the first of each kind. -/
structure SetInv (lt : α → α → Bool) (s l : List α) : Prop where
  sorted : s.Pairwise (fun a b => lt a b = true)
  all : ∀ x ∈ l, ∃ y ∈ s, same lt x y
  first : ∀ y ∈ s, ∃ l₁ l₂, l = l₁ ++ y :: l₂ ∧ ∀ x ∈ l₁, ¬ same lt x y

theorem setInv_add (h : WeakOrder lt) {s l : List α} (hs : SetInv lt s l) (x : α) :
    SetInv lt (insert lt x s) (l ++ [x]) := by
  refine ⟨insert_sorted h x hs.sorted, fun z hz => ?_, fun y hy => ?_⟩
  · rcases List.mem_append.mp hz with hz | hz
    · obtain ⟨y, hy, hsy⟩ := hs.all z hz
      exact ⟨y, mem_insert_of hy, hsy⟩
    · rw [List.mem_singleton.mp hz]
      exact insert_has h x s
  · by_cases hold : y ∈ s
    · obtain ⟨l₁, l₂, hl, hf⟩ := hs.first y hold
      exact ⟨l₁, l₂ ++ [x], by rw [hl]; simp, hf⟩
    · have hyx : y = x := (mem_insert hy).resolve_right hold
      subst hyx
      refine ⟨l, [], rfl, fun z hz hzs => ?_⟩
      obtain ⟨w, hw, hzw⟩ := hs.all z hz
      have hyw : same lt y w := by
        constructor
        · cases hyw : lt y w with
          | false => rfl
          | true =>
            have := same_lt_left h ⟨hzs.2, hzs.1⟩ hyw
            rw [hzw.1] at this; cases this
        · cases hwy : lt w y with
          | false => rfl
          | true =>
            have := same_lt_right h ⟨hzs.2, hzs.1⟩ hwy
            rw [hzw.2] at this; cases this
      rw [insert_not_new h hs.sorted hw hyw] at hy
      exact hold hy

theorem setInv_run (h : WeakOrder lt) : ∀ (ops : List (SetOp α)) {s l : List α}, SetInv lt s l →
    SetInv lt (setRun lt s ops).1 (added l ops)
  | [], _, _, hs => hs
  | op :: ops, s, l, hs => by
    cases op with
    | add x => exact setInv_run h ops (setInv_add h hs x)
    | clear =>
      exact setInv_run h ops ⟨List.Pairwise.nil, fun x hx => (nomatch hx), fun y hy => (nomatch hy)⟩
    | _ => exact setInv_run h ops hs

end

end Verif.Kernel
