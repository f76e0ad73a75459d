import Verif.LinkedQueue.Run
import Verif.LinkedQueue.EndModel
import Verif.LinkedQueue.EndSpec
/-!
# The destructor at work
-/
namespace Verif.LinkedQueue

variable {E : Type}

/-- The entry of an index that is not done leads to its block. -/
theorem blockOf_eq {x : Prod} {g : G E} (hi : HInv x g) (hr : Rest x g) {i b : Nat}
    (hb : g.blk (i / 32) = some b) : blockOf x i = some b := by
  have hne : g.blk (i / 32) ≠ none := by rw [hb]; simp
  have hw := hi.win _ hne
  have hc := hi.capPos x.cur (Nat.le_refl _)
  obtain ⟨r1, r2, r3, r4, r5⟩ := hr
  have ht : (x.hdrs x.cur).tail = ring x g x.cur (g.N - 1) := by
    rw [hi.tailOf x.cur (Nat.le_refl _), ring, r3]
    have : g.N + g.off x.cur + (x.hdrs x.cur).cap - 1 =
        g.N - 1 + g.off x.cur + (x.hdrs x.cur).cap := by omega
    rw [this, Nat.add_mod_right]
  have hk := hi.keys (i / 32) (g.N - 1) hne (by omega) (by omega)
  unfold blockOf
  have h1 : (x.hdrs x.cur).index (x.hdrs x.cur).tail = ent x g (g.N - 1) := by rw [ht]; rfl
  rw [h1, hk]
  simp only
  have h2 : ringPos (x.hdrs x.cur).cap (x.hdrs x.cur).tail (32 * (g.N - 1)) i =
      ring x g x.cur (i / 32) := by
    rw [ht]
    exact ringPos_eq hc rfl (by omega)
  rw [h2]
  have h3 := hi.val _ b hb
  unfold ent at h3
  rw [h3]

/-- What the loop needs of a producer. -/
structure Ends (x : Prod) (g : G E) : Prop where
  full : ∀ i, x.head ≤ i → i < x.tail → ∃ e, g.st i = .full e
  blk : ∀ i, x.head ≤ i → i < x.tail → ∃ b, g.blk (i / 32) = some b ∧ blockOf x i = some b
  inj : ∀ b b' y, g.blk b = some y → g.blk b' = some y → b = b'

/-- The slots of a producer's blocks hold what they should, from index `i` on. -/
def Holds (x : Prod) (g : G E) (i : Nat) (r : Ruin E) : Prop :=
  ∀ b y j, g.blk b = some y → j < 32 → i ≤ 32 * b + j → 32 * b + j < x.tail →
    (r.heap y).slots j = (g.st (32 * b + j)).held

theorem endLoop_ok {x : Prod} {g : G E} (hx : Ends x g) : ∀ (n i : Nat) (block : Option Nat)
    (r : Ruin E), i + n = x.tail → x.head ≤ i →
    (block = none ∨ 0 < i ∧ ∃ b, block = some b ∧ g.blk ((i - 1) / 32) = some b) →
    Holds x g i r →
    ∃ r' l, endLoop x n i block r = some r' ∧
      r'.dead.map some = r.dead.map some ++ (List.range' i n).map (fun j => (g.st j).held) ∧
      r'.free = l ++ r.free ∧ l.Nodup ∧
      (∀ y, y ∈ l ↔ ∃ b, (if block = none then i / 32 else (i - 1) / 32) ≤ b ∧
        b < (x.tail - 1) / 32 ∧ g.blk b = some y) ∧
      (∀ y j, j < 32 → (∀ b, g.blk b = some y → i ≤ 32 * b + j → ¬ 32 * b + j < x.tail) →
        (r'.heap y).slots j = (r.heap y).slots j) ∧
      (∀ b y j, j < 32 → g.blk b = some y → i ≤ 32 * b + j → 32 * b + j < x.tail →
        (r'.heap y).slots j = none)
  | 0, i, block, r, hn, hi, hb, hh => by
    refine ⟨r, [], rfl, by simp, rfl, List.nodup_nil, ?_, fun _ _ _ _ => rfl, ?_⟩
    · intro y
      constructor
      · intro h; cases h
      · rintro ⟨b, h1, h2, h3⟩
        split at h1 <;> omega
    · intro b y j _ _ h1 h2; omega
  | n + 1, i, block, r, hn, hi, hb, hh => by
    obtain ⟨e, he⟩ := hx.full i hi (by omega)
    obtain ⟨b, hb1, hb2⟩ := hx.blk i hi (by omega)
    -- the block
    obtain ⟨l0, r1, e1, f1, f2, f3, f4, f5⟩ : ∃ l0 r1, endBlock x i r block = some (b, r1) ∧
        r1.free = l0 ++ r.free ∧ r1.heap = r.heap ∧ r1.dead = r.dead ∧ l0.Nodup ∧
        ∀ y, y ∈ l0 ↔ ∃ b, (if block = none then i / 32 else (i - 1) / 32) ≤ b ∧
          b < i / 32 ∧ g.blk b = some y := by
      cases block with
      | none =>
        refine ⟨[], r, by simp [endBlock, hb2], rfl, rfl, rfl, List.nodup_nil, ?_⟩
        intro y
        constructor
        · intro h; cases h
        · rintro ⟨b, h1, h2, _⟩
          rw [if_pos rfl] at h1; omega
      | some o =>
        rcases hb with hb | ⟨h0, o', hb, ho⟩
        · cases hb
        cases hb
        by_cases hm : i % 32 = 0
        · refine ⟨[o], r.give o, by simp [endBlock, hb2, hm], rfl, rfl, rfl, by simp, ?_⟩
          intro y
          rw [if_neg (by simp)]
          simp only [List.mem_singleton]
          constructor
          · rintro rfl; exact ⟨_, Nat.le_refl _, by omega, ho⟩
          · rintro ⟨b', h1, h2, h3⟩
            have : b' = (i - 1) / 32 := by omega
            subst this
            rw [ho] at h3; exact (Option.some.inj h3).symm
        · have h5 : (i - 1) / 32 = i / 32 := by omega
          rw [h5, hb1] at ho
          cases ho
          refine ⟨[], r, by simp [endBlock, hm], rfl, rfl, rfl, List.nodup_nil, ?_⟩
          intro y
          rw [if_neg (by simp)]
          constructor
          · intro h; cases h
          · rintro ⟨b', h1, h2, _⟩; omega
    -- the element
    have hs : (r1.heap b).slots (i % 32) = some e := by
      rw [f2, hh (i / 32) b (i % 32) hb1 (Nat.mod_lt _ (by decide)) (by omega) (by omega),
        Nat.div_add_mod, he]
      rfl
    obtain ⟨r2, e2, k1, k2, k3⟩ : ∃ r2, r1.kill b i = some r2 ∧ r2.free = r1.free ∧
        r2.dead = r1.dead ++ [e] ∧
        r2.heap = upd r1.heap b { r1.heap b with slots := upd (r1.heap b).slots (i % 32) none } :=
      ⟨{ r1 with
          heap := upd r1.heap b { r1.heap b with slots := upd (r1.heap b).slots (i % 32) none }
          dead := r1.dead ++ [e] }, by unfold Ruin.kill; rw [hs], rfl, rfl, rfl⟩
    have keep : ∀ b' y j, g.blk b' = some y → j < 32 → 32 * b' + j ≠ i →
        (r2.heap y).slots j = (r.heap y).slots j := by
      intro b' y j h1 h2 h3
      rw [k3, ← f2]
      by_cases hy : y = b
      · subst hy
        have := hx.inj _ _ _ h1 hb1
        rw [upd_same]
        show upd (r1.heap y).slots (i % 32) none j = _
        rw [upd_ne _ _ (by omega)]
      · rw [upd_ne _ _ hy]
    have keep' : ∀ y j, y ≠ b → (r2.heap y).slots j = (r.heap y).slots j := by
      intro y j hy
      rw [k3, ← f2, upd_ne _ _ hy]
    obtain ⟨r', l, g1, g2, g3, g4, g5, g6, g7⟩ := endLoop_ok hx n (i + 1) (some b) r2 (by omega)
      (by omega) (.inr ⟨by omega, b, rfl, hb1⟩) (by
        intro b' y j h1 h2 h3 h4
        rw [keep b' y j h1 h2 (by omega)]
        exact hh b' y j h1 h2 (by omega) h4)
    rw [if_neg (by simp)] at g5
    refine ⟨r', l ++ l0, ?_, ?_, ?_, ?_, ?_, ?_, ?_⟩
    · rw [endLoop, e1]
      simp only
      rw [e2]
      exact g1
    · rw [g2, k2, f3, List.range'_succ]
      simp [he, St.held]
    · rw [g3, k1, f1, List.append_assoc]
    · rw [List.nodup_append]
      refine ⟨g4, f4, ?_⟩
      rintro y h1 _ h2 rfl
      obtain ⟨b1, h3, h4, h5⟩ := (g5 y).1 h1
      obtain ⟨b2, h6, h7, h8⟩ := (f5 y).1 h2
      have := hx.inj _ _ _ h5 h8
      omega
    · intro y
      rw [List.mem_append, g5, f5]
      constructor
      · rintro (⟨b', h1, h2, h3⟩ | ⟨b', h1, h2, h3⟩)
        · exact ⟨b', by split <;> omega, h2, h3⟩
        · exact ⟨b', h1, by omega, h3⟩
      · rintro ⟨b', h1, h2, h3⟩
        by_cases h4 : b' < i / 32
        · exact .inr ⟨b', h1, h4, h3⟩
        · exact .inl ⟨b', by omega, h2, h3⟩
    · intro y j hj h1
      rw [g6 y j hj (fun b' h2 h3 => h1 b' h2 (by omega))]
      by_cases hy : y = b
      · subst hy
        refine keep _ y j hb1 hj (fun h2 => ?_)
        exact h1 _ hb1 (by omega) (by omega)
      · exact keep' y j hy
    · intro b' y j hj h1 h2 h3
      by_cases h4 : 32 * b' + j = i
      · have h5 : i / 32 = b' := by omega
        have h6 : i % 32 = j := by omega
        obtain rfl : y = b := by rw [h5, h1] at hb1; exact Option.some.inj hb1
        rw [g6 y j hj (fun b2 h7 h8 => ?_)]
        · rw [k3, upd_same]
          show upd (r1.heap y).slots (i % 32) none j = none
          rw [h6, upd_same]
        · have := hx.inj _ _ _ h7 h1
          omega
      · exact g7 b' y j hj h1 (by omega) h3

/-- What the destructor of a producer needs. -/
structure Quits (x : Prod) (g : G E) : Prop extends Ends x g where
  le : x.head ≤ x.tail
  out : ∀ i, (i < x.head ∨ x.tail ≤ i) → (g.st i).held = none
  range : ∀ b y, g.blk b = some y → x.head ≤ 32 * b + 31 ∧ 32 * b < x.tail
  last : ∀ y, 0 < x.tail → g.blk ((x.tail - 1) / 32) = some y → x.tailBlock = some y
  open' : x.head = x.tail → x.tail % 32 ≠ 0 → g.blk (x.tail / 32) ≠ none

theorem endProd_ok {x : Prod} {g : G E} (hx : Quits x g) (r : Ruin E)
    (hh : ∀ b y j, g.blk b = some y → j < 32 → (r.heap y).slots j = (g.st (32 * b + j)).held) :
    ∃ r' l, endProd x r = some r' ∧
      r'.dead.map some = r.dead.map some ++
        (List.range' x.head (x.tail - x.head)).map (fun j => (g.st j).held) ∧
      r'.free = l ++ r.free ∧ l.Nodup ∧ (∀ y, y ∈ l ↔ ∃ b, g.blk b = some y) ∧
      (∀ y j, j < 32 → (∀ b, g.blk b ≠ some y) → (r'.heap y).slots j = (r.heap y).slots j) ∧
      (∀ b y j, j < 32 → g.blk b = some y → (r'.heap y).slots j = none) := by
  have hle := hx.le
  obtain ⟨r1, l, e1, d1, f1, n1, m1, s1, s2⟩ := endLoop_ok hx.toEnds (x.tail - x.head) x.head none r
    (by omega) (Nat.le_refl _) (.inl rfl) (fun b y j h1 h2 _ _ => hh b y j h1 h2)
  rw [if_pos rfl] at m1
  obtain ⟨l2, t1, t2, t3, t4, t5⟩ : ∃ l2, (endTail x r1).free = l2 ++ r1.free ∧
      (endTail x r1).heap = r1.heap ∧ (endTail x r1).dead = r1.dead ∧ l2.Nodup ∧
      ∀ y, y ∈ l2 ↔ g.blk ((x.tail - 1) / 32) = some y ∧ 0 < x.tail := by
    by_cases hc : x.head ≠ x.tail ∨ x.tail % 32 ≠ 0
    · obtain ⟨b, hb⟩ : ∃ b, g.blk ((x.tail - 1) / 32) = some b := by
        by_cases h1 : x.head = x.tail
        · have h2 : x.tail % 32 ≠ 0 := by rcases hc with h | h; exact absurd h1 h; exact h
          have h3 := hx.open' h1 h2
          rw [show (x.tail - 1) / 32 = x.tail / 32 by omega]
          cases h4 : g.blk (x.tail / 32) with
          | none => exact absurd h4 h3
          | some b => exact ⟨b, rfl⟩
        · obtain ⟨b, h2, _⟩ := hx.blk (x.tail - 1) (by omega) (by omega)
          exact ⟨b, h2⟩
      have hpos : 0 < x.tail := by rcases hc with h | h <;> omega
      have htb := hx.last b hpos hb
      have he : endTail x r1 = r1.give b := by
        unfold endTail; rw [htb]; exact if_pos hc
      rw [he]
      refine ⟨[b], rfl, rfl, rfl, by simp, fun y => ?_⟩
      rw [hb, List.mem_singleton, Option.some_inj]
      exact ⟨fun h => ⟨h.symm, hpos⟩, fun h => h.1.symm⟩
    · have he : endTail x r1 = r1 := by
        unfold endTail
        split
        · rfl
        · exact if_neg hc
      rw [he]
      refine ⟨[], rfl, rfl, rfl, List.nodup_nil, fun y => ?_⟩
      constructor
      · intro h; cases h
      · rintro ⟨h1, h2⟩
        have := hx.range _ _ h1
        omega
  refine ⟨endTail x r1, l2 ++ l, ?_, ?_, ?_, ?_, ?_, ?_, ?_⟩
  · unfold endProd
    rw [if_neg (by omega), e1]
    rfl
  · rw [t3, d1]
  · rw [t1, f1, List.append_assoc]
  · rw [List.nodup_append]
    refine ⟨t4, n1, ?_⟩
    rintro y h1 _ h2 rfl
    obtain ⟨h3, _⟩ := (t5 y).1 h1
    obtain ⟨b, h4, h5, h6⟩ := (m1 y).1 h2
    have := hx.inj _ _ _ h3 h6
    omega
  · intro y
    rw [List.mem_append, t5, m1]
    constructor
    · rintro (⟨h1, _⟩ | ⟨b, _, _, h1⟩)
      · exact ⟨_, h1⟩
      · exact ⟨b, h1⟩
    · rintro ⟨b, h1⟩
      have h2 := hx.range _ _ h1
      by_cases h3 : b = (x.tail - 1) / 32
      · subst h3; exact .inl ⟨h1, by omega⟩
      · exact .inr ⟨b, by omega, by omega, h1⟩
  · intro y j hj h1
    rw [t2]
    exact s1 y j hj (fun b h2 => absurd h2 (h1 b))
  · intro b y j hj h1
    rw [t2]
    by_cases h2 : x.head ≤ 32 * b + j ∧ 32 * b + j < x.tail
    · exact s2 b y j hj h1 h2.1 h2.2
    · rw [s1 y j hj (fun b' h3 h4 => ?_), hh b y j h1 hj]
      · exact hx.out _ (by omega)
      · have := hx.inj _ _ _ h3 h1
        subst this
        omega

/-- When nobody is calling, every producer is as the destructor needs it. -/
theorem Inv.quits {s : Sys E} {Γ : Nat → G E} {src hit} (I : Inv s Γ) (L : InvL s Γ src hit)
    (hs : Still s) (p : Nat) : Quits (s.prods p) (Γ p) := by
  have hr : Rest (s.prods p) (Γ p) := I.c.rest p (fun t e a h => by rw [hs t] at h; cases h)
  have hi := I.c.idx p
  have hst := I.c.stat p
  have hle := (I.k p).head_le
  have hM := hr.2.1
  have hdone : ∀ i, i < (s.prods p).head → ∃ e, (Γ p).st i = .done e := by
    intro i h
    rcases L.cover p i h with ⟨n, e, h1, h2⟩ | ⟨t, h1⟩
    · have := (L.hits n e h1).2.1
      rw [h2] at this
      exact ⟨e, this⟩
    · rw [hs t] at h1; cases h1
  refine { full := hst.full, blk := ?_, inj := ?_, le := hle, out := ?_, range := ?_, last := ?_, open' := ?_ }
  · intro i h1 h2
    obtain ⟨e, he⟩ := hst.full i h1 h2
    have h3 := hst.live i (by omega) (by rw [he]; rfl)
    cases hb : (Γ p).blk (i / 32) with
    | none => exact absurd hb h3
    | some b => exact ⟨b, rfl, blockOf_eq hi hr hb⟩
  · intro b b' y h1 h2
    exact (I.h.inj _ _ _ _ _ h1 h2).2
  · rintro i (h | h)
    · obtain ⟨e, he⟩ := hdone i h
      rw [he]; rfl
    · rw [hst.raw i h (fun _ => hr.2.2.2.1)]; rfl
  · intro b y h
    have h1 := (hi.win b (by rw [h]; simp)).1
    refine ⟨?_, by omega⟩
    rcases Nat.lt_or_ge (32 * b + 31) (s.prods p).head with h2 | h2
    · exfalso
      rcases I.h.spent p b y h with h3 | ⟨t, k, i, en, e, h3⟩
      · rw [(I.h.blk p b y h).2.2.2] at h3
        have h4 : (List.range 32).countP (fun j => ((Γ p).st (32 * b + j)).isDone) = (List.range 32).length := by
          rw [List.countP_eq_length]
          intro j hj
          rw [List.mem_range] at hj
          obtain ⟨e, he⟩ := hdone (32 * b + j) (by omega)
          rw [he]; rfl
        rw [h4, List.length_range] at h3
        omega
      · rw [hs t] at h3; cases h3
    · omega
  · intro y h1 h2
    exact hr.2.2.2.2 y (by omega) (by rw [show (Γ p).M - 1 = ((s.prods p).tail - 1) / 32 by omega]; exact h2)
  · intro h1 h2
    have h3 := hst.raw (s.prods p).tail (Nat.le_refl _) (fun _ => hr.2.2.2.1)
    exact hst.live _ (by omega) (by rw [h3]; rfl)

/-- The indexes left in the first `n` producers, in the order of their destruction. -/
def rests (s : Sys E) : Nat → List (Nat × Nat)
  | 0 => []
  | n + 1 => (List.range' (s.prods n).head ((s.prods n).tail - (s.prods n).head)).map (fun i => (n, i)) ++ rests s n

theorem mem_rests {s : Sys E} {p i : Nat} : ∀ {n : Nat}, (p, i) ∈ rests s n ↔
    p < n ∧ (s.prods p).head ≤ i ∧ i < (s.prods p).tail
  | 0 => by simp [rests]
  | n + 1 => by
    rw [rests, List.mem_append, mem_rests, List.mem_map]
    constructor
    · rintro (⟨j, h1, h2⟩ | h)
      · cases h2
        rw [List.mem_range'_1] at h1
        omega
      · omega
    · rintro ⟨h1, h2, h3⟩
      by_cases h4 : p = n
      · subst h4
        exact .inl ⟨i, by rw [List.mem_range'_1]; omega, rfl⟩
      · exact .inr ⟨by omega, h2, h3⟩

theorem nodup_rests (s : Sys E) : ∀ n, (rests s n).Nodup
  | 0 => List.nodup_nil
  | n + 1 => by
    rw [rests, List.nodup_append]
    refine ⟨?_, nodup_rests s n, ?_⟩
    · have h := List.nodup_range' (s := (s.prods n).head) (n := (s.prods n).tail - (s.prods n).head) (step := 1)
      unfold List.Nodup
      rw [List.pairwise_map]
      exact List.Pairwise.imp (fun h e => h (by cases e; rfl)) h
    · rintro ⟨p, i⟩ h1 _ h2 rfl
      rw [mem_rests] at h2
      rw [List.mem_map] at h1
      obtain ⟨j, _, h3⟩ := h1
      cases h3
      omega

theorem endProds_ok {s : Sys E} {Γ : Nat → G E} (I : Inv s Γ) (hq : ∀ p, Quits (s.prods p) (Γ p)) :
    ∀ (n : Nat) (r : Ruin E),
    (∀ p b y j, p < n → (Γ p).blk b = some y → j < 32 → (r.heap y).slots j = ((Γ p).st (32 * b + j)).held) →
    ∃ r' l, endProds s n r = some r' ∧
      r'.dead.map some = r.dead.map some ++ (rests s n).map (fun q => ((Γ q.1).st q.2).held) ∧
      r'.free = l ++ r.free ∧ l.Nodup ∧ (∀ y, y ∈ l ↔ ∃ p b, p < n ∧ (Γ p).blk b = some y) ∧
      (∀ y j, j < 32 → (∀ p b, p < n → (Γ p).blk b ≠ some y) → (r'.heap y).slots j = (r.heap y).slots j) ∧
      (∀ p b y j, p < n → j < 32 → (Γ p).blk b = some y → (r'.heap y).slots j = none)
  | 0, r, _ => by
    refine ⟨r, [], rfl, by simp [rests], rfl, List.nodup_nil, ?_, fun _ _ _ _ => rfl, ?_⟩
    · intro y
      constructor
      · intro h; cases h
      · rintro ⟨p, b, h, _⟩; omega
    · intro p b y j h; omega
  | n + 1, r, hh => by
    obtain ⟨r1, l1, e1, d1, f1, n1, m1, k1, z1⟩ := endProd_ok (hq n) r
      (fun b y j h1 h2 => hh n b y j (by omega) h1 h2)
    obtain ⟨r2, l2, e2, d2, f2, n2, m2, k2, z2⟩ := endProds_ok I hq n r1 (by
      intro p b y j h1 h2 h3
      rw [k1 y j h3 (fun b' h4 => by have := (I.h.inj _ _ _ _ _ h4 h2).1; omega)]
      exact hh p b y j (by omega) h2 h3)
    refine ⟨r2, l2 ++ l1, ?_, ?_, ?_, ?_, ?_, ?_, ?_⟩
    · rw [endProds, e1]; exact e2
    · rw [d2, d1, rests, List.map_append, List.append_assoc, List.map_map]
      rfl
    · rw [f2, f1, List.append_assoc]
    · rw [List.nodup_append]
      refine ⟨n2, n1, ?_⟩
      rintro y h1 _ h2 rfl
      obtain ⟨p, b, h3, h4⟩ := (m2 y).1 h1
      obtain ⟨b', h5⟩ := (m1 y).1 h2
      have := (I.h.inj _ _ _ _ _ h4 h5).1
      omega
    · intro y
      rw [List.mem_append, m2, m1]
      constructor
      · rintro (⟨p, b, h1, h2⟩ | ⟨b, h1⟩)
        · exact ⟨p, b, by omega, h2⟩
        · exact ⟨n, b, by omega, h1⟩
      · rintro ⟨p, b, h1, h2⟩
        by_cases h3 : p = n
        · subst h3; exact .inr ⟨b, h2⟩
        · exact .inl ⟨p, b, by omega, h2⟩
    · intro y j hj h1
      rw [k2 y j hj (fun p b h2 => h1 p b (by omega)), k1 y j hj (fun b => h1 n b (by omega))]
    · intro p b y j h1 hj h2
      by_cases h3 : p = n
      · subst h3
        rw [k2 y j hj (fun p' b' h4 h5 => by have := (I.h.inj _ _ _ _ _ h5 h2).1; omega)]
        exact z1 b y j hj h2
      · exact z2 p b y j (by omega) hj h2

theorem idle_hand {s : Sys E} (hs : Still s) (t : Nat) : hand s.quiet (s.pos t) = none := by
  rw [hs t]; rfl

/-- The whole destructor. -/
theorem endQueue_ok {s : Sys E} {Γ : Nat → G E} {src hit} (I : Inv s Γ) (L : InvL s Γ src hit)
    (hs : Still s) :
    ∃ r, endQueue s = some r ∧
      r.dead.map some = (rests s s.count).map (fun q => ((Γ q.1).st q.2).held) ∧
      r.free.Nodup ∧ (∀ y, y ∈ r.free ↔ y < s.made) ∧
      ∀ y j, j < 32 → (r.heap y).slots j = none := by
  have hq := I.quits L hs
  have hp : ∀ p b y, (Γ p).blk b = some y → p < s.count := by
    intro p b y h
    have h1 := (hq p).range b y h
    obtain ⟨r, e, _, h2, _⟩ := L.srcs p ((s.prods p).tail - 1) (by omega)
    exact I.o.lt _ _ h2
  obtain ⟨r, l, e, d, f, n, m, k, z⟩ := endProds_ok I hq s.count { heap := s.heap, free := s.free, dead := [] }
    (fun p b y j _ h1 h2 => (I.h.blk p b y h1).2.2.1 j h2)
  refine ⟨r, e, by simpa using d, ?_, ?_, ?_⟩
  · rw [f, List.nodup_append]
    refine ⟨n, I.h.nodup, ?_⟩
    rintro y h1 _ h2 rfl
    obtain ⟨p, b, _, h3⟩ := (m y).1 h1
    exact (I.h.blk p b y h3).2.1 h2
  · intro y
    rw [f, List.mem_append, m]
    constructor
    · rintro (⟨p, b, _, h1⟩ | h1)
      · exact (I.h.blk p b y h1).1
      · exact (I.h.free y h1).1
    · intro h
      rcases I.h.cover y h with h1 | ⟨p, b, h1⟩ | ⟨t, c, z', h1⟩
      · exact .inr h1
      · exact .inl ⟨p, b, hp p b y h1, h1⟩
      · rw [idle_hand hs t] at h1; cases h1
  · intro y j hj
    by_cases h1 : ∃ p b, (Γ p).blk b = some y
    · obtain ⟨p, b, h1⟩ := h1
      exact z p b y j (hp p b y h1) hj h1
    · rw [k y j hj (fun p b _ h2 => h1 ⟨p, b, h2⟩)]
      rcases Nat.lt_or_ge y s.made with h2 | h2
      · rcases I.h.cover y h2 with h3 | h3 | ⟨t, c, z', h3⟩
        · exact (I.h.free y h3).2 j hj
        · exact absurd h3 h1
        · rw [idle_hand hs t] at h3; cases h3
      · exact I.h.fresh y h2 j hj

theorem released_perm {made : Nat} {r : Ruin E} (pool : Nat → Bool) (h1 : r.free.Nodup)
    (h2 : ∀ y, y ∈ r.free ↔ y < made) : (released pool made r).Perm (List.range made) := by
  have h3 : r.free.Perm (List.range made) :=
    (List.perm_ext_iff_of_nodup h1 List.nodup_range).2 (fun y => by rw [h2, List.mem_range])
  unfold released
  refine (List.Perm.append_right _ (h3.filter _)).trans ?_
  refine List.perm_append_comm.trans ?_
  exact List.filter_append_perm pool _

end Verif.LinkedQueue
