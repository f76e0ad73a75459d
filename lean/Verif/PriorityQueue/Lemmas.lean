import Verif.PriorityQueue.Model
import Verif.Arrays.Spec
/-! # The heap algorithms are correct -/
namespace Verif.PriorityQueue

open Verif.Arrays (StrictWeak)

variable {α : Type}

theorem rd_some {l : List α} {i : Nat} (h : i < l.length) : rd l i = .ok l[i] := by
  unfold rd; rw [List.getElem?_eq_getElem h]

theorem wr_some {l : List α} {i : Nat} {v : α} (h : i < l.length) : wr l i v = .ok (l.set i v) := by
  unfold wr; rw [if_pos h]

theorem ntrans {lt : α → α → Bool} (hs : StrictWeak lt) {x y z : α} (h1 : lt x y = false) (h2 : lt y z = false) :
    lt x z = false := by
  cases h : lt x z with
  | false => rfl
  | true =>
    rcases hs.split x z y h with h' | h'
    · rw [h'] at h1; cases h1
    · rw [h'] at h2; cases h2

/-- Every element at a position below `len` whose parent stands at `top` or
later is not greater than its parent. -/
def HeapFrom (lt : α → α → Bool) (top len : Nat) (l : List α) : Prop :=
  ∀ i x y, 0 < i → i < len → top ≤ (i - 1) / 2 → l[(i - 1) / 2]? = some x → l[i]? = some y → lt x y = false

/-- `h` is in the subtree of `top`. -/
inductive Below (top : Nat) : Nat → Prop
  | refl : Below top top
  | step (i : Nat) : 0 < i → Below top ((i - 1) / 2) → Below top i

theorem Below.le {top h : Nat} (b : Below top h) : top ≤ h := by
  induction b with
  | refl => exact Nat.le_refl _
  | step i h0 _ ih => omega

theorem Below.up {top h : Nat} (b : Below top h) (hgt : top < h) : Below top ((h - 1) / 2) := by
  cases b with
  | refl => omega
  | step i h0 b => exact b

/-- The heap with a hole at `h`: the order holds between the other positions,
and across the hole. -/
structure Hole (lt : α → α → Bool) (top len h : Nat) (l : List α) : Prop where
  below : Below top h
  hi : h < len
  fits : len ≤ l.length
  order : ∀ i x y, 0 < i → i < len → top ≤ (i - 1) / 2 → i ≠ h → (i - 1) / 2 ≠ h →
    l[(i - 1) / 2]? = some x → l[i]? = some y → lt x y = false
  across : ∀ i x y, top < h → 0 < i → i < len → (i - 1) / 2 = h → l[(h - 1) / 2]? = some x → l[i]? = some y → lt x y = false

theorem set_getElem? (l : List α) (h p : Nat) (v : α) (hh : h < l.length) : (l.set h v)[p]? = if p = h then some v else l[p]? := by
  rw [List.getElem?_set]
  by_cases hp : h = p
  · rw [if_pos hp, if_pos hh, if_pos hp.symm]
  · rw [if_neg hp, if_neg (fun e => hp e.symm)]

/-- Moving the element at `c` into the hole and making `c` the hole. -/
theorem move_perm (l : List α) (h c : Nat) (v : α) (hh : h < l.length) (hc : c < l.length) (hne : h ≠ c) :
    ((l.set h l[c]).set c v).Perm (l.set h v) := by
  have := List.set_set_perm (as := l.set h v) (i := h) (j := c) (by simpa using hh) (by simpa using hc)
  simp only [List.getElem_set, List.set_set] at this
  rw [if_neg hne, if_pos trivial] at this
  exact this

theorem pushHeap_ok {lt : α → α → Bool} (hs : StrictWeak lt) (v : α) (top len : Nat) : ∀ (f : Nat) (l : List α) (h : Nat), h < f →
    Hole lt top len h l → (∀ i y, 0 < i → i < len → (i - 1) / 2 = h → l[i]? = some y → lt v y = false) →
    ∃ r, pushHeap lt v top f l h = .ok r ∧ r.length = l.length ∧ r.Perm (l.set h v) ∧ HeapFrom lt top len r ∧
      (∀ p, len ≤ p → r[p]? = l[p]?) := by
  intro f
  induction f with
  | zero => intro l h hf; omega
  | succ f ih =>
    intro l h hf H hv
    have hhl : h < l.length := Nat.lt_of_lt_of_le H.hi H.fits
    have done : ∀ (_ : h = top ∨ ∀ x, l[(h - 1) / 2]? = some x → lt x v = false),
        ∃ r, wr l h v = .ok r ∧ r.length = l.length ∧ r.Perm (l.set h v) ∧ HeapFrom lt top len r ∧ (∀ p, len ≤ p → r[p]? = l[p]?) := by
      intro hd
      refine ⟨l.set h v, wr_some hhl, by simp, List.Perm.refl _, ?_, ?_⟩
      · intro i x y h0 hi ht hx hy
        rw [set_getElem? _ _ _ _ hhl] at hx hy
        by_cases h1 : i = h
        · rw [if_pos h1] at hy
          rw [if_neg (by omega)] at hx
          cases hy
          rcases hd with hd | hd
          · omega
          · rw [h1] at hx; exact hd x hx
        · rw [if_neg h1] at hy
          by_cases h2 : (i - 1) / 2 = h
          · rw [if_pos h2] at hx
            cases hx
            exact hv i y h0 hi h2 hy
          · rw [if_neg h2] at hx
            exact H.order i x y h0 hi ht h1 h2 hx hy
      · intro p hp
        rw [set_getElem? _ _ _ _ hhl, if_neg]
        have := H.hi
        omega
    unfold pushHeap
    by_cases hgt : h > top
    · rw [if_pos hgt]
      have hpl : (h - 1) / 2 < l.length := by omega
      have htp : top ≤ (h - 1) / 2 := (H.below.up hgt).le
      rw [rd_some hpl, Outcome.bind_ok]
      cases hlt : lt l[(h - 1) / 2] v with
      | false =>
        rw [if_neg (by decide)]
        apply done
        right
        intro x hx
        rw [List.getElem?_eq_getElem hpl] at hx
        cases hx
        exact hlt
      | true =>
        rw [if_pos rfl, wr_some hhl, Outcome.bind_ok]
        have hne : (h - 1) / 2 ≠ h := by omega
        have hpp : ∀ x, (l.set h l[(h - 1) / 2])[(h - 1) / 2]? = some x → x = l[(h - 1) / 2] := by
          intro x hx
          rw [set_getElem? _ _ _ _ hhl, if_neg hne, List.getElem?_eq_getElem hpl] at hx
          exact (Option.some.inj hx).symm
        have sib : ∀ i y, 0 < i → i < len → (i - 1) / 2 = (h - 1) / 2 → (l.set h l[(h - 1) / 2])[i]? = some y →
            lt l[(h - 1) / 2] y = false := by
          intro i y h0 hi hp hy
          rw [set_getElem? _ _ _ _ hhl] at hy
          by_cases h1 : i = h
          · rw [if_pos h1] at hy
            cases hy
            exact hs.irrefl _
          · rw [if_neg h1] at hy
            exact H.order i _ y h0 hi (by omega) h1 (by omega) (by rw [hp, List.getElem?_eq_getElem hpl]) hy
        obtain ⟨r, r1, r2, r3, r4, r5⟩ := ih (l.set h l[(h - 1) / 2]) ((h - 1) / 2) (by omega) ⟨H.below.up hgt, by have := H.hi; omega, by
            rw [List.length_set]; exact H.fits, by
            intro i x y h0 hi ht h1 h2 hx hy
            rw [set_getElem? _ _ _ _ hhl] at hx hy
            rw [if_neg (by rintro rfl; exact h2 rfl)] at hy
            by_cases h3 : (i - 1) / 2 = h
            · rw [if_pos h3] at hx
              cases hx
              exact H.across i _ y hgt h0 hi h3 (List.getElem?_eq_getElem hpl) hy
            · rw [if_neg h3] at hx
              exact H.order i x y h0 hi ht (by rintro rfl; exact h2 rfl) h3 hx hy, by
            intro i x y ht h0 hi hp hx hy
            refine ntrans hs ?_ (sib i y h0 hi hp hy)
            rw [set_getElem? _ _ _ _ hhl, if_neg (by omega)] at hx
            exact H.order ((h - 1) / 2) x _ (by omega) (by have := H.hi; omega) ((H.below.up hgt).up ht).le hne (by omega) hx (List.getElem?_eq_getElem hpl)⟩ (by
            intro i y h0 hi hp hy
            have := sib i y h0 hi hp hy
            cases hvy : lt v y with
            | false => rfl
            | true =>
              rcases hs.split v y l[(h - 1) / 2] hvy with h' | h'
              · rw [hs.asym _ _ hlt] at h'; cases h'
              · rw [this] at h'; cases h')
        refine ⟨r, r1, by rw [r2, List.length_set], r3.trans (move_perm l h _ v hhl hpl (Ne.symm hne)), r4, ?_⟩
        intro p hp
        rw [r5 p hp, set_getElem? _ _ _ _ hhl, if_neg]
        have := H.hi
        omega
    · rw [if_neg hgt]
      exact done (.inl (by have := H.below.le; omega))

theorem sinkHole_ok {lt : α → α → Bool} (hs : StrictWeak lt) (v : α) (top len : Nat) : ∀ (f : Nat) (l : List α) (h : Nat), len < f + h →
    Hole lt top len h l →
    ∃ r h', sinkHole lt len f l h = .ok (r, h') ∧ ¬ h' < (len - 1) / 2 ∧ r.length = l.length ∧ (r.set h' v).Perm (l.set h v) ∧
      Hole lt top len h' r ∧ (∀ p, len ≤ p → r[p]? = l[p]?) := by
  intro f
  induction f with
  | zero => intro l h hf H; have := H.hi; omega
  | succ f ih =>
    intro l h hf H
    have hhl : h < l.length := Nat.lt_of_lt_of_le H.hi H.fits
    have hfit := H.fits
    unfold sinkHole
    by_cases hlt : h < (len - 1) / 2
    · rw [if_pos hlt, rd_some (show 2 * h + 2 < l.length by omega), Outcome.bind_ok, rd_some (show 2 * h + 1 < l.length by omega), Outcome.bind_ok]
      obtain ⟨c, hc, hcc⟩ : ∃ c, (if lt l[2 * h + 2] l[2 * h + 1] then 2 * h + 1 else 2 * h + 2) = c ∧
          (c = 2 * h + 1 ∧ lt l[2 * h + 1] l[2 * h + 2] = false ∨ c = 2 * h + 2 ∧ lt l[2 * h + 2] l[2 * h + 1] = false) := by
        cases hh : lt l[2 * h + 2] l[2 * h + 1] with
        | true => exact ⟨_, rfl, .inl ⟨rfl, hs.asym _ _ hh⟩⟩
        | false => exact ⟨_, rfl, .inr ⟨rfl, rfl⟩⟩
      have hcl : c < len := by omega
      have hcp : (c - 1) / 2 = h := by omega
      simp only [hc]
      rw [rd_some (show c < l.length by omega), Outcome.bind_ok, wr_some hhl, Outcome.bind_ok]
      obtain ⟨r, h', r1, r2, r3, r4, r5, r6⟩ := ih (l.set h l[c]) c (by omega) ⟨.step c (by omega) (by rw [hcp]; exact H.below), hcl, by
          rw [List.length_set]; exact hfit, by
          intro i x y h0 hi ht h1 h2 hx hy
          rw [set_getElem? _ _ _ _ hhl] at hx hy
          by_cases h3 : i = h
          · rw [if_neg (by omega)] at hx
            rw [if_pos h3] at hy
            cases hy
            rw [h3] at hx
            exact H.across c x _ (by omega) (by omega) hcl hcp hx (List.getElem?_eq_getElem (by omega))
          · rw [if_neg h3] at hy
            by_cases h4 : (i - 1) / 2 = h
            · rw [if_pos h4] at hx
              cases hx
              rcases hcc with ⟨rfl, hc2⟩ | ⟨rfl, hc2⟩
              · have : i = 2 * h + 2 := by omega
                subst this
                rw [List.getElem?_eq_getElem (by omega)] at hy
                cases hy
                exact hc2
              · have : i = 2 * h + 1 := by omega
                subst this
                rw [List.getElem?_eq_getElem (by omega)] at hy
                cases hy
                exact hc2
            · rw [if_neg h4] at hx
              exact H.order i x y h0 hi ht h3 h4 hx hy, by
          intro i x y ht h0 hi hp hx hy
          rw [set_getElem? _ _ _ _ hhl] at hx hy
          rw [if_pos hcp] at hx
          rw [if_neg (by omega)] at hy
          cases hx
          exact H.order i _ y h0 hi (by have := H.below.le; omega) (by omega) (by omega)
            (by rw [hp]; exact List.getElem?_eq_getElem (by omega)) hy⟩
      refine ⟨r, h', r1, r2, by rw [r3, List.length_set], r4.trans (move_perm l h c v hhl (by omega) (by omega)), r5, ?_⟩
      intro p hp
      rw [r6 p hp, set_getElem? _ _ _ _ hhl, if_neg]
      have := H.hi
      omega
    · rw [if_neg hlt]
      exact ⟨l, h, rfl, hlt, rfl, List.Perm.refl _, H, fun _ _ => rfl⟩

theorem adjustHeap_ok {lt : α → α → Bool} (hs : StrictWeak lt) (v : α) (top len : Nat) (l : List α) (H : Hole lt top len top l) :
    ∃ r, adjustHeap lt top len v l = .ok r ∧ r.length = l.length ∧ r.Perm (l.set top v) ∧ HeapFrom lt top len r ∧
      (∀ p, len ≤ p → r[p]? = l[p]?) := by
  obtain ⟨r, h, r1, r2, r3, r4, r5, r6⟩ := sinkHole_ok hs v top len (len + 1) l top (by omega) H
  unfold adjustHeap
  rw [r1, Outcome.bind_ok]
  have hfit := r5.fits
  have hhi := r5.hi
  have hhl : h < r.length := by omega
  simp only [lastChild]
  by_cases hc : len % 2 = 0 ∧ h = (len - 2) / 2
  · rw [if_pos hc, rd_some (show 2 * h + 1 < r.length by omega), Outcome.bind_ok, wr_some hhl, Outcome.bind_ok]
    obtain ⟨q, q1, q2, q3, q4, q5⟩ := pushHeap_ok hs v top len (2 * h + 2) (r.set h r[2 * h + 1]) (2 * h + 1) (by omega)
      ⟨.step _ (by omega) (by rw [show (2 * h + 1 - 1) / 2 = h by omega]; exact r5.below), by omega, by rw [List.length_set]; exact hfit, by
        intro i x y h0 hi ht h1 h2 hx hy
        rw [set_getElem? _ _ _ _ hhl] at hx hy
        by_cases h3 : i = h
        · rw [if_neg (by omega)] at hx
          rw [if_pos h3] at hy
          cases hy
          rw [h3] at hx
          exact r5.across (2 * h + 1) x _ (by omega) (by omega) (by omega) (by omega) hx (List.getElem?_eq_getElem (by omega))
        · rw [if_neg h3] at hy
          rw [if_neg (by omega)] at hx
          exact r5.order i x y h0 hi ht h3 (by omega) hx hy, by
        intro i x y ht h0 hi hp hx hy
        omega⟩ (by intro i y h0 hi hp hy; omega)
    refine ⟨q, q1, by rw [q2, List.length_set, r3], q3.trans ((move_perm r h _ v hhl (by omega) (by omega)).trans r4), q4, ?_⟩
    intro p hp
    rw [q5 p hp, set_getElem? _ _ _ _ hhl, if_neg (by omega), r6 p hp]
  · rw [if_neg hc]
    obtain ⟨q, q1, q2, q3, q4, q5⟩ := pushHeap_ok hs v top len (h + 1) r h (by omega) r5 (by intro i y h0 hi hp hy; omega)
    exact ⟨q, q1, by rw [q2, r3], q3.trans r4, q4, fun p hp => by rw [q5 p hp, r6 p hp]⟩

theorem hole_of_heap {lt : α → α → Bool} {top len : Nat} {l : List α} (hl : len ≤ l.length) (ht : top < len) (H : HeapFrom lt (top + 1) len l) :
    Hole lt top len top l := by
  refine ⟨.refl, ht, hl, ?_, ?_⟩
  · intro i x y h0 hi ht h1 h2 hx hy
    exact H i x y h0 hi (by omega) hx hy
  · intro i x y ht
    omega

theorem makeFrom_ok {lt : α → α → Bool} (hs : StrictWeak lt) : ∀ (p : Nat) (l : List α), p < l.length → HeapFrom lt (p + 1) l.length l →
    ∃ r, makeFrom lt p l = .ok r ∧ r.Perm l ∧ HeapFrom lt 0 r.length r := by
  intro p
  induction p with
  | zero =>
    intro l hl H
    obtain ⟨r, r1, r2, r3, r4, _⟩ := adjustHeap_ok hs l[0] 0 l.length l (hole_of_heap (Nat.le_refl _) hl H)
    refine ⟨r, ?_, ?_, ?_⟩
    · unfold makeFrom
      rw [rd_some hl, Outcome.bind_ok]
      exact r1
    · rw [List.set_getElem_self] at r3; exact r3
    · rw [r2]; exact r4
  | succ p ih =>
    intro l hl H
    obtain ⟨r, r1, r2, r3, r4, _⟩ := adjustHeap_ok hs l[p + 1] (p + 1) l.length l (hole_of_heap (Nat.le_refl _) hl H)
    obtain ⟨q, q1, q2, q3⟩ := ih r (by omega) (by rw [r2]; exact r4)
    refine ⟨q, ?_, ?_, q3⟩
    · unfold makeFrom
      rw [rd_some hl, Outcome.bind_ok, r1, Outcome.bind_ok]
      exact q1
    · rw [List.set_getElem_self] at r3; exact q2.trans r3

/-- `std::make_heap` makes a heap of any vector. -/
theorem makeHeap_ok {lt : α → α → Bool} (hs : StrictWeak lt) (l : List α) :
    ∃ r, makeHeap lt l = .ok r ∧ r.Perm l ∧ HeapFrom lt 0 r.length r := by
  unfold makeHeap
  by_cases h : l.length < 2
  · rw [if_pos h]
    exact ⟨l, rfl, List.Perm.refl _, fun i x y h0 hi => by omega⟩
  · rw [if_neg h]
    refine makeFrom_ok hs _ l (by omega) ?_
    intro i x y h0 hi ht
    omega

/-- The first element of a heap is a greatest one. -/
theorem heap_top {lt : α → α → Bool} (hs : StrictWeak lt) {l : List α} (H : HeapFrom lt 0 l.length l) {x : α} (hx : l[0]? = some x) :
    ∀ (i : Nat) y, l[i]? = some y → lt x y = false := by
  intro i
  induction i using Nat.strongRecOn with
  | ind i ih =>
    intro y hy
    by_cases h0 : i = 0
    · subst h0
      rw [hx] at hy
      cases hy
      exact hs.irrefl _
    · have hil : i < l.length := (List.getElem?_eq_some_iff.mp hy).1
      have hp : (i - 1) / 2 < l.length := by omega
      exact ntrans hs (ih ((i - 1) / 2) (by omega) _ (List.getElem?_eq_getElem hp))
        (H i _ y (by omega) hil (by omega) (List.getElem?_eq_getElem hp) hy)

/-- `std::pop_heap` followed by `pop_back` takes the first element out and leaves
a heap of the others. -/
theorem popHeap_ok {lt : α → α → Bool} (hs : StrictWeak lt) (x : α) (t : List α) (H : HeapFrom lt 0 (x :: t).length (x :: t)) :
    ∃ r, popHeap lt (x :: t) = .ok r ∧ r ≠ [] ∧ r.dropLast.Perm t ∧ HeapFrom lt 0 r.dropLast.length r.dropLast := by
  unfold popHeap
  by_cases h : (x :: t).length > 1
  · rw [if_pos h]
    have htl : 0 < t.length := by simpa using h
    generalize hq : x :: t = q at *
    have hql : q.length = t.length + 1 := by rw [← hq]; simp
    have hq0 : q[0]'(by omega) = x := by simp only [← hq, List.getElem_cons_zero]
    rw [rd_some (show q.length - 1 < q.length by omega), Outcome.bind_ok, rd_some (show 0 < q.length by omega), Outcome.bind_ok,
      wr_some (by omega), Outcome.bind_ok, hq0]
    have hlt : q.length - 1 < q.length := by omega
    obtain ⟨r, r1, r2, r3, r4, r5⟩ := adjustHeap_ok hs (q[q.length - 1]'hlt) 0 (q.length - 1) (q.set (q.length - 1) x)
      (hole_of_heap (by simp) (by omega) (by
        intro i a b h0 hi ht ha hb
        rw [set_getElem? _ _ _ _ hlt, if_neg (by omega)] at ha hb
        exact H i a b h0 (by omega) (by omega) ha hb))
    have hrl : r.length = q.length := by rw [r2]; simp
    have hrne : r ≠ [] := by rintro rfl; simp at hrl; omega
    have hlast : r.getLast hrne = x := by
      have := r5 (q.length - 1) (Nat.le_refl _)
      rw [set_getElem? _ _ _ _ hlt, if_pos rfl, ← hrl, List.getElem?_eq_getElem (by omega)] at this
      rw [List.getLast_eq_getElem]
      exact Option.some.inj this
    have hr : r.Perm (x :: t) := by
      rw [hq]
      have hp := move_perm (q.set (q.length - 1) x) 0 (q.length - 1) (q[q.length - 1]'hlt)
      refine r3.trans ?_
      have hsw := List.set_set_perm (as := q) (i := q.length - 1) (j := 0) hlt (by omega)
      rw [hq0] at hsw
      exact hsw
    refine ⟨r, r1, hrne, ?_, ?_⟩
    · have e : r = r.dropLast ++ [x] := by rw [← hlast]; exact (List.dropLast_concat_getLast hrne).symm
      rw [e] at hr
      exact (List.perm_cons x).mp (List.perm_append_singleton x r.dropLast |>.symm.trans hr)
    · intro i a b h0 hi ht ha hb
      rw [List.length_dropLast] at hi
      rw [List.getElem?_dropLast] at ha hb
      rw [if_pos (by omega)] at ha hb
      exact r4 i a b h0 (by omega) (by omega) ha hb
  · rw [if_neg h]
    have : t = [] := List.eq_nil_of_length_eq_zero (by simpa using h)
    subst this
    exact ⟨[x], rfl, by simp, List.Perm.refl _, fun i _ _ _ hi => by simp at hi⟩

end Verif.PriorityQueue
