import Verif.WeakReuse.Rel
/-!
# What is always true while blocks are used for the first time
-/
namespace Verif.WeakReuse
open Verif.Weak (View TView Mem Msg join bot upto msgAt newest push load store rmw fence write Below VR GR LR MR TR Inj)

/-- How many blocks the adding thread got, if it is there and `t` elements were added. -/
def got : Pos → Nat → Nat
  | .aReset .., t => t / B + 1
  | .aEntry .., t => t / B + 1
  | .aWrite .., t => t / B + 1
  | .aStore .., t => t / B + 1
  | _, t => (t + 31) / B

/-- How many of them are in the table. -/
def listed : Pos → Nat → Nat
  | .aWrite .., t => t / B + 1
  | .aStore .., t => t / B + 1
  | _, t => (t + 31) / B

/-- What is true of thread `j` because of where it is: `tb` is the block of the adding thread, `cnt` says for each block
which of its elements were counted. -/
def PosJ (tb : Nat) (taken : List (Nat × Nat × Nat)) (cnt : Nat → List Nat) (j : Nat) : Pos → Prop
  | .aPool _ t => t % B = 0
  | .aPoolAdd _ t => t % B = 0 ∧ t / B < poolSize
  | .aFree _ t => t % B = 0 ∧ poolSize ≤ t / B
  | .aNew _ t => t % B = 0 ∧ poolSize ≤ t / B
  | .aReset _ t b => t % B = 0 ∧ b = t / B + 1
  | .aEntry _ t b => t % B = 0 ∧ b = t / B + 1
  | .aWrite _ t => tb = t / B
  | .aStore _ t => tb = t / B
  | .pSlot x b => b = x / B + 1
  | .pDone x b => b = x / B + 1 ∧ (∃ v, (j, x, v) ∈ taken) ∧ x ∉ cnt (x / B)
  | .pNull x _ => (cnt (x / B)).length = B
  | .pFree _ => ∃ e, (cnt e).length = B
  | .kHead .. => ∃ e, (cnt e).length = B
  | .kNext .. => ∃ e, (cnt e).length = B
  | .kRefs .. => ∃ e, (cnt e).length = B
  | .kCas .. => ∃ e, (cnt e).length = B
  | .kBack .. => ∃ e, (cnt e).length = B
  | _ => True

structure J (s : Sys) (cnt : Nat → List Nat) : Prop where
  races : s.races = []
  poolVal : ∀ (n : Nat) g, (s.mem .pool)[n]? = some g → g.val = n + 1
  poolKnown : ∀ th : Th, s.threads[0]? = some th → (s.mem .pool).length ≤ th.tv.cur .pool
  poolLen : ∀ th : Th, s.threads[0]? = some th → (s.mem .pool).length = min poolSize (got th.pos (s.mem .tail).length)
  entKnown : ∀ th : Th, s.threads[0]? = some th → ∀ e, e < listed th.pos (s.mem .tail).length → 1 ≤ th.tv.cur (.entry e)
  entVal : ∀ th : Th, s.threads[0]? = some th → ∀ e, e < listed th.pos (s.mem .tail).length →
    (∃ g : Msg Loc, s.mem (.entry e) = [g] ∧ g.val = e + 1) ∨ (cnt e).length = B
  entNone : ∀ th : Th, s.threads[0]? = some th → ∀ e, listed th.pos (s.mem .tail).length ≤ e → s.mem (.entry e) = []
  block : (s.mem .tail).length % B ≠ 0 → s.tailBlock = (s.mem .tail).length / B
  tailView : ∀ (n : Nat) g, (s.mem .tail)[n]? = some g → 1 ≤ g.view (.entry (n / B))
  posJ : ∀ (j : Nat) (th : Th), s.threads[j]? = some th → PosJ s.tailBlock s.taken cnt j th.pos
  count : ∀ e, (newest (s.mem (.done e))).val = (cnt e).length
  cntOk : ∀ e, (cnt e).Nodup ∧ ∀ x ∈ cnt e, x / B = e ∧ ∃ j v, (j, x, v) ∈ s.taken
  made : ∀ th : Th, s.threads[0]? = some th → s.made = max poolSize (got th.pos (s.mem .tail).length)
  freed : s.mem .free ≠ [] → ∃ e, (cnt e).length = B

theorem j_init (k : Nat) : J (init k) (fun _ => []) := by
  have hth : ∀ (j : Nat) (th : Th), (init k).threads[j]? = some th → th = ⟨⟨bot, bot⟩, .out⟩ := by
    intro j th h
    exact List.eq_of_mem_replicate (List.mem_of_getElem? h)
  refine ⟨rfl, fun n g h => (nomatch h), fun th h => Nat.zero_le _, fun th h => ?_, fun th h e he => ?_, fun th h e he => ?_, fun _ _ _ _ => rfl,
    fun h => absurd rfl h, fun n g h => (nomatch h), fun j th h => ?_, fun _ => rfl, fun e => ⟨List.nodup_nil, fun x h => (nomatch h)⟩, fun th h => ?_, fun h => absurd rfl h⟩
  · rw [hth _ _ h]; exact (show 0 = min 6 ((0 + 31) / 32) from rfl)
  · rw [hth _ _ h] at he
    exact absurd (show e < (0 + 31) / 32 from he) (Nat.not_lt_zero _)
  · rw [hth _ _ h] at he
    exact absurd (show e < (0 + 31) / 32 from he) (Nat.not_lt_zero _)
  · rw [hth _ _ h]; exact True.intro
  · rw [hth _ _ h]; exact (show 6 = max 6 ((0 + 31) / 32) from rfl)

/-- The threads after one of them has changed. -/
theorem get_set {ts : List Th} {i j : Nat} {th th' x : Th} (hi : ts[i]? = some th) (h : (ts.set i th')[j]? = some x) :
    (j = i ∧ x = th') ∨ (j ≠ i ∧ ts[j]? = some x) := by
  by_cases e : j = i
  · subst e
    obtain ⟨hl, _⟩ := List.getElem?_eq_some_iff.mp hi
    rw [List.getElem?_set_self hl] at h
    exact Or.inl ⟨rfl, (Option.some.inj h).symm⟩
  · rw [List.getElem?_set_ne (Ne.symm e)] at h
    exact Or.inr ⟨e, h⟩

/-- Numbers of one block. -/
theorem block_len {l : List Nat} {e : Nat} (hn : l.Nodup) (h : ∀ x ∈ l, x / B = e) : l.length ≤ B := by
  have hs : l ⊆ List.range' (e * B) B := by
    intro x hx
    have h1 := h x hx
    have hB : B = 32 := rfl
    rw [List.mem_range'_1]
    rw [hB] at h1 ⊢
    omega
  have := hn.length_le_of_subset hs
  rw [List.length_range'] at this
  exact this

theorem newest_val {h : List (Msg Loc)} (hv : ∀ (n : Nat) g, h[n]? = some g → g.val = n + 1) : (newest h).val = h.length := by
  unfold newest
  cases e : h.length with
  | zero => rfl
  | succ n =>
    show (h[n]?.getD _).val = _
    have : n < h.length := by omega
    rw [List.getElem?_eq_getElem this]
    exact hv n _ (List.getElem?_eq_getElem this)

theorem msgAt_val {h : List (Msg Loc)} (hv : ∀ (n : Nat) g, h[n]? = some g → g.val = n + 1) {n : Nat} {g : Msg Loc} (e : msgAt h n = some g) : g.val = n := by
  cases n with
  | zero => cases e; rfl
  | succ n => exact hv n g e

variable {s s' : Sys} {cnt : Nat → List Nat} {i : Nat} {th th' : Th}

/-- A step that touches neither the tail, the pool, the table of blocks nor the counters. -/
theorem J.frame (j : J s cnt) (hi : s.threads[i]? = some th) (hth : s'.threads = s.threads.set i th') (hb : Below th.tv.cur th'.tv.cur)
    (htail : s'.mem .tail = s.mem .tail) (hpool : s'.mem .pool = s.mem .pool) (hent : ∀ e, s'.mem (.entry e) = s.mem (.entry e))
    (hdone : ∀ e, s'.mem (.done e) = s.mem (.done e)) (hr : s'.races = []) (hmade : s'.made = s.made) (hfree : s'.mem .free ≠ [] → s.mem .free ≠ [] ∨ ∃ e, (cnt e).length = B)
    (htb : s'.tailBlock = s.tailBlock) (htk : s'.taken = s.taken)
    (hg : got th'.pos (s.mem .tail).length = got th.pos (s.mem .tail).length) (hl : listed th'.pos (s.mem .tail).length = listed th.pos (s.mem .tail).length)
    (hp : PosJ s.tailBlock s.taken cnt i th'.pos) : J s' cnt := by
  have old : ∀ {x : Th}, s'.threads[0]? = some x → ∃ y : Th, s.threads[0]? = some y ∧ Below y.tv.cur x.tv.cur ∧
      got x.pos (s.mem .tail).length = got y.pos (s.mem .tail).length ∧ listed x.pos (s.mem .tail).length = listed y.pos (s.mem .tail).length := by
    intro x hx
    rw [hth] at hx
    rcases get_set hi hx with ⟨rfl, rfl⟩ | ⟨_, hx⟩
    · exact ⟨th, hi, hb, hg, hl⟩
    · exact ⟨x, hx, Weak.Below.refl _, rfl, rfl⟩
  constructor
  · exact hr
  · rw [hpool]; exact j.poolVal
  · intro x hx
    obtain ⟨y, hy, h1, h2, h3⟩ := old hx
    rw [hpool]
    exact Nat.le_trans (j.poolKnown y hy) (h1 _)
  · intro x hx
    obtain ⟨y, hy, h1, h2, h3⟩ := old hx
    rw [hpool, htail, h2]
    exact j.poolLen y hy
  · intro x hx e he
    obtain ⟨y, hy, h1, h2, h3⟩ := old hx
    rw [htail, h3] at he
    exact Nat.le_trans (j.entKnown y hy e he) (h1 _)
  · intro x hx e he
    obtain ⟨y, hy, h1, h2, h3⟩ := old hx
    rw [htail, h3] at he
    rw [hent]
    exact j.entVal y hy e he
  · intro x hx e he
    obtain ⟨y, hy, h1, h2, h3⟩ := old hx
    rw [htail, h3] at he
    rw [hent]
    exact j.entNone y hy e he
  · rw [htail, htb]; exact j.block
  · rw [htail]; exact j.tailView
  · intro k x hx
    rw [htb, htk]
    rw [hth] at hx
    rcases get_set hi hx with ⟨rfl, rfl⟩ | ⟨_, hx⟩
    · exact hp
    · exact j.posJ k x hx
  · intro e
    rw [hdone]
    exact j.count e
  · rw [htk]; exact j.cntOk
  · intro x hx
    obtain ⟨y, hy, h1, h2, h3⟩ := old hx
    rw [hmade, htail, h2]
    exact j.made y hy
  · intro h
    rcases hfree h with h | h
    · exact j.freed h
    · exact h

/-- An element that was counted. -/
theorem J.full_lt (j : J s cnt) {e T : Nat} (hlt : ∀ k x v, (k, x, v) ∈ s.taken → x < T) (hf : (cnt e).length = B) : e < (T + 31) / B := by
  cases hc : cnt e with
  | nil => rw [hc] at hf; cases hf
  | cons x l =>
    obtain ⟨h1, k, v, h2⟩ := (j.cntOk e).2 x (by rw [hc]; exact List.mem_cons_self)
    have := hlt k x v h2
    have hB : B = 32 := rfl
    rw [hB] at h1 ⊢
    omega

/-- A block is got from the pool. -/
theorem J.poolAdd (j : J s cnt) (hi : s.threads[0]? = some th) {v t : Nat} (hp : th.pos = .aPoolAdd v t) (ht : t = (s.mem .tail).length)
    {g : Msg Loc} {tv' : TView Loc} (hv : g.val = (s.mem .pool).length + 1) (hb : Below th.tv.cur tv'.cur) (hk : (s.mem .pool).length + 1 ≤ tv'.cur .pool) :
    J { s with mem := push s.mem .pool g, threads := s.threads.set 0 ⟨tv', .aReset v t (t / B + 1)⟩ } cnt := by
  have hmod := j.posJ 0 th hi
  rw [hp] at hmod
  obtain ⟨hmod, hsmall⟩ := hmod
  have hB : B = 32 := rfl
  have e : ∀ l, l ≠ Loc.pool → push s.mem .pool g l = s.mem l := fun l h => Weak.push_other _ h _
  have etail := e .tail (fun h => nomatch h)
  have eent : ∀ x, push s.mem .pool g (.entry x) = s.mem (.entry x) := fun x => e _ (fun h => nomatch h)
  have edone : ∀ x, push s.mem .pool g (.done x) = s.mem (.done x) := fun x => e _ (fun h => nomatch h)
  have epool : push s.mem .pool g .pool = s.mem .pool ++ [g] := Weak.push_self _ _ _
  have old : ∀ {x : Th}, (s.threads.set 0 ⟨tv', .aReset v t (t / B + 1)⟩)[0]? = some x → x = ⟨tv', .aReset v t (t / B + 1)⟩ := by
    intro x hx
    rcases get_set hi hx with ⟨_, rfl⟩ | ⟨h, _⟩
    · rfl
    · exact absurd rfl h
  have hlen := j.poolLen th hi
  rw [hp] at hlen
  have hlen : (s.mem .pool).length = min poolSize (((s.mem .tail).length + 31) / B) := hlen
  have hP : poolSize = 6 := rfl
  have hlis : listed (.aReset v t (t / B + 1)) (s.mem .tail).length = listed th.pos (s.mem .tail).length := by rw [hp]; rfl
  constructor
  · exact j.races
  · intro n x hx
    dsimp only at hx
    rw [epool] at hx
    by_cases hn : n < (s.mem .pool).length
    · rw [List.getElem?_append_left hn] at hx
      exact j.poolVal n x hx
    · have h1 := (List.getElem?_eq_some_iff.mp hx).1
      rw [List.length_append] at h1
      have h1 : n < (s.mem .pool).length + 1 := h1
      have h2 : n = (s.mem .pool).length := by omega
      subst h2
      rw [List.getElem?_append_right (Nat.le_refl _), Nat.sub_self] at hx
      cases hx
      exact hv
  · intro x hx
    rw [old hx]
    dsimp only
    rw [epool, List.length_append]
    exact hk
  · intro x hx
    rw [old hx]
    dsimp only
    rw [epool, etail, List.length_append, hlen]
    show _ + 1 = min poolSize ((s.mem .tail).length / B + 1)
    rw [← ht]
    rw [hB] at hmod hsmall ⊢
    omega
  · intro x hx e he
    rw [old hx] at he ⊢
    dsimp only at he ⊢
    rw [etail, hlis] at he
    exact Nat.le_trans (j.entKnown th hi e he) (hb _)
  · intro x hx e he
    rw [old hx] at he
    dsimp only at he ⊢
    rw [etail, hlis] at he
    rw [eent]
    exact j.entVal th hi e he
  · intro x hx e he
    rw [old hx] at he
    dsimp only at he ⊢
    rw [etail, hlis] at he
    rw [eent]
    exact j.entNone th hi e he
  · dsimp only
    rw [etail]; exact j.block
  · dsimp only
    rw [etail]; exact j.tailView
  · intro k x hx
    rcases get_set hi hx with ⟨rfl, rfl⟩ | ⟨_, hx⟩
    · exact ⟨hmod, rfl⟩
    · exact j.posJ k x hx
  · intro x
    dsimp only
    rw [edone]; exact j.count x
  · exact j.cntOk
  · intro x hx
    rw [old hx]
    have h1 := j.made th hi
    rw [hp] at h1
    have h1 : s.made = max poolSize (((s.mem .tail).length + 31) / B) := h1
    dsimp only
    rw [etail]
    show s.made = max poolSize ((s.mem .tail).length / B + 1)
    rw [h1, ← ht]
    rw [hB] at hmod hsmall ⊢
    omega
  · dsimp only
    rw [e .free (fun h => nomatch h)]
    exact j.freed

/-- A block is made. -/
theorem J.new (j : J s cnt) (hi : s.threads[0]? = some th) {v t : Nat} (hp : th.pos = .aNew v t) (ht : t = (s.mem .tail).length) :
    J { s with made := s.made + 1, threads := s.threads.set 0 ⟨th.tv, .aReset v t (s.made + 1)⟩ } cnt := by
  have hmod := j.posJ 0 th hi
  rw [hp] at hmod
  obtain ⟨hmod, hbig⟩ := hmod
  have hB : B = 32 := rfl
  have hP : poolSize = 6 := rfl
  have hmade := j.made th hi
  rw [hp] at hmade
  have hmade : s.made = max poolSize (((s.mem .tail).length + 31) / B) := hmade
  have hlen := j.poolLen th hi
  rw [hp] at hlen
  have hlen : (s.mem .pool).length = min poolSize (((s.mem .tail).length + 31) / B) := hlen
  have hlis : ∀ b, listed (.aReset v t b) (s.mem .tail).length = listed th.pos (s.mem .tail).length := fun b => by rw [hp]; rfl
  have old : ∀ {x : Th}, (s.threads.set 0 ⟨th.tv, .aReset v t (s.made + 1)⟩)[0]? = some x → x = ⟨th.tv, .aReset v t (s.made + 1)⟩ := by
    intro x hx
    rcases get_set hi hx with ⟨_, rfl⟩ | ⟨h, _⟩
    · rfl
    · exact absurd rfl h
  refine { j with poolKnown := ?_, poolLen := ?_, entKnown := ?_, entVal := ?_, entNone := ?_, posJ := ?_, made := ?_, count := j.count, cntOk := j.cntOk }
  · intro x hx
    rw [old hx]
    exact j.poolKnown th hi
  · intro x hx
    rw [old hx]
    show (s.mem .pool).length = min poolSize ((s.mem .tail).length / B + 1)
    rw [hlen, ← ht]
    rw [hB] at hmod hbig ⊢
    omega
  · intro x hx
    rw [old hx]
    dsimp only
    rw [hlis]
    exact j.entKnown th hi
  · intro x hx
    rw [old hx]
    dsimp only
    rw [hlis]
    exact j.entVal th hi
  · intro x hx
    rw [old hx]
    dsimp only
    rw [hlis]
    exact j.entNone th hi
  · intro k x hx
    rcases get_set hi hx with ⟨rfl, rfl⟩ | ⟨_, hx⟩
    · refine ⟨hmod, ?_⟩
      rw [hmade, ← ht]
      rw [hB] at hmod hbig ⊢
      omega
    · exact j.posJ k x hx
  · intro x hx
    rw [old hx]
    show s.made + 1 = max poolSize ((s.mem .tail).length / B + 1)
    rw [hmade, ← ht]
    rw [hB] at hmod hbig ⊢
    omega

/-- The counter of a block is set to 0. -/
theorem J.reset (j : J s cnt) (hi : s.threads[0]? = some th) {v t b : Nat} (hp : th.pos = .aReset v t b) (ht : t = (s.mem .tail).length)
    (hlt : ∀ k x v, (k, x, v) ∈ s.taken → x < (s.mem .tail).length)
    {g : Msg Loc} {tv' : TView Loc} (hv : g.val = 0) (hb : Below th.tv.cur tv'.cur) :
    J { s with mem := push s.mem (.done (b - 1)) g, threads := s.threads.set 0 ⟨tv', .aEntry v t b⟩ } cnt := by
  have hpos := j.posJ 0 th hi
  rw [hp] at hpos
  obtain ⟨hmod, hbt⟩ := hpos
  have hB : B = 32 := rfl
  have e : ∀ l, l ≠ Loc.done (b - 1) → push s.mem (.done (b - 1)) g l = s.mem l := fun l h => Weak.push_other _ h _
  have etail := e .tail (fun h => nomatch h)
  have epool := e .pool (fun h => nomatch h)
  have eent : ∀ x, push s.mem (.done (b - 1)) g (.entry x) = s.mem (.entry x) := fun x => e _ (fun h => nomatch h)
  have hnil : cnt (b - 1) = [] := by
    cases hc : cnt (b - 1) with
    | nil => rfl
    | cons x l =>
      obtain ⟨h1, k, u, h2⟩ := (j.cntOk (b - 1)).2 x (by rw [hc]; exact List.mem_cons_self)
      have := hlt k x u h2
      rw [← ht] at this
      rw [hB] at h1 hmod hbt
      omega
  have old : ∀ {x : Th}, (s.threads.set 0 ⟨tv', .aEntry v t b⟩)[0]? = some x → x = ⟨tv', .aEntry v t b⟩ := by
    intro x hx
    rcases get_set hi hx with ⟨_, rfl⟩ | ⟨h, _⟩
    · rfl
    · exact absurd rfl h
  have hlis : listed (.aEntry v t b) (s.mem .tail).length = listed th.pos (s.mem .tail).length := by rw [hp]; rfl
  have hgot : got (.aEntry v t b) (s.mem .tail).length = got th.pos (s.mem .tail).length := by rw [hp]; rfl
  constructor
  · exact j.races
  · dsimp only
    rw [epool]; exact j.poolVal
  · intro x hx
    rw [old hx]
    dsimp only
    rw [epool]
    exact Nat.le_trans (j.poolKnown th hi) (hb _)
  · intro x hx
    rw [old hx]
    dsimp only
    rw [epool, etail, hgot]
    exact j.poolLen th hi
  · intro x hx e he
    rw [old hx] at he ⊢
    dsimp only at he ⊢
    rw [etail, hlis] at he
    exact Nat.le_trans (j.entKnown th hi e he) (hb _)
  · intro x hx e he
    rw [old hx] at he
    dsimp only at he ⊢
    rw [etail, hlis] at he
    rw [eent]
    exact j.entVal th hi e he
  · intro x hx e he
    rw [old hx] at he
    dsimp only at he ⊢
    rw [etail, hlis] at he
    rw [eent]
    exact j.entNone th hi e he
  · dsimp only
    rw [etail]; exact j.block
  · dsimp only
    rw [etail]; exact j.tailView
  · intro k x hx
    rcases get_set hi hx with ⟨rfl, rfl⟩ | ⟨_, hx⟩
    · exact ⟨hmod, hbt⟩
    · exact j.posJ k x hx
  · intro x
    dsimp only
    by_cases hx : x = b - 1
    · subst hx
      rw [Weak.push_self, Weak.newest_append, hv, hnil]
      rfl
    · rw [e _ (fun h => hx (by injection h))]
      exact j.count x
  · exact j.cntOk
  · intro x hx
    rw [old hx]
    dsimp only
    rw [etail, hgot]
    exact j.made th hi
  · dsimp only
    rw [e .free (fun h => nomatch h)]
    exact j.freed

/-- A block is put into the table. -/
theorem J.entry (j : J s cnt) (hi : s.threads[0]? = some th) {v t b : Nat} (hp : th.pos = .aEntry v t b) (ht : t = (s.mem .tail).length)
    (hz : ∀ (k : Nat) (x : Th), s.threads[k]? = some x → k ≠ 0 → ∀ u r, x.pos ≠ .aWrite u r ∧ x.pos ≠ .aStore u r)
    {g : Msg Loc} {tv' : TView Loc} (hv : g.val = b) (hb : Below th.tv.cur tv'.cur) (hk : 1 ≤ tv'.cur (.entry (t / B))) :
    J { s with mem := push s.mem (.entry (t / B)) g, tailBlock := b - 1, threads := s.threads.set 0 ⟨tv', .aWrite v t⟩ } cnt := by
  have hpos := j.posJ 0 th hi
  rw [hp] at hpos
  obtain ⟨hmod, hbt⟩ := hpos
  have hB : B = 32 := rfl
  have e : ∀ l, l ≠ Loc.entry (t / B) → push s.mem (.entry (t / B)) g l = s.mem l := fun l h => Weak.push_other _ h _
  have etail := e .tail (fun h => nomatch h)
  have epool := e .pool (fun h => nomatch h)
  have edone : ∀ x, push s.mem (.entry (t / B)) g (.done x) = s.mem (.done x) := fun x => e _ (fun h => nomatch h)
  have old : ∀ {x : Th}, (s.threads.set 0 ⟨tv', .aWrite v t⟩)[0]? = some x → x = ⟨tv', .aWrite v t⟩ := by
    intro x hx
    rcases get_set hi hx with ⟨_, rfl⟩ | ⟨h, _⟩
    · rfl
    · exact absurd rfl h
  have hold : listed th.pos (s.mem .tail).length = t / B := by
    rw [hp, ← ht]
    show (t + 31) / B = _
    rw [hB] at hmod ⊢
    omega
  have hnew : listed (.aWrite v t) (s.mem .tail).length = t / B + 1 := by
    rw [← ht]
    rfl
  have hgot : got (.aWrite v t) (s.mem .tail).length = got th.pos (s.mem .tail).length := by rw [hp]; rfl
  constructor
  · exact j.races
  · dsimp only
    rw [epool]; exact j.poolVal
  · intro x hx
    rw [old hx]
    dsimp only
    rw [epool]
    exact Nat.le_trans (j.poolKnown th hi) (hb _)
  · intro x hx
    rw [old hx]
    dsimp only
    rw [epool, etail, hgot]
    exact j.poolLen th hi
  · intro x hx e he
    rw [old hx] at he ⊢
    dsimp only at he ⊢
    rw [etail, hnew] at he
    by_cases hc : e = t / B
    · rw [hc]
      exact hk
    · exact Nat.le_trans (j.entKnown th hi e (by rw [hold]; omega)) (hb _)
  · intro x hx e' he
    rw [old hx] at he
    dsimp only at he ⊢
    rw [etail, hnew] at he
    by_cases hc : e' = t / B
    · subst hc
      rw [Weak.push_self, j.entNone th hi _ (by rw [hold]; exact Nat.le_refl _)]
      exact Or.inl ⟨g, rfl, by rw [hv, hbt]⟩
    · rw [e _ (fun h => hc (by injection h))]
      exact j.entVal th hi e' (by rw [hold]; omega)
  · intro x hx e' he
    rw [old hx] at he
    dsimp only at he ⊢
    rw [etail, hnew] at he
    rw [e _ (fun h => by injection h with h; omega)]
    exact j.entNone th hi e' (by rw [hold]; omega)
  · dsimp only
    rw [etail, ← ht]
    intro h
    exact absurd hmod h
  · dsimp only
    rw [etail]; exact j.tailView
  · intro k x hx
    rcases get_set hi hx with ⟨rfl, rfl⟩ | ⟨hk0, hx⟩
    · show b - 1 = t / B
      omega
    · have h1 := j.posJ k x hx
      have h2 := hz k x hx hk0
      dsimp only
      cases hq : x.pos with
      | aWrite u r => exact absurd hq (h2 u r).1
      | aStore u r => exact absurd hq (h2 u r).2
      | _ => rw [hq] at h1; exact h1
  · intro x
    dsimp only
    rw [edone]; exact j.count x
  · exact j.cntOk
  · intro x hx
    rw [old hx]
    dsimp only
    rw [etail, hgot]
    exact j.made th hi
  · dsimp only
    rw [e .free (fun h => nomatch h)]
    exact j.freed

/-- The element is made known. -/
theorem J.store (j : J s cnt) (hi : s.threads[0]? = some th) {v t : Nat} (hp : th.pos = .aStore v t) (ht : t = (s.mem .tail).length)
    {g : Msg Loc} {tv' : TView Loc} (hv : Below th.tv.cur g.view) (hb : Below th.tv.cur tv'.cur) (ad : List Nat) :
    J { s with mem := push s.mem .tail g, threads := s.threads.set 0 ⟨tv', .out⟩, added := ad } cnt := by
  have hpos := j.posJ 0 th hi
  rw [hp] at hpos
  have hpos : s.tailBlock = t / B := hpos
  have hB : B = 32 := rfl
  have e : ∀ l, l ≠ Loc.tail → push s.mem .tail g l = s.mem l := fun l h => Weak.push_other _ h _
  have epool := e .pool (fun h => nomatch h)
  have eent : ∀ x, push s.mem .tail g (.entry x) = s.mem (.entry x) := fun x => e _ (fun h => nomatch h)
  have edone : ∀ x, push s.mem .tail g (.done x) = s.mem (.done x) := fun x => e _ (fun h => nomatch h)
  have etail : push s.mem .tail g .tail = s.mem .tail ++ [g] := Weak.push_self _ _ _
  have elen : (push s.mem .tail g .tail).length = t + 1 := by rw [etail, List.length_append, ← ht]; rfl
  have old : ∀ {x : Th}, (s.threads.set 0 ⟨tv', .out⟩)[0]? = some x → x = ⟨tv', .out⟩ := by
    intro x hx
    rcases get_set hi hx with ⟨_, rfl⟩ | ⟨h, _⟩
    · rfl
    · exact absurd rfl h
  have hlis : listed .out (t + 1) = listed th.pos (s.mem .tail).length := by
    rw [hp, ← ht]
    show (t + 1 + 31) / B = t / B + 1
    rw [hB]
    omega
  have hgot : got .out (t + 1) = got th.pos (s.mem .tail).length := by
    rw [hp, ← ht]
    show (t + 1 + 31) / B = t / B + 1
    rw [hB]
    omega
  constructor
  · exact j.races
  · dsimp only
    rw [epool]; exact j.poolVal
  · intro x hx
    rw [old hx]
    dsimp only
    rw [epool]
    exact Nat.le_trans (j.poolKnown th hi) (hb _)
  · intro x hx
    rw [old hx]
    dsimp only
    rw [epool, elen, hgot]
    exact j.poolLen th hi
  · intro x hx e he
    rw [old hx] at he ⊢
    dsimp only at he ⊢
    rw [elen, hlis] at he
    exact Nat.le_trans (j.entKnown th hi e he) (hb _)
  · intro x hx e he
    rw [old hx] at he
    dsimp only at he ⊢
    rw [elen, hlis] at he
    rw [eent]
    exact j.entVal th hi e he
  · intro x hx e he
    rw [old hx] at he
    dsimp only at he ⊢
    rw [elen, hlis] at he
    rw [eent]
    exact j.entNone th hi e he
  · dsimp only
    rw [elen]
    intro h
    rw [hpos]
    rw [hB] at h ⊢
    omega
  · intro n x hx
    dsimp only at hx
    rw [etail] at hx
    by_cases hn : n < (s.mem .tail).length
    · rw [List.getElem?_append_left hn] at hx
      exact j.tailView n x hx
    · have h1 := (List.getElem?_eq_some_iff.mp hx).1
      rw [List.length_append] at h1
      have h1 : n < (s.mem .tail).length + 1 := h1
      have h2 : n = (s.mem .tail).length := by omega
      subst h2
      rw [List.getElem?_append_right (Nat.le_refl _), Nat.sub_self] at hx
      cases hx
      refine Nat.le_trans (j.entKnown th hi _ ?_) (hv _)
      rw [hp]
      exact Nat.lt_succ_self _
  · intro k x hx
    rcases get_set hi hx with ⟨rfl, rfl⟩ | ⟨_, hx⟩
    · exact True.intro
    · exact j.posJ k x hx
  · intro x
    dsimp only
    rw [edone]; exact j.count x
  · exact j.cntOk
  · intro x hx
    rw [old hx]
    dsimp only
    rw [elen, hgot]
    exact j.made th hi
  · dsimp only
    rw [e .free (fun h => nomatch h)]
    exact j.freed

/-- An element is taken. -/
theorem J.take (j : J s cnt) (hi : s.threads[i]? = some th) {x b u : Nat} (hp : th.pos = .pSlot x b) (hx : ∀ k v, (k, x, v) ∉ s.taken)
    {g : Msg Loc} {l m : Nat} {tv' : TView Loc} (hb : Below th.tv.cur tv'.cur) :
    J { s with mem := push s.mem (.slot l m) g, threads := s.threads.set i ⟨tv', .pDone x b⟩, taken := (i, x, u) :: s.taken } cnt := by
  have hpos := j.posJ i th hi
  rw [hp] at hpos
  have hpos : b = x / B + 1 := hpos
  have e : ∀ y, y ≠ Loc.slot l m → push s.mem (.slot l m) g y = s.mem y := fun y h => Weak.push_other _ h _
  have hf : J { s with mem := push s.mem (.slot l m) g, threads := s.threads.set i ⟨tv', .out⟩ } cnt :=
    j.frame hi (th' := ⟨tv', .out⟩) rfl hb (e .tail (fun h => nomatch h)) (e .pool (fun h => nomatch h)) (fun y => e (.entry y) (fun h => nomatch h)) (fun y => e (.done y) (fun h => nomatch h)) j.races rfl (fun h => Or.inl (by rw [← e .free (fun h => nomatch h)]; exact h)) rfl rfl
      (by rw [hp]; rfl) (by rw [hp]; rfl) True.intro
  have hz : ∀ {y : Th}, (s.threads.set i ⟨tv', .pDone x b⟩)[0]? = some y →
      ∃ z : Th, (s.threads.set i ⟨tv', .out⟩)[0]? = some z ∧ z.tv = y.tv ∧ (∀ t, got z.pos t = got y.pos t) ∧ ∀ t, listed z.pos t = listed y.pos t := by
    intro y hy
    rcases get_set hi hy with ⟨rfl, rfl⟩ | ⟨h0, hy⟩
    · obtain ⟨hl, _⟩ := List.getElem?_eq_some_iff.mp hi
      exact ⟨⟨tv', .out⟩, List.getElem?_set_self hl, rfl, fun _ => rfl, fun _ => rfl⟩
    · exact ⟨y, by rw [List.getElem?_set_ne (Ne.symm h0)]; exact hy, rfl, fun _ => rfl, fun _ => rfl⟩
  constructor
  · exact j.races
  · exact hf.poolVal
  · intro y hy
    obtain ⟨z, h1, h2, h3, h4⟩ := hz hy
    rw [← h2]
    exact hf.poolKnown z h1
  · intro y hy
    obtain ⟨z, h1, h2, h3, h4⟩ := hz hy
    rw [← h3]
    exact hf.poolLen z h1
  · intro y hy
    obtain ⟨z, h1, h2, h3, h4⟩ := hz hy
    rw [← h2, ← h4]
    exact hf.entKnown z h1
  · intro y hy
    obtain ⟨z, h1, h2, h3, h4⟩ := hz hy
    rw [← h4]
    exact hf.entVal z h1
  · intro y hy
    obtain ⟨z, h1, h2, h3, h4⟩ := hz hy
    rw [← h4]
    exact hf.entNone z h1
  · exact hf.block
  · exact hf.tailView
  · intro k y hy
    rcases get_set hi hy with ⟨rfl, rfl⟩ | ⟨_, hy⟩
    · refine ⟨hpos, ⟨u, List.mem_cons_self⟩, fun hc => ?_⟩
      obtain ⟨_, k', v', h⟩ := (j.cntOk _).2 x hc
      exact hx k' v' h
    · have h1 := j.posJ k y hy
      dsimp only
      cases hq : y.pos with
      | pDone x' b' =>
        rw [hq] at h1
        obtain ⟨h2, ⟨v', h3⟩, h4⟩ := h1
        exact ⟨h2, ⟨v', List.mem_cons_of_mem _ h3⟩, h4⟩
      | _ => rw [hq] at h1; exact h1
  · exact hf.count
  · intro y
    refine ⟨(j.cntOk y).1, fun z hz' => ?_⟩
    obtain ⟨h1, k, v', h2⟩ := (j.cntOk y).2 z hz'
    exact ⟨h1, k, v', List.mem_cons_of_mem _ h2⟩
  · intro y hy
    obtain ⟨z, h1, h2, h3, h4⟩ := hz hy
    rw [← h3]
    exact hf.made z h1
  · exact hf.freed

/-- An element is counted. -/
theorem J.done (j : J s cnt) (hi : s.threads[i]? = some th) {x b : Nat} (hp : th.pos = .pDone x b)
    (hone : ∀ k k' v v', (k, x, v) ∈ s.taken → (k', x, v') ∈ s.taken → k = k')
    {g : Msg Loc} {tv' : TView Loc} (hv : g.val = (newest (s.mem (.done (b - 1)))).val + 1) (hb : Below th.tv.cur tv'.cur) :
    ∃ cnt', J { s with mem := push s.mem (.done (b - 1)) g, threads := s.threads.set i ⟨tv', if (newest (s.mem (.done (b - 1)))).val = B - 1 then .pNull x b else .out⟩ } cnt' := by
  have hpos := j.posJ i th hi
  rw [hp] at hpos
  obtain ⟨hbx, ⟨u, hu⟩, hnot⟩ := hpos
  have hbe : b - 1 = x / B := by rw [hbx]; rfl
  rw [hbe] at hv ⊢
  have hB : B = 32 := rfl
  have hlen : (cnt (x / B)).length < B := by
    have h1 : (x :: cnt (x / B)).Nodup := List.nodup_cons.mpr ⟨hnot, (j.cntOk _).1⟩
    have h2 := block_len (e := x / B) h1 (fun y hy => by
      rcases List.mem_cons.mp hy with rfl | hy
      · rfl
      · exact ((j.cntOk _).2 y hy).1)
    exact h2
  have hc := j.count (x / B)
  have e : ∀ y, y ≠ Loc.done (x / B) → push s.mem (.done (x / B)) g y = s.mem y := fun y h => Weak.push_other _ h _
  have etail := e .tail (fun h => nomatch h)
  have epool := e .pool (fun h => nomatch h)
  have eent : ∀ y, push s.mem (.done (x / B)) g (.entry y) = s.mem (.entry y) := fun y => e _ (fun h => nomatch h)
  refine ⟨fun y => if y = x / B then x :: cnt y else cnt y, ?_⟩
  have cself : (if x / B = x / B then x :: cnt (x / B) else cnt (x / B)) = x :: cnt (x / B) := if_pos rfl
  have hfull : ∀ y, (cnt y).length = B → (if y = x / B then x :: cnt y else cnt y).length = B := by
    intro y hy
    by_cases h : y = x / B
    · rw [h] at hy
      omega
    · rw [if_neg h]
      exact hy
  have hany : (∃ y, (cnt y).length = B) → ∃ y, (if y = x / B then x :: cnt y else cnt y).length = B :=
    fun ⟨y, hy⟩ => ⟨y, hfull y hy⟩
  obtain ⟨q, hq⟩ : ∃ q, (if (newest (s.mem (.done (x / B)))).val = B - 1 then Pos.pNull x b else .out) = q := ⟨_, rfl⟩
  have hqg : ∀ t, got q t = got th.pos t ∧ listed q t = listed th.pos t := by
    intro t
    rw [hp, ← hq]
    split <;> exact ⟨rfl, rfl⟩
  rw [hq]
  have old : ∀ {y : Th}, (s.threads.set i ⟨tv', q⟩)[0]? = some y → ∃ z : Th, s.threads[0]? = some z ∧ Below z.tv.cur y.tv.cur ∧
      ∀ t, got y.pos t = got z.pos t ∧ listed y.pos t = listed z.pos t := by
    intro y hy
    rcases get_set hi hy with ⟨rfl, rfl⟩ | ⟨_, hy⟩
    · exact ⟨th, hi, hb, hqg⟩
    · exact ⟨y, hy, Weak.Below.refl _, fun _ => ⟨rfl, rfl⟩⟩
  constructor
  · exact j.races
  · dsimp only
    rw [epool]; exact j.poolVal
  · intro y hy
    obtain ⟨z, h1, h2, h3⟩ := old hy
    dsimp only
    rw [epool]
    exact Nat.le_trans (j.poolKnown z h1) (h2 _)
  · intro y hy
    obtain ⟨z, h1, h2, h3⟩ := old hy
    dsimp only
    rw [epool, etail, (h3 _).1]
    exact j.poolLen z h1
  · intro y hy e' he
    obtain ⟨z, h1, h2, h3⟩ := old hy
    dsimp only at he
    rw [etail, (h3 _).2] at he
    exact Nat.le_trans (j.entKnown z h1 e' he) (h2 _)
  · intro y hy e' he
    obtain ⟨z, h1, h2, h3⟩ := old hy
    dsimp only at he ⊢
    rw [etail, (h3 _).2] at he
    rw [eent]
    rcases j.entVal z h1 e' he with h | h
    · exact Or.inl h
    · exact Or.inr (hfull _ h)
  · intro y hy e' he
    obtain ⟨z, h1, h2, h3⟩ := old hy
    dsimp only at he ⊢
    rw [etail, (h3 _).2] at he
    rw [eent]
    exact j.entNone z h1 e' he
  · dsimp only
    rw [etail]; exact j.block
  · dsimp only
    rw [etail]; exact j.tailView
  · intro k y hy
    rcases get_set hi hy with ⟨rfl, rfl⟩ | ⟨hk, hy⟩
    · dsimp only
      rw [← hq]
      split
      · rename_i hl
        show (if x / B = x / B then x :: cnt (x / B) else cnt (x / B)).length = B
        rw [cself, List.length_cons, ← hc, hl]
        rfl
      · exact True.intro
    · have h1 := j.posJ k y hy
      dsimp only
      cases hq : y.pos with
      | pDone x' b' =>
        rw [hq] at h1
        obtain ⟨h2, ⟨v', h3⟩, h4⟩ := h1
        refine ⟨h2, ⟨v', h3⟩, ?_⟩
        show x' ∉ (if x' / B = x / B then x :: cnt (x' / B) else cnt (x' / B))
        by_cases h : x' / B = x / B
        · rw [if_pos h]
          intro hm
          rcases List.mem_cons.mp hm with rfl | hm
          · exact hk (hone _ _ _ _ h3 hu)
          · exact h4 hm
        · rw [if_neg h]
          exact h4
      | pNull x' b' =>
        rw [hq] at h1
        exact hfull _ h1
      | pFree b' => rw [hq] at h1; exact hany h1
      | kHead b' k' => rw [hq] at h1; exact hany h1
      | kNext b' h' k' => rw [hq] at h1; exact hany h1
      | kRefs b' h' k' => rw [hq] at h1; exact hany h1
      | kCas b' h' k' => rw [hq] at h1; exact hany h1
      | kBack b' h' k' => rw [hq] at h1; exact hany h1
      | _ => rw [hq] at h1; exact h1
  · intro y
    dsimp only
    by_cases h : y = x / B
    · subst h
      rw [Weak.push_self, Weak.newest_append, hv, cself, List.length_cons, hc]
    · rw [e _ (fun h' => h (by injection h')), if_neg h]
      exact j.count y
  · intro y
    dsimp only
    by_cases h : y = x / B
    · rw [if_pos h]
      subst h
      refine ⟨List.nodup_cons.mpr ⟨hnot, (j.cntOk _).1⟩, fun z hz => ?_⟩
      rcases List.mem_cons.mp hz with rfl | hz
      · exact ⟨rfl, i, u, hu⟩
      · exact (j.cntOk _).2 z hz
    · rw [if_neg h]
      exact j.cntOk y
  · intro y hy
    obtain ⟨z, h1, h2, h3⟩ := old hy
    dsimp only
    rw [etail, (h3 _).1]
    exact j.made z h1
  · dsimp only
    rw [e .free (fun h => nomatch h)]
    exact fun h => hany (j.freed h)

/-- The entry of a block whose elements are all counted is cleared. -/
theorem J.null (j : J s cnt) (hi : s.threads[i]? = some th) {x b : Nat} (hp : th.pos = .pNull x b)
    (hlt : ∀ k x v, (k, x, v) ∈ s.taken → x < (s.mem .tail).length)
    {g : Msg Loc} {tv' : TView Loc} (hb : Below th.tv.cur tv'.cur) :
    J { s with mem := push s.mem (.entry (x / B)) g, threads := s.threads.set i ⟨tv', .pFree b⟩ } cnt := by
  have hpos := j.posJ i th hi
  rw [hp] at hpos
  have hfull : (cnt (x / B)).length = B := hpos
  have hB : B = 32 := rfl
  have hlow := j.full_lt hlt hfull
  have hle : ∀ p t, (t + 31) / B ≤ listed p t := by
    intro p t
    cases p <;> first | exact Nat.le_refl _ | skip
    all_goals
      show (t + 31) / B ≤ t / B + 1
      rw [hB]
      omega
  have e : ∀ y, y ≠ Loc.entry (x / B) → push s.mem (.entry (x / B)) g y = s.mem y := fun y h => Weak.push_other _ h _
  have etail := e .tail (fun h => nomatch h)
  have epool := e .pool (fun h => nomatch h)
  have edone : ∀ y, push s.mem (.entry (x / B)) g (.done y) = s.mem (.done y) := fun y => e _ (fun h => nomatch h)
  have old : ∀ {y : Th}, (s.threads.set i ⟨tv', .pFree b⟩)[0]? = some y → ∃ z : Th, s.threads[0]? = some z ∧ Below z.tv.cur y.tv.cur ∧
      ∀ t, got y.pos t = got z.pos t ∧ listed y.pos t = listed z.pos t := by
    intro y hy
    rcases get_set hi hy with ⟨rfl, rfl⟩ | ⟨_, hy⟩
    · exact ⟨th, hi, hb, fun t => by rw [hp]; exact ⟨rfl, rfl⟩⟩
    · exact ⟨y, hy, Weak.Below.refl _, fun _ => ⟨rfl, rfl⟩⟩
  constructor
  · exact j.races
  · dsimp only
    rw [epool]; exact j.poolVal
  · intro y hy
    obtain ⟨z, h1, h2, h3⟩ := old hy
    dsimp only
    rw [epool]
    exact Nat.le_trans (j.poolKnown z h1) (h2 _)
  · intro y hy
    obtain ⟨z, h1, h2, h3⟩ := old hy
    dsimp only
    rw [epool, etail, (h3 _).1]
    exact j.poolLen z h1
  · intro y hy e' he
    obtain ⟨z, h1, h2, h3⟩ := old hy
    dsimp only at he
    rw [etail, (h3 _).2] at he
    exact Nat.le_trans (j.entKnown z h1 e' he) (h2 _)
  · intro y hy e' he
    obtain ⟨z, h1, h2, h3⟩ := old hy
    dsimp only at he ⊢
    rw [etail, (h3 _).2] at he
    by_cases h : e' = x / B
    · rw [h]
      exact Or.inr hfull
    · rw [e _ (fun h' => h (by injection h'))]
      exact j.entVal z h1 e' he
  · intro y hy e' he
    obtain ⟨z, h1, h2, h3⟩ := old hy
    dsimp only at he ⊢
    rw [etail, (h3 _).2] at he
    have := hle z.pos (s.mem .tail).length
    rw [e _ (fun h' => by injection h' with h'; omega)]
    exact j.entNone z h1 e' he
  · dsimp only
    rw [etail]; exact j.block
  · dsimp only
    rw [etail]; exact j.tailView
  · intro k y hy
    rcases get_set hi hy with ⟨rfl, rfl⟩ | ⟨_, hy⟩
    · exact ⟨_, hfull⟩
    · exact j.posJ k y hy
  · intro y
    dsimp only
    rw [edone]; exact j.count y
  · exact j.cntOk
  · intro y hy
    obtain ⟨z, h1, h2, h3⟩ := old hy
    dsimp only
    rw [etail, (h3 _).1]
    exact j.made z h1
  · dsimp only
    rw [e .free (fun h => nomatch h)]
    exact j.freed

end Verif.WeakReuse
