import Verif.WeakReuse.Inv
/-!
# While blocks are used for the first time, every step is one of the queue without blocks
-/
namespace Verif.WeakReuse
open Verif.Weak (View TView Mem Msg join bot upto msgAt newest push load store rmw fence write Below VR GR LR MR TR Inj)

section
variable {s s' : Sys} {cnt : Nat → List Nat} {i : Nat} {th : Th}

theorem loads_some {acq : Bool} {tv : TView Loc} {l : Loc} {n : Nat} {k : Nat → Pos} (h : loads s i acq tv l n k = some s') :
    ∃ v tv', load acq s.mem tv l n = some (v, tv') ∧ s' = put s i tv' (k v) := by
  unfold loads at h
  split at h
  · rename_i v tv' e
    exact ⟨v, tv', e, (Option.some.inj h).symm⟩
  · cases h

theorem tries_some {acq rel : Bool} {tv : TView Loc} {l : Loc} {old new n : Nat} {p : Pos} {k : Nat → Pos} (h : tries s i acq rel tv l old new n p k = some s') :
    s' = put { s with mem := (rmw acq rel (fun _ => new) s.mem tv l).2.1 } i (rmw acq rel (fun _ => new) s.mem tv l).2.2 p ∨
      ∃ v tv', load false s.mem tv l n = some (v, tv') ∧ s' = put s i tv' (k v) := by
  unfold tries cas at h
  by_cases hc : n = (s.mem l).length ∧ (newest (s.mem l)).val = old
  · rw [if_pos hc] at h
    exact Or.inl (Option.some.inj h).symm
  · rw [if_neg hc] at h
    cases hl : load false s.mem tv l n with
    | none => rw [hl] at h; cases h
    | some r =>
      obtain ⟨v, tv'⟩ := r
      rw [hl] at h
      dsimp only at h
      by_cases hv : v = old
      · rw [if_pos hv] at h
        cases h
      · rw [if_neg hv] at h
        exact Or.inr ⟨v, tv', rfl, (Option.some.inj h).symm⟩

/-- The thread learns something. -/
theorem J.reads (j : J s cnt) (hi : s.threads[i]? = some th) {tv' : TView Loc} {p : Pos} (hb : Below th.tv.cur tv'.cur)
    (hg : got p (s.mem .tail).length = got th.pos (s.mem .tail).length) (hl : listed p (s.mem .tail).length = listed th.pos (s.mem .tail).length)
    (hp : PosJ s.tailBlock s.taken cnt i p) : J (put s i tv' p) cnt :=
  j.frame (s' := put s i tv' p) (th' := ⟨tv', p⟩) hi rfl hb rfl rfl (fun _ => rfl) (fun _ => rfl) j.races rfl Or.inl rfl rfl hg hl hp

/-- Locations that are not about where elements are. -/
def Far (l : Loc) : Prop := l ≠ .tail ∧ l ≠ .pool ∧ (∀ e, l ≠ .entry e) ∧ ∀ e, l ≠ .done e

/-- The thread writes to one of them. -/
theorem J.pushes (j : J s cnt) (hi : s.threads[i]? = some th) {l : Loc} (hf : Far l) (hfr : l = .free → ∃ e, (cnt e).length = B) {g : Msg Loc} {tv' : TView Loc} {p : Pos} (hb : Below th.tv.cur tv'.cur)
    (hg : got p (s.mem .tail).length = got th.pos (s.mem .tail).length) (hl : listed p (s.mem .tail).length = listed th.pos (s.mem .tail).length)
    (hp : PosJ s.tailBlock s.taken cnt i p) : J (put { s with mem := push s.mem l g } i tv' p) cnt :=
  j.frame (s' := put { s with mem := push s.mem l g } i tv' p) (th' := ⟨tv', p⟩) hi rfl hb (Weak.push_other _ hf.1.symm _) (Weak.push_other _ hf.2.1.symm _)
    (fun e => Weak.push_other _ (hf.2.2.1 e).symm _) (fun e => Weak.push_other _ (hf.2.2.2 e).symm _) j.races rfl
    (fun h => by
      by_cases e : l = .free
      · exact Or.inr (hfr e)
      · refine Or.inl (fun h' => h ?_)
        show push s.mem l g .free = []
        rw [Weak.push_other _ (Ne.symm e), h'])
    rfl rfl hg hl hp

theorem far_of {l : Loc} (h1 : l ≠ .tail) (h2 : l ≠ .pool) (h3 : ∀ e, l ≠ .entry e) (h4 : ∀ e, l ≠ .done e) : Far l := ⟨h1, h2, h3, h4⟩

theorem nodup_map_inj {α β : Type} {f : α → β} : ∀ {l : List α}, (l.map f).Nodup → ∀ {a b : α}, a ∈ l → b ∈ l → f a = f b → a = b := by
  intro l
  induction l with
  | nil => intro _ a b ha; cases ha
  | cons x l ih =>
    intro hn a b ha hb e
    rw [List.map_cons, List.nodup_cons] at hn
    rcases List.mem_cons.mp ha with rfl | ha'
    · rcases List.mem_cons.mp hb with rfl | hb'
      · rfl
      · exact absurd (List.mem_map.mpr ⟨b, hb', e.symm⟩) hn.1
    · rcases List.mem_cons.mp hb with rfl | hb'
      · exact absurd (List.mem_map.mpr ⟨a, ha', e⟩) hn.1
      · exact ih hn.2 ha' hb' e

end

section
variable {s s' : Sys} {cnt : Nat → List Nat} {i : Nat} {th : Th} {w : Weak.Sys} {tk : Weak.Tk} {hd : Weak.Hd}

theorem taken_lt (r : Rel s.mem s.threads s.added s.taken w) (inv : Weak.Inv w tk hd) (k x v : Nat) (h : (k, x, v) ∈ s.taken) : x < (s.mem .tail).length := by
  rw [← r.taken, List.mem_map] at h
  obtain ⟨e, he, hp⟩ := h
  obtain ⟨_, u, hu, _⟩ := inv.took e he
  have h1 := (List.getElem?_eq_some_iff.mp hu).1
  rw [inv.addLen] at h1
  have h2 : (w.mem .tail).length = (s.mem .tail).length := (r.mem .tail).1
  have h3 : e.index = x := congrArg (·.2.1) hp
  rw [← h3, ← h2]
  exact h1

theorem taken_one (r : Rel s.mem s.threads s.added s.taken w) (inv : Weak.Inv w tk hd) {x : Nat} (k k' v v' : Nat) (h : (k, x, v) ∈ s.taken) (h' : (k', x, v') ∈ s.taken) : k = k' := by
  rw [← r.taken, List.mem_map] at h h'
  obtain ⟨e, he, hp⟩ := h
  obtain ⟨e', he', hp'⟩ := h'
  have h1 : e.index = x := congrArg (·.2.1) hp
  have h2 : e'.index = x := congrArg (·.2.1) hp'
  have := nodup_map_inj inv.once he he' (h1.trans h2.symm)
  subst this
  exact (congrArg (·.1) hp).symm.trans (congrArg (·.1) hp')

theorem taken_not (r : Rel s.mem s.threads s.added s.taken w) (inv : Weak.Inv w tk hd) {x j : Nat} (hx : hd[x]? = some (j, false)) (k v : Nat) : (k, x, v) ∉ s.taken := by
  intro h
  rw [← r.taken, List.mem_map] at h
  obtain ⟨e, he, hp⟩ := h
  obtain ⟨⟨j', h1⟩, _⟩ := inv.took e he
  have h3 : e.index = x := congrArg (·.2.1) hp
  rw [h3, hx] at h1
  cases h1

theorem others_not (r : Rel s.mem s.threads s.added s.taken w) (inv : Weak.Inv w tk hd) (k : Nat) (x : Th) (hk : s.threads[k]? = some x) (h0 : k ≠ 0) (u t : Nat) :
    x.pos ≠ .aWrite u t ∧ x.pos ≠ .aStore u t := by
  obtain ⟨x', h1, _, h3⟩ := r.threads k x hk
  have h4 := inv.posOk k x' h1
  constructor
  · intro e
    rw [e] at h3
    obtain ⟨w', h3⟩ := h3
    rw [h3] at h4
    exact h0 (h4.1.trans r.adder)
  · intro e
    rw [e] at h3
    obtain ⟨w', h3⟩ := h3
    rw [h3] at h4
    exact h0 (h4.1.trans r.adder)

theorem div_lt {t : Nat} (h : poolSize ≤ t / B) : ¬ t < 192 := by
  have h : 6 ≤ t / 32 := h
  omega

theorem div_ceil {t : Nat} (h : t % B = 0) : (t + 31) / B = t / B := by
  have h : t % 32 = 0 := h
  show (t + 31) / 32 = t / 32
  omega

theorem div_ceil' {t : Nat} (h : t % B ≠ 0) : t / B + 1 = (t + 31) / B := by
  have h : t % 32 ≠ 0 := h
  show t / 32 + 1 = (t + 31) / 32
  omega

theorem place (t : Nat) : phi (.slot (t / B) (t % B)) = .slot t := by
  rw [phi_slot (Nat.mod_lt _ (by decide)), Nat.mul_comm, Nat.div_add_mod]

/-- One step. -/
theorem step_sim (r : Rel s.mem s.threads s.added s.taken w) (inv : Weak.Inv w tk hd) (j : J s cnt) (hT : (s.mem .tail).length < 192 ∨ s.mem .free = []) (hi : s.threads[i]? = some th) {n : Nat}
    (h : step s i th n = some s') : Goes w s'.mem s'.threads s'.added s'.taken ∧ ∃ cnt', J s' cnt' := by
  obtain ⟨th', hi', ht, hpr⟩ := r.threads i th hi
  obtain ⟨tv', q⟩ := th'
  dsimp only at ht hpr
  have hpo := inv.posOk i _ hi'
  dsimp only at hpo
  have hlen : (w.mem .tail).length = (s.mem .tail).length := (r.mem .tail).1
  have hpj := j.posJ i th hi
  cases hp : th.pos with
  | out => rw [step, hp] at h; cases h
  | aTail v =>
    rw [hp] at hpr
    obtain ⟨w0, rfl⟩ := hpr
    have h0 : i = 0 := hpo.1.trans r.adder
    subst h0
    rw [step, hp] at h
    obtain ⟨t, tv1, hl, rfl⟩ := loads_some h
    obtain ⟨hb, hge, g, hg, hgv⟩ := Weak.load_get hl
    have htT : t = (s.mem .tail).length := by
      have hprod := (inv.prod _ (by rw [r.adder]; exact hi')).1
      dsimp only at hprod
      have hcur : tv'.cur .tail = th.tv.cur .tail := ht.1 .tail
      obtain ⟨g', hg', hgg⟩ := (r.mem .tail).msgAt hg
      have hval := Weak.msgAt_val inv.tailVal hg'
      have hle := Weak.msgAt_le hg
      have := hgg.1
      omega
    obtain ⟨tv1', h1, h2⟩ := Weak.load_rel phi_inj r.mem ht hl
    have hs : Weak.step w 0 ⟨tv', .addLoad v w0⟩ n = some { w with threads := w.threads.set 0 ⟨tv1', .addWrite v w0 t⟩ } := by
      rw [Weak.step]
      dsimp only
      have h1 : load false w.mem tv' Weak.Loc.tail n = some (t, tv1') := h1
      rw [h1]
    by_cases hm : t % B = 0
    · rw [if_pos hm]
      exact ⟨goes_step hi' hs (r.upd hi (m1' := w.mem) (q1 := .aPool v t) r.mem h2 ⟨w0, rfl⟩ w.empty w.ok), cnt, j.reads hi hb (by rw [hp]; rfl) (by rw [hp]; rfl) hm⟩
    · rw [if_neg hm]
      refine ⟨goes_step hi' hs (r.upd hi (m1' := w.mem) (q1 := .aWrite v t) r.mem h2 ⟨w0, rfl⟩ w.empty w.ok), cnt, j.reads hi hb ?_ ?_ ?_⟩
      · rw [hp, ← htT]
        exact div_ceil' hm
      · rw [hp, ← htT]
        exact div_ceil' hm
      · show s.tailBlock = t / B
        rw [htT]
        exact j.block (by rw [← htT]; exact hm)
  | aPool v t =>
    rw [hp] at hpr hpj
    obtain ⟨w0, rfl⟩ := hpr
    have h0 : i = 0 := hpo.1.trans r.adder
    subst h0
    have htT : t = (s.mem .tail).length := hpo.2.2.trans hlen
    rw [step, hp] at h
    obtain ⟨x, tv1, hl, rfl⟩ := loads_some h
    obtain ⟨hb, hge, g, hg, hgv⟩ := Weak.load_get hl
    have hx : x = min poolSize (t / B) := by
      have h1 := j.poolLen th hi
      rw [hp] at h1
      have h1 : (s.mem .pool).length = min poolSize (((s.mem .tail).length + 31) / B) := h1
      rw [← htT, div_ceil hpj] at h1
      have h2 := msgAt_val j.poolVal hg
      have h3 := Weak.msgAt_le hg
      have h4 := j.poolKnown th hi
      omega
    by_cases hc : poolSize ≤ x
    · rw [if_pos hc]
      exact ⟨goes_read r hi hi' ht rfl hl (q1 := .aFree v t) ⟨w0, rfl⟩, cnt, j.reads hi hb (by rw [hp]; rfl) (by rw [hp]; rfl) ⟨hpj, by omega⟩⟩
    · rw [if_neg hc]
      exact ⟨goes_read r hi hi' ht rfl hl (q1 := .aPoolAdd v t) ⟨w0, rfl⟩, cnt, j.reads hi hb (by rw [hp]; rfl) (by rw [hp]; rfl) ⟨hpj, by omega⟩⟩
  | aFree v t =>
    rw [hp] at hpr hpj
    obtain ⟨w0, rfl⟩ := hpr
    have htT : t = (s.mem .tail).length := hpo.2.2.trans hlen
    have hfree : s.mem .free = [] := by
      rcases hT with h | h
      · rw [← htT] at h
        exact absurd h (div_lt hpj.2)
      · exact h
    rw [step, hp] at h
    obtain ⟨x, tv1, hl, rfl⟩ := loads_some h
    obtain ⟨hb, hge, g, hg, hgv⟩ := Weak.load_get hl
    have hx : x = 0 := by
      rw [hfree] at hg
      have := Weak.msgAt_le hg
      have : n ≤ 0 := this
      have : n = 0 := by omega
      subst this
      cases hg
      exact hgv.symm
    subst hx
    exact ⟨goes_read r hi hi' ht rfl hl (q1 := .aNew v t) ⟨w0, rfl⟩, cnt, j.reads hi (p := .aNew v t) hb (by rw [hp]; rfl) (by rw [hp]; rfl) hpj⟩
  | aNew v t =>
    rw [hp] at hpr hpj
    obtain ⟨w0, rfl⟩ := hpr
    have h0 : i = 0 := hpo.1.trans r.adder
    subst h0
    have htT : t = (s.mem .tail).length := hpo.2.2.trans hlen
    rw [step, hp] at h
    cases h
    refine ⟨⟨w, Or.inr rfl, { r with len := ?_, threads := ?_ }⟩, cnt, j.new hi hp htT⟩
    · show w.threads.length = (s.threads.set 0 _).length
      rw [List.length_set]
      exact r.len
    · intro k x hx
      have hx : (s.threads.set 0 ⟨th.tv, .aReset v t (s.made + 1)⟩)[k]? = some x := hx
      rcases get_set hi hx with ⟨rfl, rfl⟩ | ⟨_, hx⟩
      · exact ⟨_, hi', ht, ⟨w0, rfl⟩⟩
      · exact r.threads k x hx
  | aPoolAdd v t =>
    rw [hp] at hpr hpj
    obtain ⟨w0, rfl⟩ := hpr
    have h0 : i = 0 := hpo.1.trans r.adder
    subst h0
    have htT : t = (s.mem .tail).length := hpo.2.2.trans hlen
    rw [step, hp] at h
    cases h
    have hx : (newest (s.mem .pool)).val = t / B := by
      rw [newest_val j.poolVal]
      have h1 := j.poolLen th hi
      rw [hp] at h1
      have h1 : (s.mem .pool).length = min poolSize (((s.mem .tail).length + 31) / B) := h1
      rw [← htT, div_ceil hpj.1] at h1
      have := hpj.2
      omega
    have hlt : t / B < poolSize := hpj.2
    have hq : (if (rmw false false (· + 1) s.mem th.tv .pool).1 < poolSize then Pos.aReset v t ((rmw false false (· + 1) s.mem th.tv .pool).1 + 1) else .aFree v t) =
        .aReset v t (t / B + 1) := by
      have : (rmw false false (· + 1) s.mem th.tv .pool).1 = t / B := hx
      rw [this, if_pos hlt]
    unfold changes
    dsimp only
    rw [hq]
    refine ⟨goes_rmw r hi hi' ht false false (· + 1) rfl (q1 := .aReset v t (t / B + 1)) ⟨w0, rfl⟩, cnt, ?_⟩
    refine j.poolAdd hi hp htT (g := ⟨(newest (s.mem .pool)).val + 1, _⟩) ?_ (Weak.rmw_grows _ _ _ _) ?_
    · show _ + 1 = _
      rw [newest_val j.poolVal]
    · refine Nat.le_trans ?_ (Weak.below_join_left _ _ Loc.pool)
      refine Nat.le_trans ?_ (Weak.below_join_right _ _ Loc.pool)
      show _ ≤ upto _ _ _
      unfold Weak.upto
      rw [if_pos rfl]
      exact Nat.le_refl _
  | aReset v t b =>
    rw [hp] at hpr hpj
    obtain ⟨w0, rfl⟩ := hpr
    have h0 : i = 0 := hpo.1.trans r.adder
    subst h0
    have htT : t = (s.mem .tail).length := hpo.2.2.trans hlen
    rw [step, hp] at h
    cases h
    refine ⟨goes_store r hi hi' ht false rfl 0 (q1 := .aEntry v t b) ⟨w0, rfl⟩, cnt, ?_⟩
    exact j.reset hi hp htT (taken_lt r inv) (g := ⟨0, _⟩) rfl (Weak.store_grows _ _ _)
  | aEntry v t b =>
    rw [hp] at hpr hpj
    obtain ⟨w0, rfl⟩ := hpr
    have h0 : i = 0 := hpo.1.trans r.adder
    subst h0
    have htT : t = (s.mem .tail).length := hpo.2.2.trans hlen
    rw [step, hp] at h
    cases h
    refine ⟨goes_store r hi hi' ht false rfl b (q1 := .aWrite v t) ⟨w0, rfl⟩, cnt, ?_⟩
    refine j.entry hi hp htT (others_not r inv) (g := ⟨b, _⟩) rfl (Weak.store_grows _ _ _) ?_
    refine Nat.le_trans ?_ (Weak.below_join_right _ _ (Loc.entry (t / B)))
    show _ ≤ upto _ _ _
    unfold Weak.upto
    rw [if_pos rfl]
    exact Nat.le_add_left _ _
  | aWrite v t =>
    rw [hp] at hpr hpj
    obtain ⟨w0, rfl⟩ := hpr
    have hpj : s.tailBlock = t / B := hpj
    rw [step, hp] at h
    cases h
    obtain ⟨h1, h2, h3⟩ := Weak.write_rel phi_inj r.mem ht (.slot s.tailBlock (t % B)) v
    have hph : phi (.slot s.tailBlock (t % B)) = .slot t := by rw [hpj]; exact place t
    rw [hph] at h1 h2 h3
    have hs : Weak.step w i ⟨tv', .addWrite v w0 t⟩ n = some { w with mem := (write w.mem tv' (.slot t) v).1, threads := w.threads.set i ⟨(write w.mem tv' (.slot t) v).2.1, .addStore v w0 t⟩, ok := w.ok && (write w.mem tv' (.slot t) v).2.2 } := rfl
    obtain ⟨_, _, inv'⟩ := Weak.step_inv inv hi' hs
    have hok : (write s.mem th.tv (.slot s.tailBlock (t % B)) v).2.2 = true := by
      rw [← h3]
      exact (Bool.and_eq_true_iff.mp inv'.ok).2
    refine ⟨goes_step hi' hs (r.upd hi (q1 := .aStore v t) h1 h2 ⟨w0, rfl⟩ w.empty _), cnt, ?_⟩
    refine j.frame (th' := ⟨_, .aStore v t⟩) hi rfl (Weak.write_grows _ v) ?_ ?_ (fun e => ?_) (fun e => ?_) ?_ rfl ?_ rfl rfl (by rw [hp]; rfl) (by rw [hp]; rfl) hpj
    · exact Weak.push_other s.mem (l := .slot s.tailBlock (t % B)) (l' := .tail) (fun h => nomatch h) ⟨v, bot⟩
    · exact Weak.push_other s.mem (l := .slot s.tailBlock (t % B)) (l' := .pool) (fun h => nomatch h) ⟨v, bot⟩
    · exact Weak.push_other s.mem (l := .slot s.tailBlock (t % B)) (l' := .entry e) (fun h => nomatch h) ⟨v, bot⟩
    · exact Weak.push_other s.mem (l := .slot s.tailBlock (t % B)) (l' := .done e) (fun h => nomatch h) ⟨v, bot⟩
    · show (if (write s.mem th.tv (.slot s.tailBlock (t % B)) v).2.2 then s.races else _) = []
      rw [hok]
      exact j.races
    · intro h
      refine Or.inl (fun h' => h ?_)
      show push s.mem (.slot s.tailBlock (t % B)) ⟨v, bot⟩ .free = []
      rw [Weak.push_other s.mem (l := .slot s.tailBlock (t % B)) (l' := .free) (fun h => nomatch h), h']
  | aStore v t =>
    rw [hp] at hpr hpj
    obtain ⟨w0, rfl⟩ := hpr
    have h0 : i = 0 := hpo.1.trans r.adder
    subst h0
    have htT : t = (s.mem .tail).length := hpo.2.2.1.trans hlen
    rw [step, hp] at h
    cases h
    obtain ⟨h1, h2, h3⟩ := Weak.store_rel phi_inj r.mem ht true .tail (t + 1)
    have ru := r.upd hi h1 h2 (q1 := .out) (q1' := .out) rfl w.empty (w.ok && (store true w.mem tv' (phi .tail) (t + 1)).2.2)
    refine ⟨goes_step (n := n) hi' rfl { ru with mem := ru.mem, threads := ru.threads, added := ?_ }, cnt, ?_⟩
    · show (w.added ++ [(v, w0)]).map Prod.fst = s.added ++ [v]
      rw [List.map_append, r.added]
      rfl
    · exact j.store hi hp htT (g := ⟨t + 1, _⟩) (Weak.below_join_left _ _) (Weak.store_grows _ _ _) _
  | pTail =>
    rw [hp] at hpr
    have hpr : q = .pTail := hpr
    subst hpr
    rw [step, hp] at h
    obtain ⟨t, tv1, hl, rfl⟩ := loads_some h
    obtain ⟨tv1', h1, h2⟩ := Weak.load_rel phi_inj r.mem ht hl
    have hs : Weak.step w i ⟨tv', .pTail⟩ n = some { w with threads := w.threads.set i ⟨tv1', .pOver t⟩ } := by
      rw [Weak.step]
      dsimp only
      have h1 : load false w.mem tv' Weak.Loc.tail n = some (t, tv1') := h1
      rw [h1]
    exact ⟨goes_step hi' hs (r.upd hi (m1' := w.mem) (q1 := .pOver t) r.mem h2 rfl w.empty w.ok), cnt, j.reads hi (Weak.load_get hl).1 (by rw [hp]; rfl) (by rw [hp]; rfl) True.intro⟩
  | pOver t =>
    rw [hp] at hpr
    have hpr : q = .pOver t := hpr
    subst hpr
    rw [step, hp] at h
    obtain ⟨o, tv1, hl, rfl⟩ := loads_some h
    obtain ⟨tv1', h1, h2⟩ := Weak.load_rel phi_inj r.mem ht hl
    have hs : Weak.step w i ⟨tv', .pOver t⟩ n = some { w with threads := w.threads.set i ⟨tv1', .pCount t o⟩ } := by
      rw [Weak.step]
      dsimp only
      have h1 : load false w.mem tv' Weak.Loc.over n = some (o, tv1') := h1
      rw [h1]
    exact ⟨goes_step hi' hs (r.upd hi (m1' := w.mem) (q1 := .pCount t o) r.mem h2 rfl w.empty w.ok), cnt, j.reads hi (Weak.load_get hl).1 (by rw [hp]; rfl) (by rw [hp]; rfl) True.intro⟩
  | pCount t o =>
    rw [hp] at hpr
    have hpr : q = .pCount t o := hpr
    subst hpr
    rw [step, hp] at h
    obtain ⟨c, tv1, hl, rfl⟩ := loads_some h
    obtain ⟨tv1', h1, h2⟩ := Weak.load_rel phi_inj r.mem ht hl
    have h1 : load false w.mem tv' Weak.Loc.count n = some (c, tv1') := h1
    by_cases hc : (c : Int) - o < t
    · rw [if_pos hc]
      have hs : Weak.step w i ⟨tv', .pCount t o⟩ n = some { w with threads := w.threads.set i ⟨tv1', .pFence o⟩ } := by
        rw [Weak.step]
        dsimp only
        rw [h1]
        dsimp only
        rw [if_pos hc]
      exact ⟨goes_step hi' hs (r.upd hi (m1' := w.mem) (q1 := .pFence o) r.mem h2 rfl w.empty w.ok), cnt, j.reads hi (Weak.load_get hl).1 (by rw [hp]; rfl) (by rw [hp]; rfl) True.intro⟩
    · rw [if_neg hc]
      have hs : Weak.step w i ⟨tv', .pCount t o⟩ n = some { w with threads := w.threads.set i ⟨tv1', .out⟩, empty := w.empty + 1 } := by
        rw [Weak.step]
        dsimp only
        rw [h1]
        dsimp only
        rw [if_neg hc]
      exact ⟨goes_step hi' hs (r.upd hi (m1' := w.mem) (q1 := .out) r.mem h2 rfl _ w.ok), cnt, j.reads hi (Weak.load_get hl).1 (by rw [hp]; rfl) (by rw [hp]; rfl) True.intro⟩
  | pFence o =>
    rw [hp] at hpr
    have hpr : q = .pFence o := hpr
    subst hpr
    rw [step, hp] at h
    cases h
    have htv := inv.tvOk i _ hi'
    refine ⟨goes_step (n := n) hi' rfl (r.upd hi (m1' := w.mem) (q1 := .pTicket o) r.mem (Weak.fence_rel ht) rfl w.empty w.ok), cnt,
      j.reads hi ?_ (by rw [hp]; rfl) (by rw [hp]; rfl) True.intro⟩
    exact VR.below ht.1 ht.2 htv.le
  | pTicket o =>
    rw [hp] at hpr
    have hpr : q = .pTicket o := hpr
    subst hpr
    rw [step, hp] at h
    cases h
    obtain ⟨h0, h1, h2⟩ := Weak.rmw_rel phi_inj r.mem ht false false (· + 1) .count
    refine ⟨goes_step (n := n) hi' rfl (r.upd hi (q1 := .pAgain o (rmw false false (· + 1) s.mem th.tv .count).1) h1 h2 ?_ w.empty w.ok), cnt,
      j.pushes hi (l := .count) (far_of (fun h => nomatch h) (fun h => nomatch h) (fun _ h => nomatch h) (fun _ h => nomatch h)) (fun h => nomatch h) (Weak.rmw_grows _ _ _ _) (by rw [hp]; rfl) (by rw [hp]; rfl) True.intro⟩
    rw [← h0]
    rfl
  | pAgain o m =>
    rw [hp] at hpr
    have hpr : q = .pAgain o m := hpr
    subst hpr
    rw [step, hp] at h
    obtain ⟨t, tv1, hl, rfl⟩ := loads_some h
    obtain ⟨tv1', h1, h2⟩ := Weak.load_rel phi_inj r.mem ht hl
    have h1 : load true w.mem tv' Weak.Loc.tail n = some (t, tv1') := h1
    by_cases hc : (m : Int) - o < t
    · rw [if_pos hc]
      have hs : Weak.step w i ⟨tv', .pAgain o m⟩ n = some { w with threads := w.threads.set i ⟨tv1', .pHead m⟩ } := by
        rw [Weak.step]
        dsimp only
        rw [h1]
        dsimp only
        rw [if_pos hc]
      exact ⟨goes_step hi' hs (r.upd hi (m1' := w.mem) (q1 := .pHead) r.mem h2 ⟨m, rfl⟩ w.empty w.ok), cnt, j.reads hi (Weak.load_get hl).1 (by rw [hp]; rfl) (by rw [hp]; rfl) True.intro⟩
    · rw [if_neg hc]
      have hs : Weak.step w i ⟨tv', .pAgain o m⟩ n = some { w with threads := w.threads.set i ⟨tv1', .pFail m⟩ } := by
        rw [Weak.step]
        dsimp only
        rw [h1]
        dsimp only
        rw [if_neg hc]
      exact ⟨goes_step hi' hs (r.upd hi (m1' := w.mem) (q1 := .pFail) r.mem h2 ⟨m, rfl⟩ w.empty w.ok), cnt, j.reads hi (Weak.load_get hl).1 (by rw [hp]; rfl) (by rw [hp]; rfl) True.intro⟩
  | pHead =>
    rw [hp] at hpr
    obtain ⟨m, rfl⟩ := hpr
    rw [step, hp] at h
    cases h
    obtain ⟨h0, h1, h2⟩ := Weak.rmw_rel phi_inj r.mem ht true true (· + 1) .head
    refine ⟨goes_step (n := n) hi' rfl (r.upd hi (q1 := .pEntry (rmw true true (· + 1) s.mem th.tv .head).1) h1 h2 ?_ w.empty w.ok), cnt,
      j.pushes hi (l := .head) (far_of (fun h => nomatch h) (fun h => nomatch h) (fun _ h => nomatch h) (fun _ h => nomatch h)) (fun h => nomatch h) (Weak.rmw_grows _ _ _ _) (by rw [hp]; rfl) (by rw [hp]; rfl) True.intro⟩
    rw [← h0]
    rfl
  | pEntry x =>
    rw [hp] at hpr
    have hpr : q = .pSlot x := hpr
    subst hpr
    obtain ⟨hhd, hbel⟩ := hpo
    rw [step, hp] at h
    obtain ⟨b, tv1, hl, rfl⟩ := loads_some h
    obtain ⟨hb, hge, g, hg, hgv⟩ := Weak.load_get hl
    refine ⟨goes_read r hi hi' ht rfl hl (q1 := .pSlot x b) rfl, cnt, j.reads hi hb (by rw [hp]; rfl) (by rw [hp]; rfl) ?_⟩
    show b = x / B + 1
    have hxl : x < (s.mem .tail).length := by
      have h1 := inv.head_le
      have h2 := (List.getElem?_eq_some_iff.mp hhd).1
      rw [inv.hdLen] at h2
      omega
    obtain ⟨gt, hgt⟩ : ∃ gt, (s.mem .tail)[x]? = some gt := ⟨_, List.getElem?_eq_getElem hxl⟩
    have hkn : 1 ≤ th.tv.cur (.entry (x / B)) := by
      obtain ⟨g', hg', hgg⟩ := (r.mem .tail).2 x gt hgt
      have hpub : Weak.pub w.mem (x + 1) = g'.view := Weak.pub_get hg'
      rw [hpub] at hbel
      refine Nat.le_trans (j.tailView x gt hgt) ?_
      have h1 := hbel (phi (.entry (x / B)))
      rw [hgg.2, ht.1] at h1
      exact h1
    have hnc : x ∉ cnt (x / B) := fun hc => by
      obtain ⟨_, k, v, hk⟩ := (j.cntOk _).2 x hc
      exact taken_not r inv hhd k v hk
    have hlt : (cnt (x / B)).length < B := by
      have h1 : (x :: cnt (x / B)).Nodup := List.nodup_cons.mpr ⟨hnc, (j.cntOk _).1⟩
      exact block_len (e := x / B) h1 (fun y hy => by
        rcases List.mem_cons.mp hy with rfl | hy
        · rfl
        · exact ((j.cntOk _).2 y hy).1)
    obtain ⟨th0, hth0⟩ : ∃ th0, s.threads[0]? = some th0 := by
      obtain ⟨hl', _⟩ := List.getElem?_eq_some_iff.mp hi
      exact ⟨_, List.getElem?_eq_getElem (by omega)⟩
    have hlis : x / B < listed th0.pos (s.mem .tail).length := by
      by_cases he : x / B < listed th0.pos (s.mem .tail).length
      · exact he
      · have hnil := j.entNone th0 hth0 (x / B) (by omega)
        rw [hnil] at hg
        have := Weak.msgAt_le hg
        have : n ≤ 0 := this
        omega
    rcases j.entVal th0 hth0 _ hlis with ⟨g0, hg0, hv0⟩ | hf
    · rw [hg0] at hg
      have := Weak.msgAt_le hg
      have : n ≤ 1 := this
      have hn : n = 1 := by omega
      subst hn
      cases hg
      rw [← hgv]
      exact hv0
    · omega
  | pSlot x b =>
    rw [hp] at hpr hpj
    have hpr : q = .pSlot x := hpr
    subst hpr
    have hpj : b = x / B + 1 := hpj
    rw [step, hp] at h
    cases h
    have hb1 : b - 1 = x / B := by rw [hpj]; rfl
    have hph : phi (.slot (b - 1) (x % B)) = .slot x := by rw [hb1]; exact place x
    obtain ⟨h1, h2, h3⟩ := Weak.write_rel phi_inj r.mem ht (.slot (b - 1) (x % B)) 0
    rw [hph] at h1 h2 h3
    obtain ⟨w1, hw1⟩ : ∃ w1, w1 = { w with mem := (write w.mem tv' (.slot x) 0).1, threads := w.threads.set i ⟨(write w.mem tv' (.slot x) 0).2.1, .out⟩, ok := w.ok && (write w.mem tv' (.slot x) 0).2.2, taken := ⟨i, x, (newest (w.mem (.slot x))).val, tv'.cur⟩ :: w.taken } := ⟨_, rfl⟩
    have hs : Weak.step w i ⟨tv', .pSlot x⟩ n = some w1 := by rw [hw1]; rfl
    obtain ⟨_, _, inv'⟩ := Weak.step_inv inv hi' hs
    have hok : (write s.mem th.tv (.slot (b - 1) (x % B)) 0).2.2 = true := by
      rw [← h3]
      have := inv'.ok
      rw [hw1] at this
      exact (Bool.and_eq_true_iff.mp this).2
    have hval : (newest (w.mem (.slot x))).val = (newest (s.mem (.slot (b - 1) (x % B)))).val := by
      have := (r.mem (.slot (b - 1) (x % B))).newest.1
      rw [hph] at this
      exact this
    have ru := r.upd hi (q1 := .pDone x b) (q1' := .out) h1 h2 rfl w.empty (w.ok && (write w.mem tv' (.slot x) 0).2.2)
    refine ⟨goes_step hi' hs ?_, cnt, ?_⟩
    · rw [hw1]
      refine { ru with mem := ru.mem, threads := ru.threads, taken := ?_ }
      show List.map plain (_ :: w.taken) = _ :: s.taken
      rw [List.map_cons, r.taken]
      show (i, x, (newest (w.mem (.slot x))).val) :: _ = _
      rw [hval]
    · have hj := j.take (u := (newest (s.mem (.slot (b - 1) (x % B)))).val) hi hp (taken_not r inv hpo.1) (l := b - 1) (m := x % B) (g := ⟨0, bot⟩) (Weak.write_grows (mem := s.mem) (tv := th.tv) (.slot (b - 1) (x % B)) 0)
      have he : (if (write s.mem th.tv (.slot (b - 1) (x % B)) 0).2.2 then s.races else (i, b - 1, x % B) :: s.races) = s.races := by
        rw [hok]
        rfl
      unfold touches put
      dsimp only
      rw [he]
      exact hj
  | pDone x b =>
    rw [hp] at hpr
    have hpr : q = .out := hpr
    subst hpr
    rw [hp] at hpj
    rw [step, hp] at h
    cases h
    refine ⟨goes_rmw r hi hi' ht false true (· + 1) rfl ?_, ?_⟩
    · dsimp only
      split <;> rfl
    · exact j.done hi hp (taken_one r inv) (g := ⟨_ + 1, _⟩) rfl (Weak.rmw_grows false true (· + 1) _)
  | pNull x b =>
    rw [hp] at hpr
    have hpr : q = .out := hpr
    subst hpr
    rw [hp] at hpj
    rw [step, hp] at h
    cases h
    exact ⟨goes_store r hi hi' ht false rfl 0 (q1 := .pFree b) rfl, cnt, j.null hi hp (taken_lt r inv) (Weak.store_grows false _ 0)⟩
  | pFree b =>
    rw [hp] at hpr
    have hpr : q = .out := hpr
    subst hpr
    rw [hp] at hpj
    rw [step, hp] at h
    cases h
    refine ⟨goes_rmw r hi hi' ht true true (· + flag) rfl ?_, cnt,
      j.pushes hi (l := .refs (b - 1)) (far_of (fun h => nomatch h) (fun h => nomatch h) (fun _ h => nomatch h) (fun _ h => nomatch h)) (fun h => nomatch h) (Weak.rmw_grows _ _ _ _) ?_ ?_ ?_⟩
    · dsimp only
      split
      · exact ⟨rfl, rfl⟩
      · rfl
    · rw [hp]; dsimp only; split <;> rfl
    · rw [hp]; dsimp only; split <;> rfl
    · dsimp only; split
      · exact hpj
      · exact True.intro
  | pFail =>
    rw [hp] at hpr
    obtain ⟨m, rfl⟩ := hpr
    rw [step, hp] at h
    cases h
    obtain ⟨h0, h1, h2⟩ := Weak.rmw_rel phi_inj r.mem ht false true (· + 1) .over
    exact ⟨goes_step (n := n) hi' rfl (r.upd hi (q1 := .out) h1 h2 rfl _ w.ok), cnt,
      j.pushes hi (l := .over) (far_of (fun h => nomatch h) (fun h => nomatch h) (fun _ h => nomatch h) (fun _ h => nomatch h)) (fun h => nomatch h) (Weak.rmw_grows _ _ _ _) (by rw [hp]; rfl) (by rw [hp]; rfl) True.intro⟩
  | kHead b k =>
    rw [hp] at hpr
    obtain ⟨rfl, hpr⟩ := hpr
    have hpr : q = .out := hpr
    subst hpr
    rw [hp] at hpj
    rw [step, hp] at h
    obtain ⟨t, tv1, hl, rfl⟩ := loads_some h
    exact ⟨goes_read r hi hi' ht rfl hl (q1 := .kNext b t .done) ⟨rfl, rfl⟩, cnt, j.reads hi (Weak.load_get hl).1 (by rw [hp]; rfl) (by rw [hp]; rfl) hpj⟩
  | kNext b t k =>
    rw [hp] at hpr
    obtain ⟨rfl, hpr⟩ := hpr
    have hpr : q = .out := hpr
    subst hpr
    rw [hp] at hpj
    rw [step, hp] at h
    cases h
    exact ⟨goes_store r hi hi' ht false rfl t (q1 := .kRefs b t .done) ⟨rfl, rfl⟩, cnt,
      j.pushes hi (l := .next (b - 1)) (far_of (fun h => nomatch h) (fun h => nomatch h) (fun _ h => nomatch h) (fun _ h => nomatch h)) (fun h => nomatch h) (Weak.store_grows _ _ _) (by rw [hp]; rfl) (by rw [hp]; rfl) hpj⟩
  | kRefs b t k =>
    rw [hp] at hpr
    obtain ⟨rfl, hpr⟩ := hpr
    have hpr : q = .out := hpr
    subst hpr
    rw [hp] at hpj
    rw [step, hp] at h
    cases h
    exact ⟨goes_store r hi hi' ht true rfl 1 (q1 := .kCas b t .done) ⟨rfl, rfl⟩, cnt,
      j.pushes hi (l := .refs (b - 1)) (far_of (fun h => nomatch h) (fun h => nomatch h) (fun _ h => nomatch h) (fun _ h => nomatch h)) (fun h => nomatch h) (Weak.store_grows _ _ _) (by rw [hp]; rfl) (by rw [hp]; rfl) hpj⟩
  | kCas b t k =>
    rw [hp] at hpr
    obtain ⟨rfl, hpr⟩ := hpr
    have hpr : q = .out := hpr
    subst hpr
    rw [hp] at hpj
    rw [step, hp] at h
    rcases tries_some h with rfl | ⟨v, tv1, hl, rfl⟩
    · exact ⟨goes_rmw r hi hi' ht false true (fun _ => b) rfl (q1 := .out) rfl, cnt,
        j.pushes hi (l := .free) (far_of (fun h => nomatch h) (fun h => nomatch h) (fun _ h => nomatch h) (fun _ h => nomatch h)) (fun _ => hpj) (Weak.rmw_grows _ _ _ _) (by rw [hp]; rfl) (by rw [hp]; rfl) True.intro⟩
    · exact ⟨goes_read r hi hi' ht rfl hl (q1 := .kBack b v .done) ⟨rfl, rfl⟩, cnt, j.reads hi (Weak.load_get hl).1 (by rw [hp]; rfl) (by rw [hp]; rfl) hpj⟩
  | kBack b t k =>
    rw [hp] at hpr
    obtain ⟨rfl, hpr⟩ := hpr
    have hpr : q = .out := hpr
    subst hpr
    rw [hp] at hpj
    rw [step, hp] at h
    cases h
    refine ⟨goes_rmw r hi hi' ht false true (· + (flag - 1)) rfl ?_, cnt,
      j.pushes hi (l := .refs (b - 1)) (far_of (fun h => nomatch h) (fun h => nomatch h) (fun _ h => nomatch h) (fun _ h => nomatch h)) (fun h => nomatch h) (Weak.rmw_grows _ _ _ _) ?_ ?_ ?_⟩
    · dsimp only
      split
      · exact ⟨rfl, rfl⟩
      · rfl
    · rw [hp]; dsimp only; split <;> rfl
    · rw [hp]; dsimp only; split <;> rfl
    · dsimp only; split
      · exact hpj
      · exact True.intro
  | _ => rw [hp] at hpr; exact hpr.elim

theorem outside_some {tv : TView Loc} (h : outside s i = some tv) : s.threads[i]? = some ⟨tv, .out⟩ := by
  unfold outside at h
  split at h
  · rename_i tv' e
    cases h
    exact e
  · cases h

theorem out_of {th' : Weak.Th} (hi : w.threads[i]? = some th') (hp : th'.pos = .out) : Weak.outside w i = some th'.tv := by
  obtain ⟨tv, q⟩ := th'
  dsimp only at hp
  subst hp
  unfold Weak.outside
  rw [hi]

/-- One move. -/
theorem move_sim (r : Rel s.mem s.threads s.added s.taken w) (inv : Weak.Inv w tk hd) (j : J s cnt) (hT : (s.mem .tail).length < 192 ∨ s.mem .free = []) {m : Move}
    (h : move s m = some s') : Goes w s'.mem s'.threads s'.added s'.taken ∧ ∃ cnt', J s' cnt' := by
  cases m with
  | add v =>
    rw [move] at h
    cases ho : outside s 0 with
    | none => rw [ho] at h; cases h
    | some tv =>
      rw [ho] at h
      cases h
      have hi := outside_some ho
      obtain ⟨th', hi', ht, hpr⟩ := r.threads 0 _ hi
      refine ⟨⟨_, Or.inl ⟨.add v, ?_⟩, r.upd hi (m1' := w.mem) (q1 := .aTail v) (q1' := .addLoad v th'.tv.cur) r.mem ht ⟨_, rfl⟩ w.empty w.ok⟩, cnt, j.reads hi (Weak.Below.refl _) rfl rfl True.intro⟩
      rw [Weak.move, r.adder, out_of hi' hpr]
  | poll i =>
    rw [move] at h
    cases ho : outside s i with
    | none => rw [ho] at h; cases h
    | some tv =>
      rw [ho] at h
      cases h
      have hi := outside_some ho
      obtain ⟨th', hi', ht, hpr⟩ := r.threads i _ hi
      refine ⟨⟨_, Or.inl ⟨.poll i, ?_⟩, r.upd hi (m1' := w.mem) (q1 := .pTail) (q1' := .pTail) r.mem ht rfl w.empty w.ok⟩, cnt, j.reads hi (Weak.Below.refl _) rfl rfl True.intro⟩
      rw [Weak.move, out_of hi' hpr]
  | go i n =>
    rw [move] at h
    cases hi : s.threads[i]? with
    | none => rw [hi] at h; cases h
    | some th =>
      rw [hi] at h
      exact step_sim r inv j hT hi h

end

/-- What was added or taken before. -/
def Grows (s s' : Sys) : Prop := s.added.length ≤ s'.added.length ∧ ∀ e ∈ s.taken, e ∈ s'.taken

theorem Grows.refl (s : Sys) : Grows s s := ⟨Nat.le_refl _, fun _ h => h⟩

theorem Grows.trans {a b c : Sys} (h : Grows a b) (h' : Grows b c) : Grows a c := ⟨Nat.le_trans h.1 h'.1, fun e he => h'.2 e (h.2 e he)⟩

theorem step_grows {s s' : Sys} {i n : Nat} {th : Th} (h : step s i th n = some s') : Grows s s' := by
  have hl : ∀ {acq : Bool} {tv : TView Loc} {l : Loc} {k : Nat → Pos}, loads s i acq tv l n k = some s' → Grows s s' := by
    intro acq tv l k h
    obtain ⟨v, tv', _, rfl⟩ := loads_some h
    exact Grows.refl s
  have ht : ∀ {acq rel : Bool} {tv : TView Loc} {l : Loc} {old new : Nat} {p : Pos} {k : Nat → Pos}, tries s i acq rel tv l old new n p k = some s' → Grows s s' := by
    intro acq rel tv l old new p k h
    rcases tries_some h with rfl | ⟨v, tv', _, rfl⟩
    · exact Grows.refl s
    · exact Grows.refl s
  cases hp : th.pos with
  | aStore v t =>
    rw [step, hp] at h
    cases h
    refine ⟨?_, fun _ h => h⟩
    show _ ≤ (s.added ++ [v]).length
    rw [List.length_append]
    exact Nat.le_add_right _ _
  | pSlot x b =>
    rw [step, hp] at h
    cases h
    exact ⟨Nat.le_refl _, fun _ h => List.mem_cons_of_mem _ h⟩
  | _ =>
    rw [step, hp] at h
    first
      | exact hl h
      | exact ht h
      | (cases h; exact Grows.refl s)
      | cases h

theorem move_grows {s s' : Sys} {m : Move} (h : move s m = some s') : Grows s s' := by
  cases m with
  | add v =>
    rw [move] at h
    cases ho : outside s 0 with
    | none => rw [ho] at h; cases h
    | some tv => rw [ho] at h; cases h; exact Grows.refl s
  | poll i =>
    rw [move] at h
    cases ho : outside s i with
    | none => rw [ho] at h; cases h
    | some tv => rw [ho] at h; cases h; exact Grows.refl s
  | go i n =>
    rw [move] at h
    cases hi : s.threads[i]? with
    | none => rw [hi] at h; cases h
    | some th => rw [hi] at h; exact step_grows h

theorem run_grows : ∀ (ms : List Move) {s s' : Sys}, run s ms = some s' → Grows s s' := by
  intro ms
  induction ms with
  | nil => intro s s' h; cases h; exact Grows.refl s
  | cons m ms ih =>
    intro s s' h
    rw [run] at h
    cases hm : move s m with
    | none => rw [hm] at h; cases h
    | some s1 =>
      rw [hm] at h
      exact (move_grows hm).trans (ih h)

/-- If the free list was used, some block was emptied. -/
theorem J.emptied {s : Sys} {cnt : Nat → List Nat} (j : J s cnt) (h : s.mem .free ≠ []) : ∃ b, Emptied s b := by
  obtain ⟨e, he⟩ := j.freed h
  refine ⟨e, fun x hx => ?_⟩
  by_cases hc : x ∈ cnt e
  · exact ((j.cntOk e).2 x hc).2
  · have h1 : (x :: cnt e).Nodup := List.nodup_cons.mpr ⟨hc, (j.cntOk _).1⟩
    have h2 := block_len (e := e) h1 (fun y hy => by
      rcases List.mem_cons.mp hy with rfl | hy
      · exact hx
      · exact ((j.cntOk _).2 y hy).1)
    rw [List.length_cons, he] at h2
    omega

theorem run_sim : ∀ (ms : List Move) {s s' : Sys} {w : Weak.Sys} {tk : Weak.Tk} {hd : Weak.Hd} {cnt : Nat → List Nat}, Rel s.mem s.threads s.added s.taken w → Weak.Inv w tk hd → J s cnt →
    run s ms = some s' → (s'.added.length < 192 ∨ ∀ b, ¬ Emptied s' b) → ∃ w' tk' hd' cnt', Rel s'.mem s'.threads s'.added s'.taken w' ∧ Weak.Inv w' tk' hd' ∧ J s' cnt' := by
  intro ms
  induction ms with
  | nil => intro s s' w tk hd cnt r inv j h _; cases h; exact ⟨w, tk, hd, cnt, r, inv, j⟩
  | cons m ms ih =>
    intro s s' w tk hd cnt r inv j h hlt
    rw [run] at h
    cases hm : move s m with
    | none => rw [hm] at h; cases h
    | some s1 =>
      rw [hm] at h
      have h : run s1 ms = some s' := h
      obtain ⟨g1, g2⟩ := (move_grows hm).trans (run_grows ms h)
      have hT : (s.mem .tail).length < 192 ∨ s.mem .free = [] := by
        rcases hlt with hlt | hlt
        · have h3 : (w.mem .tail).length = (s.mem .tail).length := (r.mem .tail).1
          have h4 := inv.addLen
          have h5 : w.added.length = s.added.length := by rw [← r.added, List.length_map]
          exact Or.inl (by omega)
        · refine Or.inr (Classical.byContradiction fun hf => ?_)
          obtain ⟨b, hb⟩ := j.emptied hf
          refine hlt b (fun x hx => ?_)
          obtain ⟨i, v, he⟩ := hb x hx
          exact ⟨i, v, g2 _ he⟩
      obtain ⟨⟨w', hw, r'⟩, cnt', j'⟩ := move_sim r inv j hT hm
      rcases hw with ⟨m', hw⟩ | rfl
      · obtain ⟨tk', hd', inv'⟩ := Weak.move_inv inv hw
        exact ih r' inv' j' h hlt
      · exact ih r' inv j' h hlt

theorem reach_sim {k : Nat} {s : Sys} (h : Reach k s) (hlt : s.added.length < 192 ∨ ∀ b, ¬ Emptied s b) :
    ∃ w tk hd cnt, Rel s.mem s.threads s.added s.taken w ∧ Weak.Inv w tk hd ∧ J s cnt := by
  obtain ⟨ms, h⟩ := h
  exact run_sim ms (rel_init k) (Weak.inv_init k 0) (j_init k) h hlt

end Verif.WeakReuse
