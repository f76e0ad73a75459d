import Verif.UuidClock.Lemmas
/-! # One thread per process: the invariant -/
namespace Verif.UuidClock

open Verif.JString (Str)
open Verif.LibUuid (TimeVal Clock clockReg tryClock startClock clocks backSteps NoLongRun Sane)

/-- What was saved since the start: the first reading, the random bytes and the other
readings. -/
abbrev Ghost := Option (TimeVal × BitVec 16 × List TimeVal)

/-- The results that were saved. -/
def issued : Ghost → List (BitVec 64 × BitVec 16)
  | none => []
  | some (n, r, tvs) => clocks (startClock n r) tvs

/-- Before the first save the variables of processes outside are zero. -/
def Blank (g : Ghost) (p : Proc) : Prop := p.fd ≠ .failed ∧ (g = none → p.clk = Proc.fresh.clk)

/-- A state that may follow the saved one. -/
def Base (rs : List TimeVal) (g : Ghost) (n : TimeVal) (r : BitVec 16) (tvs more : List TimeVal) : Prop :=
  (g = some (n, r, tvs) ∨ (g = none ∧ tvs = [])) ∧ (n :: (tvs ++ more)).Sublist rs

/-- What holds of a process at each point of its call. -/
inductive POk (rs : List TimeVal) (g : Ghost) (held : Prop) (p : Proc) : Option Pc → Prop
  | idle : ¬ held → Blank g p → POk rs g held p none
  | start : ¬ held → Blank g p → POk rs g held p (some .start)
  | lock : ¬ held → p.fd = .opened → Blank g p → POk rs g held p (some .lock)
  | read : held → p.fd = .opened → Blank g p → POk rs g held p (some .read)
  | init : held → p.fd = .opened →
      ((g = none ∧ p.clk = Proc.fresh.clk) ∨ ∃ n r tvs, g = some (n, r, tvs) ∧ p.clk = after (startClock n r) tvs) →
      POk rs g held p (some .init)
  | time (n r tvs) : held → p.fd = .opened → Base rs g n r tvs [] → p.clk = after (startClock n r) tvs → POk rs g held p (some .time)
  | compare (n r tvs tv) : held → p.fd = .opened → Base rs g n r tvs [tv] → p.clk = after (startClock n r) tvs →
      POk rs g held p (some (.compare tv))
  | update (n r tvs tv b) : held → p.fd = .opened → Base rs g n r tvs [tv] → p.clk = after (startClock n r) tvs →
      branch p.clk tv = some b → POk rs g held p (some (.update tv b))
  | make (n r tvs tv b) : held → p.fd = .opened → Base rs g n r tvs [tv] → branch (after (startClock n r) tvs) tv = some b →
      p.clk = take (after (startClock n r) tvs) tv b → POk rs g held p (some (.make tv))
  | save (n r tvs tv reg) : held → p.fd = .opened → Base rs g n r tvs [tv] → p.clk = after (startClock n r) (tvs ++ [tv]) →
      clocks (startClock n r) (tvs ++ [tv]) = clocks (startClock n r) tvs ++ [(reg, p.clk.seq)] → POk rs g held p (some (.save reg))
  | trunc (n r tvs reg) : held → p.fd = .opened → g = some (n, r, tvs) → p.clk = after (startClock n r) tvs →
      (reg, p.clk.seq) ∈ issued g → POk rs g held p (some (.trunc reg (text p.clk).length))
  | unlock (reg) : held → p.fd = .opened → g ≠ none → (reg, p.clk.seq) ∈ issued g → POk rs g held p (some (.unlock reg))
  | ret (reg) : ¬ held → p.fd = .opened → g ≠ none → (reg, p.clk.seq) ∈ issued g → POk rs g held p (some (.ret reg))

/-- The saved result that a call will return. -/
def pend (p : Proc) : Option Pc → Option (BitVec 64 × BitVec 16)
  | some (.trunc reg _) => some (reg, p.clk.seq)
  | some (.unlock reg) => some (reg, p.clk.seq)
  | some (.ret reg) => some (reg, p.clk.seq)
  | _ => none

theorem POk.pend_issued {rs : List TimeVal} {g : Ghost} {held : Prop} {p : Proc} {c : Option Pc} (h : POk rs g held p c)
    {x : BitVec 64 × BitVec 16} (hx : pend p c = some x) : x ∈ issued g := by
  cases h with
  | trunc _ _ _ _ _ _ _ _ h1 => cases hx; exact h1
  | unlock _ _ _ _ h1 => cases hx; exact h1
  | ret _ _ _ _ h1 => cases hx; exact h1
  | _ => cases hx

theorem Base.mono {rs rs' : List TimeVal} {g : Ghost} {n : TimeVal} {r : BitVec 16} {tvs more : List TimeVal}
    (h : Base rs g n r tvs more) : Base (rs ++ rs') g n r tvs more :=
  ⟨h.1, h.2.trans (List.sublist_append_left _ _)⟩

theorem POk.mono {rs : List TimeVal} (rs' : List TimeVal) {g : Ghost} {held : Prop} {p : Proc} {c : Option Pc} (h : POk rs g held p c) :
    POk (rs ++ rs') g held p c := by
  cases h with
  | idle a b => exact .idle a b
  | start a b => exact .start a b
  | lock a b c => exact .lock a b c
  | read a b c => exact .read a b c
  | init a b c => exact .init a b c
  | time n r tvs a b c d => exact .time n r tvs a b c.mono d
  | compare n r tvs tv a b c d => exact .compare n r tvs tv a b c.mono d
  | update n r tvs tv b a b c d e => exact .update n r tvs tv _ a b c.mono d e
  | make n r tvs tv b a b c d e => exact .make n r tvs tv _ a b c.mono d e
  | save n r tvs tv reg a b c d e => exact .save n r tvs tv reg a b c.mono d e
  | trunc n r tvs reg a b c d e => exact .trunc n r tvs reg a b c d e
  | unlock reg a b c d => exact .unlock reg a b c d
  | ret reg a b c d => exact .ret reg a b c d

/-- For a process outside only more saved results matter. -/
theorem POk.outside {rs : List TimeVal} {g g' : Ghost} {held held' : Prop} {p : Proc} {c : Option Pc} (h : POk rs g held p c)
    (hn : ¬ held) (hn' : ¬ held') (hg : g' = none → g = none) (hi : ∀ x ∈ issued g, x ∈ issued g') : POk rs g' held' p c := by
  cases h with
  | idle a b => exact .idle hn' ⟨b.1, fun q => b.2 (hg q)⟩
  | start a b => exact .start hn' ⟨b.1, fun q => b.2 (hg q)⟩
  | lock a b c => exact .lock hn' b ⟨c.1, fun q => c.2 (hg q)⟩
  | ret reg a b c d => exact .ret reg hn' b (fun q => c (hg q)) (hi _ d)
  | read a => exact absurd a hn
  | init a => exact absurd a hn
  | time _ _ _ a => exact absurd a hn
  | compare _ _ _ _ a => exact absurd a hn
  | update _ _ _ _ _ a => exact absurd a hn
  | make _ _ _ _ _ a => exact absurd a hn
  | save _ _ _ _ _ a => exact absurd a hn
  | trunc _ _ _ _ a => exact absurd a hn
  | unlock _ a => exact absurd a hn

/-- The file is a first state of the chain or cannot be read. -/
def FileOk (rs : List TimeVal) (g : Ghost) (f : Option Str) : Prop :=
  match g with
  | none => scan (f.getD []) = none
  | some (n, r, tvs) => (n :: tvs).Sublist rs ∧ ∃ rest, f = some (text (after (startClock n r) tvs) ++ rest)

theorem FileOk.mono {rs : List TimeVal} (rs' : List TimeVal) {g : Ghost} {f : Option Str} (h : FileOk rs g f) : FileOk (rs ++ rs') g f := by
  match g, h with
  | none, h => exact h
  | some (n, r, tvs), h => exact ⟨h.1.trans (List.sublist_append_left _ _), h.2⟩

/-- The invariant of runs with one thread per process. `E` are results known when the
history had `k` results, `T` the threads outside then. -/
structure Inv (E : List (BitVec 64 × BitVec 16)) (T : Nat → Prop) (k : Nat) (s : St) (l : List Ev) (g : Ghost) : Prop where
  file : FileOk (readings l) g s.file
  threads : ∀ t, POk (readings l) g (s.holder = some t) (s.proc t) (s.cur t)
  known : ∀ x ∈ results l, x.2 ∈ issued g
  distinct : (results l).Pairwise fun x y => x.2 ≠ y.2
  fresh : ∀ t x, pend (s.proc t) (s.cur t) = some x → ∀ y ∈ results l, y.2 ≠ x
  apart : ∀ t u x, pend (s.proc t) (s.cur t) = some x → pend (s.proc u) (s.cur u) = some x → t = u
  early : ∀ x ∈ E, x ∈ issued g
  later : ∀ t, T t → ∀ y, pend (s.proc t) (s.cur t) = some y → backSteps (readings l) = 0 → ∀ x ∈ E, x.1.toNat < y.1.toNat
  done : ∀ y ∈ (results l).drop k, T y.1 → backSteps (readings l) = 0 → ∀ x ∈ E, x.1.toNat < y.2.1.toNat
  size : k ≤ (results l).length

theorem inv_start {f : Option Str} (h : scan (f.getD []) = none) : Inv [] (fun _ => True) 0 (start f) [] none where
  file := h
  threads t := .idle (fun q => nomatch q) ⟨(fun q => nomatch q), fun _ => rfl⟩
  known x hx := nomatch hx
  distinct := .nil
  fresh t x hx := nomatch hx
  apart t u x hx := nomatch hx
  early x hx := nomatch hx
  later t _ y hy := nomatch hy
  done y hy := nomatch hy
  size := Nat.zero_le _

/-- What was returned, and who is outside, at any moment. -/
theorem Inv.mark {E T k} {s : St} {l : List Ev} {g : Ghost} (h : Inv E T k s l g) :
    Inv ((results l).map (·.2)) (fun t => s.cur t = none) (results l).length s l g where
  file := h.file
  threads := h.threads
  known := h.known
  distinct := h.distinct
  fresh := h.fresh
  apart := h.apart
  early x hx := by
    obtain ⟨y, hy, rfl⟩ := List.mem_map.mp hx
    exact h.known y hy
  later t ht y hy := by
    rw [ht] at hy
    cases hy
  done y hy := by
    rw [List.drop_length] at hy
    cases hy
  size := Nat.le_refl _

theorem backSteps_before {l l' : List Ev} (h : backSteps (readings (l ++ l')) = 0) : backSteps (readings l) = 0 := by
  rw [readings_append] at h
  exact Nat.le_zero.mp (h ▸ backSteps_sublist (List.sublist_append_left _ _))

/-- A step that saves and returns nothing. -/
theorem Inv.quiet {E T k} {s s' : St} {l l' : List Ev} {g : Ghost} (h : Inv E T k s l g) (t : Nat)
    (hr : results l' = [])
    (hf : FileOk (readings (l ++ l')) g s'.file)
    (hp : ∀ u, u ≠ t → s'.proc u = s.proc u) (hc : ∀ u, u ≠ t → s'.cur u = s.cur u)
    (hh : ∀ u, u ≠ t → (s'.holder = some u ↔ s.holder = some u))
    (ht : POk (readings (l ++ l')) g (s'.holder = some t) (s'.proc t) (s'.cur t))
    (hq : ∀ x, pend (s'.proc t) (s'.cur t) = some x → pend (s.proc t) (s.cur t) = some x) : Inv E T k s' (l ++ l') g := by
  have hres : results (l ++ l') = results l := by rw [results_append, hr, List.append_nil]
  have hpend : ∀ u x, pend (s'.proc u) (s'.cur u) = some x → pend (s.proc u) (s.cur u) = some x := by
    intro u x hx
    by_cases hu : u = t
    · subst hu; exact hq x hx
    · rw [hp u hu, hc u hu] at hx; exact hx
  refine ⟨hf, fun u => ?_, ?_, ?_, ?_, ?_, h.early, ?_, ?_, by rw [hres]; exact h.size⟩
  · by_cases hu : u = t
    · subst hu; exact ht
    · rw [hp u hu, hc u hu, readings_append, show (s'.holder = some u) = (s.holder = some u) from propext (hh u hu)]
      exact (h.threads u).mono _
  · rw [hres]; exact h.known
  · rw [hres]; exact h.distinct
  · rw [hres]; intro u x hx; exact h.fresh u x (hpend u x hx)
  · intro u v x hu hv; exact h.apart u v x (hpend u x hu) (hpend v x hv)
  · intro u hu y hy hb; exact h.later u hu y (hpend u y hy) (backSteps_before hb)
  · rw [hres]; intro y hy hT hb; exact h.done y hy hT (backSteps_before hb)

theorem readings_same (l : List Ev) : readings (l ++ []) = readings l := by rw [List.append_nil]

/-- A step of a call of the only thread of a process. -/
theorem inv_go {E T k} {s s' : St} {l l' : List Ev} {g : Ghost} (h : Inv E T k s l g) (hf : FineClock (readings (l ++ l'))) {t : Nat} {i : Input}
    (ho : i.opened = true) {pc : Pc} (hc : s.cur t = some pc) (hs : advance t t i s pc = some (s', l')) : ∃ g', Inv E T k s' (l ++ l') g' := by
  have hpt := h.threads t
  have hf0 : FineClock (readings l) := hf.mono (by rw [readings_append]; exact List.sublist_append_left _ _)
  rw [hc] at hpt
  cases hpt with
  | start a b =>
    rw [advance] at hs
    rw [if_pos ho] at hs
    split at hs
    · cases hs
      refine ⟨g, h.quiet t rfl ?_ (fun u hu => set_ne _ _ hu) (fun u hu => set_ne _ _ hu) (fun u _ => Iff.rfl) ?_ ?_⟩
      · have h1 := h.file
        rw [List.append_nil]
        match g, h1 with
        | none, h1 =>
          unfold FileOk at h1 ⊢
          exact h1
        | some (n, r, tvs), h1 =>
          obtain ⟨k1, rest, k2⟩ := h1
          exact ⟨k1, rest, by rw [k2]; rfl⟩
      · simp only [set_eq]
        exact .lock a rfl ⟨(fun q => nomatch q), b.2⟩
      · intro x hx
        simp only [set_eq] at hx
        cases hx
    · rename_i hu
      cases hs
      refine ⟨g, h.quiet t rfl (h.file.mono _ |> (by rw [readings_append]; exact ·)) (fun u _ => rfl) (fun u hu => set_ne _ _ hu) (fun u _ => Iff.rfl) ?_ ?_⟩
      · simp only [set_eq]
        refine .lock a ?_ b
        cases hfd : (s.proc t).fd with
        | untouched => exact absurd hfd hu
        | failed => exact absurd hfd b.1
        | opened => rfl
      · intro x hx
        simp only [set_eq] at hx
        cases hx
  | lock a b c =>
    rw [advance] at hs
    rw [if_pos b] at hs
    split at hs
    · rename_i hfree
      cases hs
      refine ⟨g, h.quiet t rfl (h.file.mono _ |> (by rw [readings_append]; exact ·)) (fun u _ => rfl) (fun u hu => set_ne _ _ hu) ?_ ?_ ?_⟩
      · intro u hu
        have h0 : s.holder = none := by
          rcases hfree with h1 | h1
          · exact h1
          · exact absurd h1 a
        rw [h0]
        exact ⟨fun q => absurd (Option.some.inj q).symm hu, fun q => nomatch q⟩
      · simp only [set_eq]
        exact .read trivial b c
      · intro x hx
        simp only [set_eq] at hx
        cases hx
    · cases hs
  | read a b c =>
    rw [advance] at hs
    match g, h, c with
    | none, h, c =>
      have h1 : scan (s.file.getD []) = none := h.file
      rw [h1] at hs
      simp only at hs
      cases hs
      refine ⟨none, h.quiet t rfl (h.file.mono _ |> (by rw [readings_append]; exact ·)) (fun u _ => rfl) (fun u hu => set_ne _ _ hu) (fun u _ => Iff.rfl) ?_ ?_⟩
      · simp only [set_eq]
        exact .init a b (.inl ⟨rfl, c.2 rfl⟩)
      · intro x hx
        simp only [set_eq] at hx
        cases hx
    | some (n, r, tvs), h, c =>
      obtain ⟨k1, rest, k2⟩ := h.file
      have h1 : scan (s.file.getD []) = some (after (startClock n r) tvs) := by
        rw [k2]
        exact scan_text (chain_live hf0 k1 r).1 rest
      rw [h1] at hs
      simp only at hs
      cases hs
      refine ⟨some (n, r, tvs), h.quiet t rfl (h.file.mono _ |> (by rw [readings_append]; exact ·)) (fun u hu => set_ne _ _ hu) (fun u hu => set_ne _ _ hu) (fun u _ => Iff.rfl) ?_ ?_⟩
      · simp only [set_eq]
        exact .init a b (.inr ⟨n, r, tvs, rfl, rfl⟩)
      · intro x hx
        simp only [set_eq] at hx
        cases hx
  | init a b c =>
    rw [advance] at hs
    rcases c with ⟨c1, c2⟩ | ⟨n, r, tvs, c1, c2⟩
    · rw [if_pos (by rw [c2]; exact ⟨rfl, rfl⟩)] at hs
      cases hs
      refine ⟨g, h.quiet t rfl (h.file.mono _ |> (by rw [readings_append]; exact ·)) (fun u hu => set_ne _ _ hu) (fun u hu => set_ne _ _ hu) (fun u _ => Iff.rfl) ?_ ?_⟩
      · simp only [set_eq]
        refine .time i.now i.rnd [] a b ⟨.inr ⟨c1, rfl⟩, ?_⟩ ?_
        · rw [readings_append]
          exact List.sublist_append_right _ _
        · rw [c2]
          rfl
      · intro x hx
        simp only [set_eq] at hx
        cases hx
    · subst c1
      have k1 := h.file.1
      have hl := chain_live hf0 k1 r
      rw [if_neg (by rw [c2]; exact hl.not_zero)] at hs
      cases hs
      refine ⟨some (n, r, tvs), h.quiet t rfl (h.file.mono _ |> (by rw [readings_append]; exact ·)) (fun u _ => rfl) (fun u hu => set_ne _ _ hu) (fun u _ => Iff.rfl) ?_ ?_⟩
      · simp only [set_eq]
        refine .time n r tvs a b ⟨.inl rfl, ?_⟩ c2
        rw [readings_same, List.append_nil]
        exact k1
      · intro x hx
        simp only [set_eq] at hx
        cases hx
  | time n r tvs a b c d =>
    rw [advance] at hs
    cases hs
    refine ⟨g, h.quiet t rfl (h.file.mono _ |> (by rw [readings_append]; exact ·)) (fun u _ => rfl) (fun u hu => set_ne _ _ hu) (fun u _ => Iff.rfl) ?_ ?_⟩
    · simp only [set_eq]
      refine .compare n r tvs i.now a b ⟨c.1, ?_⟩ d
      have h1 := c.2
      rw [List.append_nil] at h1
      rw [readings_append, ← List.cons_append]
      exact List.Sublist.append h1 (List.Sublist.refl _)
    · intro x hx
      simp only [set_eq] at hx
      cases hx
  | compare n r tvs tv a b c d =>
    rw [advance] at hs
    cases hb : branch (s.proc t).clk tv with
    | some br =>
      rw [hb] at hs
      simp only at hs
      cases hs
      refine ⟨g, h.quiet t rfl (h.file.mono _ |> (by rw [readings_append]; exact ·)) (fun u _ => rfl) (fun u hu => set_ne _ _ hu) (fun u _ => Iff.rfl) ?_ ?_⟩
      · simp only [set_eq]
        exact .update n r tvs tv br a b (by rw [readings_same]; exact c) d hb
      · intro x hx
        simp only [set_eq] at hx
        cases hx
    | none =>
      rw [hb] at hs
      simp only at hs
      cases hs
      refine ⟨g, h.quiet t rfl (h.file.mono _ |> (by rw [readings_append]; exact ·)) (fun u _ => rfl) (fun u hu => set_ne _ _ hu) (fun u _ => Iff.rfl) ?_ ?_⟩
      · simp only [set_eq]
        refine .time n r tvs a b ⟨c.1, ?_⟩ d
        rw [readings_same, List.append_nil]
        exact (List.Sublist.cons_cons n (List.sublist_append_left _ _)).trans c.2
      · intro x hx
        simp only [set_eq] at hx
        cases hx
  | update n r tvs tv br a b c d e =>
    rw [advance] at hs
    cases hs
    refine ⟨g, h.quiet t rfl (h.file.mono _ |> (by rw [readings_append]; exact ·)) (fun u hu => set_ne _ _ hu) (fun u hu => set_ne _ _ hu) (fun u _ => Iff.rfl) ?_ ?_⟩
    · simp only [set_eq]
      refine .make n r tvs tv br a b (by rw [readings_same]; exact c) (by rw [← d]; exact e) ?_
      rw [d]
    · intro x hx
      simp only [set_eq] at hx
      cases hx
  | make n r tvs tv br a b c d e =>
    rw [advance] at hs
    rw [if_pos b] at hs
    cases hs
    refine ⟨g, h.quiet t rfl (h.file.mono _ |> (by rw [readings_append]; exact ·)) (fun u _ => rfl) (fun u hu => set_ne _ _ hu) (fun u _ => Iff.rfl) ?_ ?_⟩
    · simp only [set_eq]
      obtain ⟨k1, k2⟩ := chain_snoc tvs (startClock n r) (branch_try d)
      refine .save n r tvs tv _ a b (by rw [readings_same]; exact c) (by rw [e, k1]) ?_
      rw [k2, e]
    · intro x hx
      simp only [set_eq] at hx
      cases hx
  | save n r tvs tv reg a b c d e =>
    rw [advance] at hs
    cases hs
    have hiss : ∀ x ∈ issued g, x ∈ clocks (startClock n r) tvs := by
      intro x hx
      rcases c.1 with h1 | ⟨h1, _⟩
      · rw [h1] at hx; exact hx
      · rw [h1] at hx; exact nomatch hx
    have hnew : ∀ x ∈ issued g, x ≠ (reg, (s.proc t).clk.seq) := by
      intro x hx
      have h1 := (chain_distinct hf0 c.2 r).1
      rw [e] at h1
      exact (List.pairwise_append.mp h1).2.2 x (hiss x hx) _ (List.mem_singleton.mpr rfl)
    have hgrow : ∀ x ∈ issued g, x ∈ issued (some (n, r, tvs ++ [tv])) := by
      intro x hx
      show x ∈ clocks (startClock n r) (tvs ++ [tv])
      rw [e]
      exact List.mem_append_left _ (hiss x hx)
    have hpo : ∀ u x, u ≠ t → pend (s.proc u) (set s.cur t (some (.trunc reg (text (s.proc t).clk).length)) u) = some x → pend (s.proc u) (s.cur u) = some x := by
      intro u x hu hx
      rw [set_ne _ _ hu] at hx
      exact hx
    have hpt : ∀ x, pend (s.proc t) (set s.cur t (some (.trunc reg (text (s.proc t).clk).length)) t) = some x → x = (reg, (s.proc t).clk.seq) := by
      intro x hx
      rw [set_eq] at hx
      cases hx
      rfl
    refine ⟨some (n, r, tvs ++ [tv]), ?_, fun u => ?_, ?_, ?_, ?_, ?_, fun x hx => hgrow x (h.early x hx), ?_, ?_, ?_⟩
    · rw [readings_same]
      refine ⟨c.2, ?_⟩
      obtain ⟨rest, k⟩ := writeAt_zero (text (s.proc t).clk) (s.file.getD [])
      exact ⟨rest, by rw [← d]; exact congrArg some k⟩
    · rw [readings_same]
      by_cases hu : u = t
      · subst hu
        simp only [set_eq]
        refine .trunc n r (tvs ++ [tv]) reg a b rfl d ?_
        show _ ∈ clocks (startClock n r) (tvs ++ [tv])
        rw [e]
        exact List.mem_append_right _ (List.mem_singleton.mpr rfl)
      · simp only [set_ne _ _ hu]
        have hnh : ¬ s.holder = some u := by
          intro q
          rw [a] at q
          exact hu (Option.some.inj q).symm
        exact (h.threads u).outside hnh hnh (fun q => nomatch q) hgrow
    · rw [List.append_nil]
      exact fun x hx => hgrow _ (h.known x hx)
    · rw [List.append_nil]
      exact h.distinct
    · rw [List.append_nil]
      intro u x hx y hy
      by_cases hu : u = t
      · subst hu
        rw [hpt x hx]
        exact hnew _ (h.known y hy)
      · exact h.fresh u x (hpo u x hu hx) y hy
    · intro u v x hu hv
      by_cases h1 : u = t
      · by_cases h2 : v = t
        · rw [h1, h2]
        · subst h1
          rw [hpt x hu] at hv
          exact absurd rfl (hnew _ ((h.threads v).pend_issued (hpo v _ h2 hv)))
      · by_cases h2 : v = t
        · subst h2
          rw [hpt x hv] at hu
          exact absurd rfl (hnew _ ((h.threads u).pend_issued (hpo u _ h1 hu)))
        · exact h.apart u v x (hpo u x h1 hu) (hpo v x h2 hv)
    · rw [readings_same]
      intro u hu y hy hb x hx
      by_cases h1 : u = t
      · subst h1
        rw [hpt y hy]
        have h2 := chain_rising hf0 c.2 r hb
        rw [e] at h2
        exact (List.pairwise_append.mp h2).2.2 x (hiss x (h.early x hx)) _ (List.mem_singleton.mpr rfl)
      · exact h.later u hu y (hpo u y h1 hy) hb x hx
    · rw [List.append_nil]
      exact h.done
    · rw [List.append_nil]
      exact h.size
  | trunc n r tvs reg a b c d e =>
    subst c
    obtain ⟨k1, rest, k2⟩ := h.file
    rw [advance] at hs
    split at hs
    · cases hs
      refine ⟨some (n, r, tvs), h.quiet t rfl ?_ (fun u _ => rfl) (fun u hu => set_ne _ _ hu) (fun u _ => Iff.rfl) ?_ ?_⟩
      · rw [readings_same]
        refine ⟨k1, [], ?_⟩
        rw [k2, d]
        exact congrArg some (take_text _ _)
      · simp only [set_eq]
        exact .unlock reg a b (fun q => nomatch q) e
      · intro x hx
        simp only [set_eq] at hx
        rw [hc]
        exact hx
    · cases hs
      refine ⟨some (n, r, tvs), h.quiet t rfl ?_ (fun u _ => rfl) (fun u hu => set_ne _ _ hu) (fun u _ => Iff.rfl) ?_ ?_⟩
      · rw [readings_same]
        obtain ⟨rest', k3⟩ := writeAt_behind (text (after (startClock n r) tvs)) (txt "                   \n") rest
        refine ⟨k1, rest', ?_⟩
        rw [k2, d]
        exact congrArg some k3
      · simp only [set_eq]
        exact .unlock reg a b (fun q => nomatch q) e
      · intro x hx
        simp only [set_eq] at hx
        rw [hc]
        exact hx
  | unlock reg a b c d =>
    rw [advance] at hs
    rw [if_pos a] at hs
    cases hs
    refine ⟨g, h.quiet t rfl (h.file.mono _ |> (by rw [readings_append]; exact ·)) (fun u _ => rfl) (fun u hu => set_ne _ _ hu) ?_ ?_ ?_⟩
    · intro u hu
      rw [a]
      exact ⟨(fun q => nomatch q), fun q => absurd (Option.some.inj q).symm hu⟩
    · simp only [set_eq]
      exact .ret reg (fun q => nomatch q) b c d
    · intro x hx
      simp only [set_eq] at hx
      rw [hc]
      exact hx
  | ret reg a b c d =>
    rw [advance] at hs
    cases hs
    have hpt : pend (s.proc t) (s.cur t) = some (reg, (s.proc t).clk.seq) := by rw [hc]; rfl
    have hpo : ∀ u x, pend (s.proc u) (set s.cur t none u) = some x → u ≠ t ∧ pend (s.proc u) (s.cur u) = some x := by
      intro u x hx
      by_cases hu : u = t
      · subst hu
        rw [set_eq] at hx
        cases hx
      · rw [set_ne _ _ hu] at hx
        exact ⟨hu, hx⟩
    have hrr : readings (l ++ [.ret t reg (s.proc t).clk.seq]) = readings l := by rw [readings_append]; exact List.append_nil _
    have hres : results (l ++ [.ret t reg (s.proc t).clk.seq]) = results l ++ [(t, reg, (s.proc t).clk.seq)] := by rw [results_append]; rfl
    refine ⟨g, ?_, fun u => ?_, ?_, ?_, ?_, ?_, h.early, ?_, ?_, ?_⟩
    · rw [hrr]; exact h.file
    · rw [hrr]
      by_cases hu : u = t
      · subst hu
        simp only [set_eq]
        exact .idle a ⟨(by rw [b]; exact (fun q => nomatch q)), fun q => absurd q c⟩
      · simp only [set_ne _ _ hu]
        exact h.threads u
    · rw [hres]
      intro x hx
      rcases List.mem_append.mp hx with hx | hx
      · exact h.known x hx
      · rw [List.mem_singleton.mp hx]; exact d
    · rw [hres]
      refine List.pairwise_append.mpr ⟨h.distinct, List.pairwise_singleton _ _, ?_⟩
      intro x hx y hy
      rw [List.mem_singleton.mp hy]
      exact h.fresh t _ hpt x hx
    · rw [hres]
      intro u x hx y hy
      obtain ⟨h1, h2⟩ := hpo u x hx
      rcases List.mem_append.mp hy with hy | hy
      · exact h.fresh u x h2 y hy
      · rw [List.mem_singleton.mp hy]
        intro q
        have q' : (reg, (s.proc t).clk.seq) = x := q
        exact h1 (h.apart u t x h2 (by rw [hpt, q']))
    · intro u v x hu hv
      exact h.apart u v x (hpo u x hu).2 (hpo v x hv).2
    · rw [hrr]
      intro u hu y hy
      exact h.later u hu y (hpo u y hy).2
    · rw [hrr, hres, List.drop_append_of_le_length h.size]
      intro y hy hT hb
      rcases List.mem_append.mp hy with hy | hy
      · exact h.done y hy hT hb
      · rw [List.mem_singleton.mp hy] at hT ⊢
        exact h.later t hT _ hpt hb
    · rw [hres, List.length_append]
      have := h.size
      omega

theorem inv_step {E T k} {s s' : St} {l l' : List Ev} {g : Ghost} (h : Inv E T k s l g) (hf : FineClock (readings (l ++ l'))) {a : Act}
    (ho : ∀ t i, a = .go t i → i.opened = true) (hs : step id s a = some (s', l')) : ∃ g', Inv E T k s' (l ++ l') g' := by
  cases a with
  | call t =>
    rw [step] at hs
    split at hs
    · cases hs
    · rename_i hn
      have hn' : s.cur t = none := by
        cases hq : s.cur t with
        | none => rfl
        | some _ => rw [hq] at hn; exact absurd rfl hn
      cases hs
      refine ⟨g, h.quiet t rfl (h.file.mono _ |> (by rw [readings_append]; exact ·)) (fun u _ => rfl) (fun u hu => set_ne _ _ hu) (fun u _ => Iff.rfl) ?_ ?_⟩
      · have ht := h.threads t
        rw [hn'] at ht
        simp only [set_eq]
        cases ht with
        | idle a b => exact .start a b
      · intro x hx
        simp only [set_eq] at hx
        cases hx
  | go t i =>
    rw [step] at hs
    cases hc : s.cur t with
    | none => rw [hc] at hs; cases hs
    | some pc =>
      rw [hc] at hs
      exact inv_go h hf (ho t i rfl) hc hs
  | kill p =>
    rw [step] at hs
    cases hs
    refine ⟨g, h.quiet p rfl (h.file.mono _ |> (by rw [readings_append]; exact ·)) (fun u hu => set_ne _ _ hu) (fun u hu => if_neg hu) ?_ ?_ ?_⟩
    · intro u hu
      by_cases q : s.holder = some p
      · simp only [if_pos q]
        rw [q]
        exact ⟨(fun z => nomatch z), fun z => absurd (Option.some.inj z).symm hu⟩
      · simp only [if_neg q]
    · simp only [set_eq]
      rw [if_pos (show id p = p from rfl)]
      refine .idle ?_ ⟨(fun q => nomatch q), fun _ => rfl⟩
      split
      · exact fun q => nomatch q
      · assumption
    · intro x hx
      have : pend Proc.fresh (if id p = p then none else s.cur p) = some x := by simpa only [set_eq] using hx
      rw [if_pos (show id p = p from rfl)] at this
      cases this

theorem inv_runs {E T k} {as : List Act} : ∀ {s s' : St} {l l' : List Ev} {g : Ghost}, Inv E T k s l g → FineClock (readings (l ++ l')) → AllOpen as →
    runs id as s = some (s', l') → ∃ g', Inv E T k s' (l ++ l') g' := by
  induction as with
  | nil =>
    intro s s' l l' g h _ _ hr
    cases hr
    rw [List.append_nil]
    exact ⟨g, h⟩
  | cons a as ih =>
    intro s s' l l' g h hf ho hr
    unfold runs at hr
    cases hs : step id s a with
    | none => rw [hs] at hr; cases hr
    | some x =>
      obtain ⟨s₁, l₁⟩ := x
      rw [hs] at hr
      simp only at hr
      cases hr2 : runs id as s₁ with
      | none => rw [hr2] at hr; cases hr
      | some y =>
        obtain ⟨s₂, l₂⟩ := y
        rw [hr2] at hr
        cases hr
        have hf1 : FineClock (readings (l ++ l₁)) := hf.mono (by
          rw [← List.append_assoc, readings_append (l ++ l₁)]
          exact List.sublist_append_left _ _)
        obtain ⟨g1, h1⟩ := inv_step h hf1 (fun t i e => ho t i (e ▸ List.mem_cons_self)) hs
        obtain ⟨g2, h2⟩ := ih (l := l ++ l₁) h1 (by rw [List.append_assoc]; exact hf) (fun t i m => ho t i (List.mem_cons_of_mem _ m)) hr2
        exact ⟨g2, by rw [← List.append_assoc]; exact h2⟩

end Verif.UuidClock
