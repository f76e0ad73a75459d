import Verif.ProdHash.Lemmas
import Verif.ProdHash.Spec
/-!
# Properties of the table of producers
-/
namespace Verif.ProdHash

theorem Reach.ok {hid : Nat → Nat} {k : Nat} {s : Sys} (h : Reach hid k s) : Ok hid s := by
  obtain ⟨ms, h⟩ := h
  exact ok_run (ok_init hid k) h

/-- A schedule of two threads: thread 0 makes a call, thread 1 begins one whose slot collides, thread
0 makes another call, thread 1 ends its call. -/
def demo : List Move :=
  .start 0 :: List.replicate 7 (.go 0 true) ++ (.start 1 :: List.replicate 5 (.go 1 true)) ++
    (.start 0 :: List.replicate 2 (.go 0 true)) ++ List.replicate 4 (.go 1 true)

/-! ### Whose producer -/

/-- C171: once a call has given a thread a producer, every later call of that thread gives that
producer, never another and never none, whatever the other threads do and however the hash collides. -/
theorem C171_same {hid : Nat → Nat} {k : Nat} {s : Sys} (h : Reach hid k s) {l₁ l₂ : List (Nat × Option Nat)}
    {i p : Nat} {r : Option Nat} (hl : s.log = l₁ ++ (i, some p) :: l₂) (hr : (i, r) ∈ l₁) : r = some p := by
  obtain ⟨_, _, _, h⟩ := h.ok
  exact h.logs.after l₁ l₂ i p r hl hr

/-- C172: two threads never get the same producer. -/
theorem C172_distinct {hid : Nat → Nat} {k : Nat} {s : Sys} (h : Reach hid k s) {i j p : Nat}
    (hi : (i, some p) ∈ s.log) (hj : (j, some p) ∈ s.log) : i = j := by
  obtain ⟨_, _, _, h⟩ := h.ok
  exact h.glob.inj i j p (h.logs.given i p hi) (h.logs.given j p hj)

/-- C173: when no call is running, the producers made are exactly those that calls gave out: none is
lost and none comes from nowhere. -/
theorem C173_none_lost {hid : Nat → Nat} {k : Nat} {s : Sys} (h : Reach hid k s) (hq : AtRest s)
    (p : Nat) : p < s.sh.made ↔ ∃ i, (i, some p) ∈ s.log := by
  obtain ⟨order, prod, owner, h⟩ := h.ok
  refine ⟨fun hp => ?_, fun ⟨i, hi⟩ => h.glob.lt i p (h.logs.given i p hi)⟩
  obtain ⟨i, hi⟩ := h.glob.surj p hp
  have hlt := h.inr i p hi
  have hn := hq _ (List.getElem_mem hlt)
  have hT : TI hid s.sh order prod owner s.log i none :=
    h.thr i none (by rw [List.getElem?_eq_getElem hlt, hn])
  exact ⟨i, (hT.2.1.2 p hi).2⟩

example : ∃ s, Reach (fun _ => 5) 2 s ∧
    s.log = [(1, some 1), (0, some 0), (0, some 0)] ∧ AtRest s ∧ s.sh.made = 2 :=
  ⟨_, ⟨demo, rfl⟩, by decide, by unfold AtRest; decide, by decide⟩

/-! ### Room for everyone -/

/-- C174: at every moment every table has a free slot. -/
theorem C174_free {hid : Nat → Nat} {k : Nat} {s : Sys} (h : Reach hid k s) {t : Nat}
    (ht : t < s.sh.tables.length) : ∃ a, a < capOf s.sh t ∧ keyAt s.sh t a = none := by
  obtain ⟨_, _, _, h⟩ := h.ok
  obtain ⟨a, ha, hn⟩ := free_slot h.glob ht
  exact ⟨a, ha, by rw [keyAt_eq, Nat.mod_eq_of_lt ha]; exact hn⟩

/-- C174: so a search for a key looks at each slot of a table at most once. -/
theorem C174_find {hid : Nat → Nat} {k : Nat} {s : Sys} (h : Reach hid k s) {i m t ix : Nat}
    (hi : s.threads[i]? = some (some (.find m t ix))) : hid i ≤ ix ∧ ix < hid i + capOf s.sh t := by
  obtain ⟨_, _, _, h⟩ := h.ok
  obtain ⟨_, _, _, h4, h5, _, d, h7, h8⟩ := h.thr i _ hi
  have := probe_lt h.glob (t := t) (by omega) (fun e he => (h8 e he).1)
  omega

/-- C174: and so does a search for a place for a new producer. -/
theorem C174_insert {hid : Nat → Nat} {k : Nat} {s : Sys} (h : Reach hid k s) {i m ix p : Nat}
    (hi : s.threads[i]? = some (some (.ins m ix p))) : hid i ≤ ix ∧ ix < hid i + capOf s.sh m := by
  obtain ⟨_, _, _, h⟩ := h.ok
  obtain ⟨_, _, _, _, _, h6, d, h7, h8⟩ := h.thr i _ hi
  have := probe_lt h.glob h6 h8
  omega

/-- C174: and for a place in a newer table. -/
theorem C174_copy {hid : Nat → Nat} {k : Nat} {s : Sys} (h : Reach hid k s) {i m ix v : Nat}
    (hi : s.threads[i]? = some (some (.copy m ix v))) : hid i ≤ ix ∧ ix < hid i + capOf s.sh m := by
  obtain ⟨_, _, _, h⟩ := h.ok
  obtain ⟨_, _, _, h4, _, _, _, d, h7, h8⟩ := h.thr i _ hi
  have := probe_lt h.glob h4 h8
  omega

example : ∃ s, Reach (fun _ => 5) 2 s ∧ s.threads[1]? = some (some (.find 0 0 6)) ∧
    keyAt s.sh 0 5 = some 0 :=
  ⟨_, ⟨demo.take 11, rfl⟩, by decide, by decide⟩

example : ∃ s, Reach (fun _ => 5) 2 s ∧ s.threads[1]? = some (some (.ins 0 6 1)) :=
  ⟨_, ⟨demo.take 17 ++ [.go 1 true], rfl⟩, by decide⟩

/-- The crowd of `crowd`, then thread 15 goes on and makes a table of 64, then thread 0 calls again: it
finds its producer in the old table and copies it. -/
def later : List Move := crowd ++ List.replicate 7 (.go 15 true) ++ (.start 0 :: List.replicate 3 (.go 0 true))

example : ∃ s, Reach id 24 s ∧ s.threads[0]? = some (some (.copy 1 0 0)) ∧ capOf s.sh 1 = 64 := by
  have h : ((run id (init 24) later).map fun s => (s.threads[0]?, capOf s.sh 1)) =
      some (some (some (.copy 1 0 0)), 64) := by decide +kernel
  cases hr : run id (init 24) later with
  | none => rw [hr] at h; cases h
  | some s =>
    rw [hr] at h
    injection h with h
    exact ⟨s, ⟨later, hr⟩, (Prod.mk.inj h).1, (Prod.mk.inj h).2⟩

/-! ### Results -/

/-- C175: a call gives no producer only if the calling thread itself could not have memory. -/
theorem C175_memory {hid : Nat → Nat} {k : Nat} {ms : List Move} {s : Sys}
    (h : run hid (init k) ms = some s) {i : Nat} (hi : (i, none) ∈ s.log) : Move.go i false ∈ ms := by
  rcases bad_run (ok_init hid k) h (.inl hi) with hb | hb
  · rcases hb with hb | ⟨p, hp, _⟩
    · cases hb
    · have hp' : (List.replicate k (none : Option Pos))[i]? = some (some p) := hp
      rw [List.getElem?_replicate] at hp'
      split at hp' <;> cases hp'
  · exact hb

example : ∃ s, run id (init 2) [.start 1, .go 1 true, .go 1 true, .go 1 true, .go 1 false, .go 1 true] = some s ∧
    s.log = [(1, none)] ∧ s.sh.count = 0 :=
  ⟨_, rfl, rfl, rfl⟩

/-! ### Progress -/

/-- C176: a thread that has its producer never waits: its call ends after a number of its own steps
that was fixed when the call read the newest table, whatever the other threads do meanwhile, stopping
for ever included. -/
theorem C176_wait_free {hid : Nat → Nat} {k : Nat} {s : Sys} (h : Reach hid k s) {i p m : Nat}
    (hp : (i, some p) ∈ s.log) (hi : s.threads[i]? = some (some (.find m m (hid i)))) {ms : List Move}
    {s' : Sys} (hr : run hid s ms = some s')
    (hn : m * (capOf s.sh m + 1) + 3 * capOf s.sh m + 2 ≤ stepsOf i ms) :
    ∃ l, s'.log = l ++ s.log ∧ (i, some p) ∈ l := by
  have key : ∀ (ms : List Move) (s : Sys) (q : Pos), Ok hid s → (i, some p) ∈ s.log →
      s.threads[i]? = some (some q) → looking q = true → run hid s ms = some s' →
      mu hid s.sh i q ≤ stepsOf i ms → ∃ l, s'.log = l ++ s.log ∧ (i, some p) ∈ l := by
    intro ms
    induction ms with
    | nil =>
      intro s q hok _ hi hl _ hm
      obtain ⟨_, _, _, hI⟩ := hok
      have h0 := mu_pos hI hi hl
      have : stepsOf i [] = 0 := rfl
      omega
    | cons m ms ih =>
      intro s q hok hp hi hl hr hm
      simp only [run] at hr
      cases hmv : move hid s m with
      | none => rw [hmv] at hr; cases hr
      | some s₁ =>
        rw [hmv] at hr
        have hr₁ : run hid s₁ ms = some s' := hr
        have hok₁ := ok_move hok hmv
        obtain ⟨l₁, hl₁⟩ := move_log hmv
        have back : (∃ l, s'.log = l ++ s₁.log ∧ (i, some p) ∈ l) →
            ∃ l, s'.log = l ++ s.log ∧ (i, some p) ∈ l := fun ⟨l, h1, h2⟩ =>
          ⟨l ++ l₁, by rw [h1, hl₁, List.append_assoc], List.mem_append_left _ h2⟩
        have hp₁ : (i, some p) ∈ s₁.log := by rw [hl₁]; exact List.mem_append_right _ hp
        cases m with
        | start j =>
          obtain ⟨hj, hs⟩ := move_start hmv
          have hij : i ≠ j := fun h => by rw [h, hj] at hi; cases hi
          have hi₁ : s₁.threads[i]? = some (some q) := by
            rw [hs]
            show (s.threads.set j (some .load))[i]? = _
            rw [List.getElem?_set_ne (fun h => hij h.symm)]
            exact hi
          have hsh : s₁.sh = s.sh := by rw [hs]
          exact back (ih s₁ q hok₁ hp₁ hi₁ hl hr₁ (by rw [hsh]; exact hm))
        | go j c =>
          obtain ⟨p', hj, hs⟩ := move_go hmv
          by_cases hij : i = j
          · subst hij
            rw [hi] at hj
            cases hj
            have hstep : stepsOf i (.go i c :: ms) = 1 + stepsOf i ms := by simp [stepsOf]
            rcases mu_step hok hi hl hp c with hret | ⟨q', hq', hl', hlt⟩
            · rw [hret] at hs
              obtain ⟨l, hl⟩ := run_log hr₁
              refine ⟨l ++ [(i, some p)], ?_, List.mem_append_right _ List.mem_cons_self⟩
              rw [hl, hs, List.append_assoc]
              rfl
            · rw [hq'] at hs
              refine back (ih s₁ q' hok₁ hp₁ (by rw [hs]; exact put_at hi ..) hl' hr₁ ?_)
              rw [hs, put_sh]
              omega
          · have hstep : stepsOf i (.go j c :: ms) = stepsOf i ms := by
              have : ¬ j = i := fun h => hij h.symm
              simp [stepsOf, this]
            have hi₁ : s₁.threads[i]? = some (some q) := by rw [hs, put_other hij]; exact hi
            obtain ⟨_, _, _, hI⟩ := hok
            have hmu : mu hid s₁.sh i q = mu hid s.sh i q :=
              mu_same hI hi (fun t ht => by rw [hs, put_sh]; exact step_cap _ _ _ _ _ ht)
            exact back (ih s₁ q hok₁ hp₁ hi₁ hl hr₁ (by rw [hmu]; omega))
  refine key ms s _ h.ok hp hi rfl hr ?_
  simp only [mu]
  omega

example : ∃ s, Reach id 24 s ∧ (0, some 0) ∈ s.log ∧ s.threads[0]? = some (some (.find 1 1 (id 0))) := by
  have h : ((run id (init 24) (later.take (later.length - 2))).map fun s =>
      (decide ((0, some 0) ∈ s.log), s.threads[0]?)) = some (true, some (some (.find 1 1 (id 0)))) := by
    decide +kernel
  cases hr : run id (init 24) (later.take (later.length - 2)) with
  | none => rw [hr] at h; cases h
  | some s =>
    rw [hr] at h
    injection h with h
    exact ⟨s, ⟨_, hr⟩, of_decide_eq_true (Prod.mk.inj h).1, (Prod.mk.inj h).2⟩

/-- C177: a call of a thread by itself ends, from every state and whether or not memory can be had,
unless another thread has stopped in the middle of making a new table. -/
theorem C177_alone_partial {hid : Nat → Nat} {k : Nat} {s : Sys} (h : Reach hid k s) {i : Nat} {p : Pos}
    (hi : s.threads[i]? = some (some p)) (hb : s.sh.busy = false ∨ resizing p = true) (cs : Nat → Bool) :
    ∃ n s', run hid s (solo i cs n) = some s' ∧ Out s' i := by
  have hok := h.ok
  suffices he : Ends hid i s from he.stream cs
  cases p with
  | load => exact ends_load hok (hb.resolve_right (by decide)) hi
  | find m t ix => exact ends_find _ _ hok (hb.resolve_right (by simp [resizing])) hi (Nat.le_refl _)
  | copy m ix v => exact ends_copy _ hok hi (Nat.le_refl _)
  | copyCas m ix v => exact ends_copyCas hok hi
  | copyVal m ix v => exact .step hi fun _ => .done (put_ret hi ..)
  | add m => exact ends_add hok (hb.resolve_right (by simp [resizing])) hi
  | tas m n => exact ends_tas hok (hb.resolve_right (by simp [resizing])) hi
  | reload n => exact ends_reload hok hi
  | grow m n => exact ends_grow hok hi
  | unlock m n => exact ends_unlock hok hi
  | subLocked => exact ends_subLocked hi
  | unlockFail => exact ends_unlockFail hi
  | spin n => exact ends_spin hok (hb.resolve_right (by simp [resizing])) hi
  | make m n => exact ends_make hok hi
  | sub => exact .step hi fun _ => .done (put_ret hi ..)
  | ins m ix v => exact ends_ins _ hok hi (Nat.le_refl _)
  | insCas m ix v => exact ends_insCas hok hi
  | insVal m ix v => exact ends_val hi

example : ∃ s, Reach (fun _ => 5) 2 s ∧ s.threads[1]? = some (some (.find 0 0 5)) ∧ s.sh.busy = false :=
  ⟨_, ⟨demo.take 10, rfl⟩, by decide, by decide⟩

example : ∃ s, Reach id 24 s ∧ s.threads[15]? = some (some (.reload 16)) ∧ resizing (.reload 16) = true := by
  have h : ((run id (init 24) crowd).map fun s => s.threads[15]?) = some (some (some (.reload 16))) := by
    decide +kernel
  cases hr : run id (init 24) crowd with
  | none => rw [hr] at h; cases h
  | some s =>
    rw [hr] at h
    injection h with h
    exact ⟨s, ⟨_, hr⟩, h, rfl⟩

theorem spin_forever {hid : Nat → Nat} {i n : Nat} : ∀ (cs : List Bool) {s : Sys}, s.sh.busy = true →
    capOf s.sh s.sh.main / 2 + capOf s.sh s.sh.main / 4 ≤ n →
    (s.threads[i]? = some (some (.spin n)) ∨ s.threads[i]? = some (some (.tas s.sh.main n))) →
    ∃ s', run hid s (cs.map (.go i)) = some s' ∧ InCall s' i ∧ s'.log = s.log
  | [], s, _, _, hi => ⟨s, rfl, hi.elim (fun h => ⟨_, h⟩) fun h => ⟨_, h⟩, rfl⟩
  | c :: cs, s, hb, hn, hi => by
    rcases hi with hi | hi
    · have hh : half s.sh s.sh.main n = .at (.tas s.sh.main n) := if_pos (by omega)
      obtain ⟨s', hr, hc, hl⟩ := spin_forever cs (s := put s i s.sh (.at (.tas s.sh.main n))) hb hn
        (.inr (put_at hi ..))
      refine ⟨s', ?_, hc, hl⟩
      simp only [List.map_cons, run, move, hi, step, hh]
      exact hr
    · have hh : room s.sh s.sh.main n = .at (.spin n) := if_neg (by omega)
      obtain ⟨s', hr, hc, hl⟩ := spin_forever cs (s := put s i s.sh (.at (.spin n))) hb hn
        (.inl (put_at hi ..))
      refine ⟨s', ?_, hc, hl⟩
      simp only [List.map_cons, run, move, hi, step, hb, if_true, hh]
      exact hr

/-- C177 fails in general: a thread that stops while it makes a new table stops others. With 24 threads
a state is reached where one is stopped there and another makes its first call, which then never ends
however many steps it takes. -/
theorem C177_stuck_wrong : ∃ s, Reach id 24 s ∧ InCall s 23 ∧ ∀ cs : List Bool,
    ∃ s', run id s (cs.map (.go 23)) = some s' ∧ InCall s' 23 ∧ s'.log = s.log := by
  have h : ((run id (init 24) crowd).map fun s =>
      (s.threads[23]?, s.sh.busy, capOf s.sh s.sh.main)) = some (some (some (.spin 24)), true, 32) := by
    decide +kernel
  cases hr : run id (init 24) crowd with
  | none => rw [hr] at h; cases h
  | some s =>
    rw [hr] at h
    injection h with h
    obtain ⟨h1, h2⟩ := Prod.mk.inj h
    obtain ⟨h2, h3⟩ := Prod.mk.inj h2
    exact ⟨s, ⟨_, hr⟩, ⟨_, h1⟩, fun cs => spin_forever cs h2 (by rw [h3]; decide) (.inl h1)⟩

/-! ### Sizes -/

/-- C178: no table has more slots than four for each thread, and 32, and each has at least twice the
slots of the one before it. -/
theorem C178_size {hid : Nat → Nat} {k : Nat} {s : Sys} (h : Reach hid k s) :
    (∀ t, capOf s.sh t ≤ 4 * k + 32) ∧
      ∀ t, t + 1 < s.sh.tables.length → 2 * capOf s.sh t ≤ capOf s.sh (t + 1) := by
  obtain ⟨ms, h⟩ := h
  have := sized_run (ok_init hid k) (sized_init k) h
  exact ⟨this.cap, this.dbl⟩

end Verif.ProdHash
