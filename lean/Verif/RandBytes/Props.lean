import Verif.RandBytes.Lemmas
/-!
# The random bytes of UUIDs
-/
namespace Verif.RandBytes

/-! ## C231: where they come from -/

/-- If the device gives the bytes `bs`, in whatever pieces, byte `i` of the result is byte `i` of the device, changed by a number
that does not depend on the device. -/
theorem C231_bytes_partial {w : World} {bs : List Byte} (hp : SmallPid w) (h : Gets w bs) {buf : List Byte} (hl : buf.length = bs.length) :
    ∃ out, Result w buf out ∧ out.length = buf.length ∧ ∀ i b, bs[i]? = some b → out[i]? = some (b ^^^ w.mask i) := by
  obtain ⟨k, hk⟩ := getBytes_gets hp h hl
  refine ⟨_, ⟨k, hk⟩, by unfold mix; rw [List.length_mapIdx, hl], fun i b hb => ?_⟩
  rw [mix_get, hb]
  rfl

/-- Then what was in the buffer before does not matter. -/
theorem C231_independent_partial {w : World} {bs : List Byte} (hp : SmallPid w) (h : Gets w bs) {buf buf' out out' : List Byte} (hl : buf.length = bs.length) (hl' : buf'.length = bs.length)
    (hr : Result w buf out) (hr' : Result w buf' out') : out = out' := by
  obtain ⟨k, hk⟩ := getBytes_gets hp h hl
  obtain ⟨k', hk'⟩ := getBytes_gets hp h hl'
  obtain ⟨j, hj⟩ := hr
  obtain ⟨j', hj'⟩ := hr'
  rw [hk] at hj
  rw [hk'] at hj'
  cases hj
  cases hj'
  rfl

/-- Different bytes of the device give different results. -/
theorem C231_different_partial {w w' : World} {bs bs' : List Byte} (hp : SmallPid w) (ha : Alike w w') (h : Gets w bs) (h' : Gets w' bs') {buf buf' out : List Byte} (hl : buf.length = bs.length)
    (hl' : buf'.length = bs'.length) (hr : Result w buf out) (hr' : Result w' buf' out) : bs = bs' := by
  obtain ⟨k, hk⟩ := getBytes_gets hp h hl
  obtain ⟨k', hk'⟩ := getBytes_gets (by unfold SmallPid at hp ⊢; rw [ha.1]; exact hp) h' hl'
  obtain ⟨j, hj⟩ := hr
  obtain ⟨j', hj'⟩ := hr'
  rw [hk] at hj
  rw [hk', mix_alike ha] at hj'
  have e1 : mix w bs = out := congrArg Prod.fst (Outcome.ok.inj hj)
  have e2 : mix w bs' = out := congrArg Prod.fst (Outcome.ok.inj hj')
  have e : mix w bs' = mix w bs := e2.trans e1.symm
  rw [← mix_mix w bs, ← e, mix_mix]

/-- Every result is that of some bytes of the device: if all of these are equally likely, so are all results. -/
theorem C231_every_partial {w : World} (hp : SmallPid w) (out : List Byte) :
    ∃ bs : List Byte, bs.length = out.length ∧ ∀ w' buf, Alike w w' → Gets w' bs → buf.length = out.length → Result w' buf out := by
  have hl : (mix w out).length = out.length := by unfold mix; rw [List.length_mapIdx]
  refine ⟨mix w out, hl, fun w' buf ha hg hb => ?_⟩
  obtain ⟨k, hk⟩ := getBytes_gets (by unfold SmallPid at hp ⊢; rw [ha.1]; exact hp) hg (hb.trans hl.symm)
  rw [mix_alike ha, mix_mix] at hk
  exact ⟨k, hk⟩

/-- The call ends after at most 18 calls of `read` for each byte, and writes exactly the bytes of the buffer. -/
theorem C231_ends_partial {w : World} (hp : SmallPid w) (hw : Honest w) (buf : List Byte) :
    ∃ out k, getBytes w buf = .ok (out, k) ∧ out.length = buf.length ∧ k ≤ 18 * buf.length := by
  have hf : ∃ out k, (if w.opened then fill w.read buf.length (18 * buf.length) 0 buf.length 0 buf else .ok (buf, 0)) = Outcome.ok (out, k) ∧ out.length = buf.length ∧ k ≤ 18 * buf.length := by
    by_cases ho : w.opened = true
    · rw [if_pos ho]
      obtain ⟨out, j, h1, h2, h3⟩ := fill_ends hw buf.length (18 * buf.length) 0 buf.length 0 buf rfl (Nat.le_refl _) (by omega) (by omega)
      exact ⟨out, j, h1, h2, by omega⟩
    · rw [if_neg ho]
      exact ⟨buf, 0, rfl, rfl, by omega⟩
  obtain ⟨out, k, h1, h2, h3⟩ := hf
  refine ⟨mix w out, k, ?_, by unfold mix; rw [List.length_mapIdx, h2], h3⟩
  unfold getBytes
  rw [if_neg (by unfold SmallPid at hp; omega), h1]
  rfl

/-- A process with a device that gives `bs` byte by byte, after one error. -/
def slow (bs : List Byte) : World := ⟨true, false, fun k n => if k = 0 ∨ n = 0 then none else (bs[k - 1]?).map ([·]), 4711, 1000, (1000, 1), (1000, 2), fun s k => s + 128 * k⟩

example : SmallPid (slow [1, 2, 3]) ∧ Gets (slow [1, 2, 3]) [1, 2, 3] ∧ Honest (slow [1, 2, 3]) ∧ Alike (slow [1, 2, 3]) (slow [4, 5, 6]) ∧ Result (slow [1, 2, 3]) [0, 0, 0] [11, 9, 15] := by
  refine ⟨by unfold SmallPid; decide, ⟨.inl rfl, ?_⟩, ?_, ⟨rfl, rfl, rfl, rfl, rfl⟩, ⟨4, by decide +kernel⟩⟩
  · refine .fail (by decide) (.inl rfl) (by decide) (.part (bs := [1]) (by decide) rfl (by decide) (by decide) (.part (bs := [2]) (by decide) rfl (by decide) (by decide)
      (.part (bs := [3]) (rest := []) (by decide) rfl (by decide) (by decide) (.done _ _))))
  · intro k n bs e
    have e' : (if k = 0 ∨ n = 0 then none else (([1, 2, 3] : List Byte)[k - 1]?).map ([·])) = some bs := e
    split at e'
    · cases e'
    · obtain ⟨b, _, rfl⟩ := Option.map_eq_some_iff.mp e'
      show 1 ≤ n
      omega

/-- A process that can open no device. -/
def blind (t : Nat × Nat) (t' : Nat × Nat) (rand : Nat → Nat → Nat) : World := ⟨false, false, fun _ _ => none, 4711, 1000, t, t', rand⟩

/-- The result may depend on what was in memory before: no device can be opened. -/
theorem C231_memory_wrong : ¬ ∀ w buf buf' out out', SmallPid w → Honest w → buf.length = buf'.length → Result w buf out → Result w buf' out' → out = out' := by
  intro h
  have := h (blind (0, 0) (0, 0) fun _ _ => 0) [0] [1] [0] [1] (by unfold SmallPid; decide) (fun _ _ _ e => nomatch e) rfl ⟨0, by decide +kernel⟩ ⟨0, by decide +kernel⟩
  exact absurd this (by decide)

/-- The same for a device that can be opened and gives nothing: the call gives up after 18 calls of `read`. -/
theorem C231_device_wrong : ¬ ∀ w buf buf' out out', SmallPid w → Honest w → w.urandom = true → buf.length = buf'.length → Result w buf out → Result w buf' out' → out = out' := by
  intro h
  have := h { blind (0, 0) (0, 0) fun _ _ => 0 with urandom := true } [0] [1] [0] [1] (by unfold SmallPid; decide) (fun _ _ _ e => nomatch e) rfl rfl ⟨18, by decide +kernel⟩ ⟨18, by decide +kernel⟩
  exact absurd this (by decide)

/-- Without a device, calls of a process at different times may give the same bytes, whatever `rand` does and whatever was in
the buffer. -/
theorem C231_time_wrong (rand : Nat → Nat → Nat) (buf : List Byte) :
    ¬ ∀ t1 t1' t2 t2' out, t1 ≠ t2 → t1' ≠ t2' → Result (blind t1 t1' rand) buf out → ¬ Result (blind t2 t2' rand) buf out := by
  intro h
  have e1 : ∀ t t', getBytes (blind t t' rand) buf = .ok (mix (blind t t' rand) buf, 0) := fun t t' => rfl
  have e2 : mix (blind (1001, 0) (1001, 3) rand) buf = mix (blind (1000, 1) (1000, 2) rand) buf := by
    have hs : (blind (1001, 0) (1001, 3) rand).seed = (blind (1000, 1) (1000, 2) rand).seed := by
      show (4711 * 2 ^ 16 ^^^ 1000 ^^^ 1001 ^^^ 0) % 2 ^ 32 = (4711 * 2 ^ 16 ^^^ 1000 ^^^ 1000 ^^^ 1) % 2 ^ 32
      decide +kernel
    have hc : (blind (1001, 0) (1001, 3) rand).crank = (blind (1000, 1) (1000, 2) rand).crank := by
      show (1001 ^^^ 3) % 32 = (1000 ^^^ 2) % 32
      decide +kernel
    unfold mix World.mask
    rw [hs, hc]
    rfl
  exact h (1000, 1) (1000, 2) (1001, 0) (1001, 3) _ (by decide) (by decide) ⟨0, e1 _ _⟩ ⟨0, by rw [e1, e2]⟩

/-- The shift of the number of the process overflows. -/
theorem C231_pid_wrong : ¬ ∀ w buf, Honest w → getBytes w buf ≠ .ub := by
  intro h
  exact h { blind (0, 0) (0, 0) fun _ _ => 0 with pid := 32768 } [0] (fun _ _ _ e => nomatch e) (by decide +kernel)

end Verif.RandBytes
