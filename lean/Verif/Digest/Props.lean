import Verif.Digest.Lemmas
import Verif.Digest.Copy
/-! # Properties of MessageDigest -/
namespace Verif.Digest

theorem along_all {τ : Type} (sp : Op → τ → τ × Except Exc Ans) (ok : Op → Prop) :
    ∀ (ops : List Op) (t : τ), (∀ op ∈ ops, ok op) → Along sp (fun op _ => ok op) ops t := by
  intro ops
  induction ops with
  | nil => intro t _; trivial
  | cons op ops ih => intro t h; exact ⟨h op (List.mem_cons_self ..), ih _ fun o ho => h o (List.mem_cons_of_mem _ ho)⟩

theorem sha1_run (m : Sem) (ops : List Op) (o : Obj) (t : List Byte) (hR : IsSha1 o t) (h : ∀ op ∈ ops, legal (2 ^ 31 - 1) op) :
    ∃ o', IsSha1 o' (specHist (spec sha1) ops t).1 ∧ runHist (step m) ops o = .ok (o', (specHist (spec sha1) ops t).2) :=
  runHist_refines (step m) (spec sha1) IsSha1 (fun op _ => legal (2 ^ 31 - 1) op) (fun op s t hR hl => sha1_step m _ op s t hR hl) ops o t hR
    (along_all _ _ _ _ h)

theorem md5_run (m : Sem) (ops : List Op) (o : Obj) (t : List Byte) (hR : IsMd5 o t) (h : ∀ op ∈ ops, legal (Md5.limit m) op) :
    ∃ o', IsMd5 o' (specHist (spec md5Continued) ops t).1 ∧ runHist (step m) ops o = .ok (o', (specHist (spec md5Continued) ops t).2) :=
  runHist_refines (step m) (spec md5Continued) IsMd5 (fun op _ => legal (Md5.limit m) op) (fun op s t hR hl => md5_step m op s t hR hl) ops o t hR
    (along_all _ _ _ _ h)

/-! ## C52, C82: the lifecycle -/

/-- SHA-1: in every history of calls, `digest` gives the digest of the bytes updated
since construction or the last `reset` or `digest`, and every other call what the
specification says. -/
theorem C82_sha1_lifecycle (m : Sem) (buf : List Byte) (ops : List Op) (h : ∀ op ∈ ops, legal (2 ^ 31 - 1) op) :
    ∃ o o', getInstance buf (txt "SHA1") = .ok o ∧ runHist (step m) ops o = .ok (o', (specHist (spec sha1) ops []).2) := by
  obtain ⟨o, h1, h2⟩ := new_sha1 buf
  obtain ⟨o', _, h4⟩ := sha1_run m ops o [] h2 h
  exact ⟨o, o', h1, h4⟩

example : ∀ op ∈ [Op.update (some [1#8, 2#8]) 2, .digest (some (List.replicate 20 0#8)) 20, .update (some [3#8]) 1, .reset,
    .digest (some (List.replicate 32 0#8)) 32], legal (2 ^ 31 - 1) op := by
  intro op h
  simp only [List.mem_cons, List.not_mem_nil, or_false] at h
  rcases h with rfl | rfl | rfl | rfl | rfl <;> simp [legal]

/-- MD5: the same, except that `digest` does not reset: what follows is hashed after
the padded message. -/
theorem C52_md5_partial (m : Sem) (buf : List Byte) (hb : buf.length = 64) (ops : List Op) (h : ∀ op ∈ ops, legal (Md5.limit m) op) :
    ∃ o o', getInstance buf (txt "MD5") = .ok o ∧ runHist (step m) ops o = .ok (o', (specHist (spec md5Continued) ops []).2) := by
  obtain ⟨o, h1, h2⟩ := new_md5 buf hb
  obtain ⟨o', _, h4⟩ := md5_run m ops o [] h2 h
  exact ⟨o, o', h1, h4⟩

theorem spec_three (A : Alg) (msg out : List Byte) (h0 : msg ≠ []) (n : Int) (hn : n = A.n) (ho : out.length = A.n) :
    (specHist (spec A) [.update (some msg) msg.length, .digest (some out) n, .digest (some out) n] []).2 =
      [.ok .unit, .ok (.digest A.n (A.H msg)), .ok (.digest A.n (A.H (A.after msg)))] := by
  have hne : (msg.length : Int) ≠ 0 := by
    have := List.length_pos_iff.mpr h0
    omega
  have hnl : ¬ n < A.n := by omega
  unfold specHist
  rw [spec_update A msg msg.length [] hne]
  unfold specHist
  rw [spec_digest A out n _ hnl]
  unfold specHist
  rw [spec_digest A out n _ hnl]
  unfold specHist
  simp only [Int.toNat_natCast, List.take_length, List.nil_append]
  rw [List.drop_eq_nil_of_le (by omega), List.append_nil, List.append_nil]

/-- MD5: a second `digest` gives the digest of the padded message. -/
theorem C52_md5_second (m : Sem) (buf : List Byte) (hb : buf.length = 64) (msg : List Byte) (h0 : msg ≠ []) (hm : msg.length ≤ Md5.limit m)
    (out : List Byte) (ho : out.length = 16) :
    ∃ o o', getInstance buf (txt "MD5") = .ok o ∧
      runHist (step m) [.update (some msg) msg.length, .digest (some out) 16, .digest (some out) 16] o =
        .ok (o', [.ok .unit, .ok (.digest 16 (Md5.RFC.md5 msg)), .ok (.digest 16 (Md5.RFC.md5 (Md5.RFC.padded msg)))]) := by
  have h := C52_md5_partial m buf hb [.update (some msg) msg.length, .digest (some out) 16, .digest (some out) 16] (by
    intro op hop
    simp only [List.mem_cons, List.not_mem_nil, or_false] at hop
    rcases hop with rfl | rfl | rfl
    · exact ⟨by omega, by omega, by omega⟩
    · exact (show (16 : Int) ≤ out.length by omega)
    · exact (show (16 : Int) ≤ out.length by omega))
  obtain ⟨o, o', h1, h2⟩ := h
  refine ⟨o, o', h1, ?_⟩
  rw [h2, spec_three md5Continued msg out h0 16 rfl ho]
  rfl

/-- The claim is false of MD5: after `update` with the byte 97, the second of two
calls of `digest` does not give the digest of the empty message. -/
theorem C52_md5_wrong (m : Sem) (buf : List Byte) (hb : buf.length = 64) :
    ∃ ops o o' as, (∀ op ∈ ops, legal (Md5.limit m) op) ∧ getInstance buf (txt "MD5") = .ok o ∧ runHist (step m) ops o = .ok (o', as) ∧
      as ≠ (specHist (spec md5) ops []).2 := by
  have hlim : 64 ≤ Md5.limit m := by cases m <;> simp only [Md5.limit] <;> omega
  obtain ⟨o, o', h1, h2⟩ := C52_md5_second m buf hb [0x61#8] (by simp) (by simp; omega) (List.replicate 16 0#8) (by decide)
  have hne : Md5.RFC.md5 (Md5.RFC.padded [0x61#8]) ≠ md5.H (md5.after [0x61#8]) := by decide +kernel
  have hs := spec_three md5 [0x61#8] (List.replicate 16 0#8) (by simp) 16 rfl (by decide)
  refine ⟨_, o, o', _, ?_, h1, h2, ?_⟩
  rotate_left
  · rw [hs]
    intro he
    simp only [List.cons.injEq, Except.ok.injEq, Ans.digest.injEq, and_true, true_and] at he
    exact hne he.2.2
  intro op hop
  simp only [List.mem_cons, List.not_mem_nil, or_false] at hop
  rcases hop with rfl | rfl | rfl
  · exact ⟨by decide, by decide, by simp; omega⟩
  · exact (show (16 : Int) ≤ ((List.replicate 16 0#8).length : Nat) by decide)
  · exact (show (16 : Int) ≤ ((List.replicate 16 0#8).length : Nat) by decide)

/-! ## C83: MD5 after reset -/

/-- One `update` for each chunk. -/
def updates (chunks : List (List Byte)) : List Op := chunks.map fun c => .update (some c) c.length

theorem specHist_append {τ : Type} (sp : Op → τ → τ × Except Exc Ans) : ∀ (a b : List Op) (t : τ),
    specHist sp (a ++ b) t = ((specHist sp b (specHist sp a t).1).1, (specHist sp a t).2 ++ (specHist sp b (specHist sp a t).1).2) := by
  intro a
  induction a with
  | nil => intro b t; rfl
  | cons x a ih => intro b t; simp only [List.cons_append, specHist, ih]

theorem specHist_updates (A : Alg) : ∀ (chunks : List (List Byte)) (t : List Byte), (∀ c ∈ chunks, c ≠ []) →
    specHist (spec A) (updates chunks) t = (t ++ chunks.flatten, chunks.map fun _ => .ok .unit) := by
  intro chunks
  induction chunks with
  | nil => intro t _; simp [updates, specHist]
  | cons c cs ih =>
    intro t h
    have hc : (c.length : Int) ≠ 0 := by
      have := List.length_pos_iff.mpr (h c (List.mem_cons_self ..))
      omega
    show specHist (spec A) (.update (some c) c.length :: updates cs) t = _
    unfold specHist
    rw [spec_update A c c.length t hc]
    simp only
    rw [ih _ fun d hd => h d (List.mem_cons_of_mem _ hd)]
    simp only [Int.toNat_natCast, List.take_length, List.flatten_cons, List.append_assoc, List.map_cons]

/-- Whatever was done before, after `reset` and updates `digest` gives the digest of
the bytes of these updates. -/
theorem C83_after_reset (m : Sem) (buf : List Byte) (hb : buf.length = 64) (before : List Op) (hl : ∀ op ∈ before, legal (Md5.limit m) op)
    (chunks : List (List Byte)) (hc : ∀ c ∈ chunks, c ≠ [] ∧ c.length ≤ Md5.limit m) (out : List Byte) (ho : 16 ≤ out.length) :
    ∃ o o' as, getInstance buf (txt "MD5") = .ok o ∧
      runHist (step m) (before ++ .reset :: (updates chunks ++ [.digest (some out) out.length])) o =
        .ok (o', as ++ [.ok (.digest 16 (Md5.RFC.md5 chunks.flatten ++ out.drop 16))]) := by
  obtain ⟨o, o', h1, h2⟩ := C52_md5_partial m buf hb (before ++ .reset :: (updates chunks ++ [.digest (some out) out.length])) (by
    intro op hop
    simp only [List.mem_append, List.mem_cons, List.not_mem_nil, or_false, updates, List.mem_map] at hop
    rcases hop with hop | rfl | ⟨c, hcm, rfl⟩ | rfl
    · exact hl op hop
    · trivial
    · obtain ⟨_, h⟩ := hc c hcm
      exact ⟨by omega, by omega, by omega⟩
    · exact (show (out.length : Int) ≤ out.length by omega))
  refine ⟨o, o', (specHist (spec md5Continued) before []).2 ++ .ok .unit :: chunks.map fun _ => .ok .unit, h1, ?_⟩
  rw [h2, specHist_append]
  simp only
  generalize (specHist (spec md5Continued) before []).1 = t
  have e : specHist (spec md5Continued) (.reset :: (updates chunks ++ [.digest (some out) out.length])) t =
      (Md5.RFC.padded chunks.flatten, .ok .unit :: (chunks.map (fun _ => .ok .unit) ++ [.ok (.digest 16 (Md5.RFC.md5 chunks.flatten ++ out.drop 16))])) := by
    have hn : ¬ ((out.length : Nat) : Int) < ((md5Continued.n : Nat) : Int) := by
      show ¬ ((out.length : Nat) : Int) < ((16 : Nat) : Int)
      omega
    unfold specHist
    rw [specHist_append]
    have hr : spec md5Continued .reset t = ([], .ok .unit) := rfl
    rw [hr]
    simp only
    rw [specHist_updates md5Continued chunks [] fun c hcm => (hc c hcm).1]
    simp only [List.nil_append]
    unfold specHist
    rw [spec_digest md5Continued out _ _ hn]
    rfl
  rw [e]
  simp only [List.append_assoc, List.cons_append]

example : ∀ c ∈ [[1#8], [2#8, 3#8]], c ≠ [] ∧ c.length ≤ Md5.limit .strict := by decide +kernel

/-! ## C84: calls that are refused -/

/-- Exactly two names are known. -/
theorem C84_names (buf name : List Byte) : getInstance buf name = .throw .noSuchAlgorithm ↔ name ≠ txt "MD5" ∧ name ≠ txt "SHA1" := by
  unfold getInstance
  by_cases h1 : name = txt "MD5"
  · rw [if_pos h1]; simp [h1]
  · rw [if_neg h1]
    by_cases h2 : name = txt "SHA1"
    · rw [if_pos h2]; simp [h2]
    · rw [if_neg h2]; simp [h1, h2]

/-- An input or output that cannot be used: a null pointer, nothing to read, or less
space than any digest needs. -/
def Refused : Op → Prop
  | .digest none _ => True
  | .digest (some _) len => len < 16
  | .update none _ => True
  | .update (some _) len => len = 0
  | _ => False

theorem refused_step (m : Sem) (op : Op) (h : Refused op) (o : Obj) : step m op o = .exc o .interrupted := by
  cases op with
  | getAlgorithm => exact h.elim
  | getDigestLength => exact h.elim
  | reset => exact h.elim
  | digest buf len =>
    cases buf with
    | none => rfl
    | some b =>
      have h' : len < 16 := h
      apply step_short
      cases o.spi with
      | md5 e => exact h'
      | sha1 e => exact (show len < 20 by omega)
  | update input len =>
    cases input with
    | none => rfl
    | some d =>
      have h' : len = 0 := h
      subst h'
      rfl

/-- A refused call throws and leaves no trace: the calls before and after it answer
as if it had not been made. -/
theorem C84_no_trace (m : Sem) (bad : Op) (hb : Refused bad) : ∀ (before after : List Op) (o o' : Obj) (as : List (Except Exc Ans)),
    runHist (step m) (before ++ after) o = .ok (o', as) →
      runHist (step m) (before ++ bad :: after) o = .ok (o', as.take before.length ++ .error .interrupted :: as.drop before.length) := by
  intro before
  induction before with
  | nil =>
    intro after o o' as h
    simp only [List.nil_append] at h
    simp only [List.nil_append]
    unfold runHist
    rw [refused_step m bad hb o]
    simp only
    rw [h]
    rfl
  | cons x before ih =>
    intro after o o' as h
    simp only [List.cons_append] at h ⊢
    unfold runHist at h ⊢
    cases hx : step m x o with
    | ret o1 v =>
      rw [hx] at h
      simp only at h ⊢
      cases hr : runHist (step m) (before ++ after) o1 with
      | ok r =>
        obtain ⟨o2, as2⟩ := r
        rw [hr] at h
        simp only [Outcome.bind_ok, Outcome.ok.injEq, Prod.mk.injEq] at h
        obtain ⟨rfl, rfl⟩ := h
        rw [ih after o1 o2 as2 hr]
        rfl
      | throw e => rw [hr] at h; cases h
      | ub => rw [hr] at h; cases h
      | diverge => rw [hr] at h; cases h
    | exc o1 v =>
      rw [hx] at h
      simp only at h ⊢
      cases hr : runHist (step m) (before ++ after) o1 with
      | ok r =>
        obtain ⟨o2, as2⟩ := r
        rw [hr] at h
        simp only [Outcome.bind_ok, Outcome.ok.injEq, Prod.mk.injEq] at h
        obtain ⟨rfl, rfl⟩ := h
        rw [ih after o1 o2 as2 hr]
        rfl
      | throw e => rw [hr] at h; cases h
      | ub => rw [hr] at h; cases h
      | diverge => rw [hr] at h; cases h
    | ub => rw [hx] at h; cases h
    | diverge => rw [hx] at h; cases h

example : Refused (.update (some [1#8]) 0) ∧ Refused (.digest (some [0#8]) 1) ∧ Refused (.update none 5) := ⟨rfl, by show (1 : Int) < 16; decide, trivial⟩

/-! ## C85: copies -/

/-- A copy shares the engine: destroying the copy and then the original frees it
twice, whatever happened before. -/
theorem C85_destroy_wrong (h : Handle) (M : Mem) : ∀ M', destroy (copy h) M = .ok M' → destroy h M' = .ub := by
  intro M' hd
  unfold destroy copy at *
  cases hq : M[h.spi]? with
  | none => rw [hq] at hd; cases hd
  | some q =>
    cases q with
    | none => rw [hq] at hd; cases hd
    | some e =>
      rw [hq] at hd
      simp only [Outcome.ok.injEq] at hd
      subst hd
      have hlt : h.spi < M.length := by
        rw [List.getElem?_eq_some_iff] at hq
        exact hq.1
      rw [List.getElem?_set_self hlt]

/-- Using the original after the copy is destroyed is undefined. -/
theorem C85_use_wrong (m : Sem) (h : Handle) (M : Mem) (op : Op) : ∀ M', destroy (copy h) M = .ok M' → call m op h M' = .ub := by
  intro M' hd
  have := C85_destroy_wrong h M M' hd
  unfold destroy at this
  unfold call
  cases hq : M'[h.spi]? with
  | none => rfl
  | some q =>
    cases q with
    | none => rfl
    | some e => rw [hq] at this; cases this

/-- What the copy is fed, the original hashes. -/
theorem C85_shared_wrong (m : Sem) (h : Handle) (M : Mem) (e : Engine) (msg d out : List Byte) (hM : M[h.spi]? = some (some e))
    (he : IsSha1 ⟨e, h.algorithm⟩ msg) (hd : d ≠ []) (hl : d.length < 2 ^ 31) (ho : out.length = 20) :
    ∃ M' M'', call m (.update (some d) d.length) (copy h) M = .ok (M', .ok .unit) ∧
      call m (.digest (some out) 20) h M' = .ok (M'', .ok (.digest 20 (Sha1.FIPS.sha1 (msg ++ d)))) := by
  have hlt : h.spi < M.length := by
    rw [List.getElem?_eq_some_iff] at hM
    exact hM.1
  have hne : (d.length : Int) ≠ 0 := by
    have := List.length_pos_iff.mpr hd
    omega
  obtain ⟨o1, a1, a2⟩ := sha1_step m (2 ^ 31 - 1) (.update (some d) d.length) _ msg he ⟨by omega, by omega, by omega⟩
  rw [spec_update sha1 d d.length msg hne] at a1 a2
  simp only [Int.toNat_natCast, List.take_length] at a1
  have a2' : step m (.update (some d) d.length) ⟨e, h.algorithm⟩ = .ret o1 .unit := a2
  have hal : o1 = ⟨o1.spi, h.algorithm⟩ := by
    have x := a1.1
    have y := he.1
    simp only at y
    rw [y, ← x]
  rw [hal] at a1
  obtain ⟨o2, b1, b2⟩ := sha1_step m (2 ^ 31 - 1) (.digest (some out) 20) _ (msg ++ d) a1 (show (20 : Int) ≤ out.length by omega)
  rw [spec_digest sha1 out 20 _ (by decide)] at b2
  have b2' : step m (.digest (some out) 20) ⟨o1.spi, h.algorithm⟩ = .ret o2 (.digest 20 (Sha1.FIPS.sha1 (msg ++ d) ++ out.drop 20)) := b2
  rw [List.drop_eq_nil_of_le (by omega), List.append_nil] at b2'
  refine ⟨M.set h.spi (some o1.spi), (M.set h.spi (some o1.spi)).set h.spi (some o2.spi), ?_, ?_⟩
  · unfold call copy
    rw [hM]
    simp only
    rw [a2']
  · unfold call
    rw [List.getElem?_set_self hlt]
    simp only
    rw [b2']

/-- Without copies, creating, using once and destroying is defined. -/
theorem C85_single_partial (buf : List Byte) (M : Mem) (h : Handle) (M' : Mem) (hc : create buf (txt "SHA1") M = .ok (M', h)) :
    ∃ M'', destroy h M' = .ok M'' ∧ M''.take M.length = M := by
  obtain ⟨o, h1, _⟩ := new_sha1 buf
  unfold create at hc
  rw [h1, Outcome.bind_eq, Outcome.bind_ok] at hc
  simp only [Outcome.ok.injEq, Prod.mk.injEq] at hc
  obtain ⟨rfl, rfl⟩ := hc
  refine ⟨(M ++ [some o.spi]).set M.length none, ?_, ?_⟩
  · unfold destroy
    simp only
    rw [List.getElem?_concat_length]
  · rw [List.take_set_of_le (Nat.le_refl _), List.take_left]

example : ∃ M h M', create [] (txt "SHA1") [] = .ok (M, h) ∧ destroy (copy h) M = .ok M' := ⟨_, _, _, rfl, rfl⟩

end Verif.Digest
