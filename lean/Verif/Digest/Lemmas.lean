import Verif.Digest.Spec
import Verif.Md5.Props
import Verif.Sha1.Props
/-! # Lemmas about MessageDigest -/
namespace Verif.Digest

theorem md5_length (msg : List Byte) : (Md5.RFC.md5 msg).length = 16 := by
  unfold Md5.RFC.md5 Md5.RFC.output
  generalize Hash.foldBlocks _ _ _ = r
  obtain ⟨a, b, c, d⟩ := r
  simp

theorem sha1_length (msg : List Byte) : (Sha1.FIPS.sha1 msg).length = 20 := by
  unfold Sha1.FIPS.sha1 Sha1.FIPS.output
  generalize Hash.foldBlocks _ _ _ = r
  obtain ⟨a, b, c, d, e⟩ := r
  simp

/-- The object is a SHA-1 digest with `msg` to be hashed. -/
def IsSha1 (o : Obj) (msg : List Byte) : Prop :=
  o.algorithm = txt "SHA1" ∧ ∃ h s, o.spi = .sha1 ⟨h, s, false⟩ ∧ Sha1.Inv s msg

/-- The object is an MD5 digest with `msg` to be hashed. -/
def IsMd5 (o : Obj) (msg : List Byte) : Prop :=
  o.algorithm = txt "MD5" ∧ ∃ h s, o.spi = .md5 ⟨h, s, false⟩ ∧ Md5.Inv s msg

theorem new_sha1 (buf : List Byte) : ∃ o, getInstance buf (txt "SHA1") = .ok o ∧ IsSha1 o [] :=
  ⟨⟨newSha1, txt "SHA1"⟩, by unfold getInstance; rw [if_neg (by decide), if_pos rfl], rfl, _, _, rfl, Sha1.init_inv⟩

theorem new_md5 (buf : List Byte) (hb : buf.length = 64) : ∃ o, getInstance buf (txt "MD5") = .ok o ∧ IsMd5 o [] :=
  ⟨⟨newMd5 buf, txt "MD5"⟩, by unfold getInstance; rw [if_pos rfl], rfl, _, _, rfl, Md5.init_inv _ hb⟩

theorem spec_short (A : Alg) (b : List Byte) (len : Int) (t : List Byte) (h : len < A.n) :
    spec A (.digest (some b) len) t = (t, .error .interrupted) := if_pos h
theorem spec_digest (A : Alg) (b : List Byte) (len : Int) (t : List Byte) (h : ¬ len < A.n) :
    spec A (.digest (some b) len) t = (A.after t, .ok (.digest A.n (A.H t ++ b.drop A.n))) := if_neg h
theorem spec_zero (A : Alg) (d t : List Byte) : spec A (.update (some d) 0) t = (t, .error .interrupted) := rfl
theorem spec_update (A : Alg) (d : List Byte) (len : Int) (t : List Byte) (h : len ≠ 0) :
    spec A (.update (some d) len) t = (t ++ d.take len.toNat, .ok .unit) := if_neg h
theorem step_short (m : Sem) (b : List Byte) (len : Int) (o : Obj) (h : len < engineGetDigestLength o.spi) :
    step m (.digest (some b) len) o = .exc o .interrupted := if_pos h
theorem step_digest (m : Sem) (b : List Byte) (len : Int) (o : Obj) (e : Engine) (a : Ans) (h : ¬ len < engineGetDigestLength o.spi)
    (he : engineDigest m b len o.spi = .ok (e, a)) : step m (.digest (some b) len) o = .ret { o with spi := e } a := by
  have : step m (.digest (some b) len) o = match engineDigest m b len o.spi with
        | .ok (e, a) => .ret { o with spi := e } a
        | .throw x => .exc o x
        | .ub => .ub
        | .diverge => .diverge := if_neg h
  rw [this, he]
theorem step_update (m : Sem) (d : List Byte) (len : Int) (o : Obj) (e : Engine) (h : len ≠ 0)
    (he : engineUpdate m d len o.spi = .ok e) : step m (.update (some d) len) o = .ret { o with spi := e } .unit := by
  have : step m (.update (some d) len) o = match engineUpdate m d len o.spi with
        | .ok e => .ret { o with spi := e } .unit
        | .throw x => .exc o x
        | .ub => .ub
        | .diverge => .diverge := if_neg h
  rw [this, he]

theorem sha1_step (m : Sem) (most : Nat) (op : Op) (o : Obj) (t : List Byte) (h : IsSha1 o t) (hl : legal most op) :
    ∃ o', IsSha1 o' (spec sha1 op t).1 ∧ (step m op o).Is o' (spec sha1 op t).2 := by
  obtain ⟨ha, hh, s, hs, hi⟩ := h
  cases op with
  | getAlgorithm => exact ⟨o, ⟨ha, hh, s, hs, hi⟩, by show Res.ret o (Ans.text o.algorithm) = _; rw [ha]; rfl⟩
  | getDigestLength => exact ⟨o, ⟨ha, hh, s, hs, hi⟩, by show Res.ret o (Ans.int (engineGetDigestLength o.spi)) = _; rw [hs]; rfl⟩
  | reset =>
    refine ⟨{ o with spi := engineReset o.spi }, ⟨ha, List.replicate 20 0#8, Sha1.init, ?_, Sha1.init_inv⟩, rfl⟩
    show engineReset o.spi = _
    rw [hs]; rfl
  | digest buf len =>
    cases buf with
    | none => exact ⟨o, ⟨ha, hh, s, hs, hi⟩, rfl⟩
    | some b =>
      have hl' : len ≤ b.length := hl
      have hg : engineGetDigestLength o.spi = 20 := by rw [hs]; rfl
      by_cases hlen : len < 20
      · rw [spec_short sha1 b len t hlen, step_short m b len o (by rw [hg]; exact hlen)]
        exact ⟨o, ⟨ha, hh, s, hs, hi⟩, rfl⟩
      · refine ⟨{ o with spi := .sha1 ⟨Sha1.FIPS.sha1 t, Sha1.init, false⟩ }, ?_, ?_⟩
        · rw [spec_digest sha1 b len t hlen]
          exact ⟨ha, _, _, rfl, Sha1.init_inv⟩
        · rw [spec_digest sha1 b len t hlen]
          have hf := Sha1.final_ok 64 (Nat.le_refl _) s t hi
          have hfin : engineFinish m (.sha1 ⟨hh, s, false⟩) = .ok (.sha1 ⟨Sha1.FIPS.sha1 t, Sha1.init, false⟩) := by
            unfold engineFinish
            simp only [Bool.not_false, if_true]
            rw [hf, Outcome.bind_eq, Outcome.bind_ok]
          have hd : engineDigest m b len o.spi = .ok (.sha1 ⟨Sha1.FIPS.sha1 t, Sha1.init, false⟩, .digest 20 (Sha1.FIPS.sha1 t ++ b.drop 20)) := by
            unfold engineDigest
            rw [hg, if_neg hlen, hs, hfin, Outcome.bind_eq, Outcome.bind_ok]
            have hnl : ¬ b.length < (Engine.hash (.sha1 ⟨Sha1.FIPS.sha1 t, Sha1.init, false⟩)).length := by
              show ¬ b.length < (Sha1.FIPS.sha1 t).length
              rw [sha1_length]; omega
            rw [if_neg hnl]
            show Outcome.ok (_, Ans.digest 20 (Sha1.FIPS.sha1 t ++ b.drop (Sha1.FIPS.sha1 t).length)) = _
            rw [sha1_length]
          rw [step_digest m b len o _ _ (by rw [hg]; exact hlen) hd]
          rfl
  | update input len =>
    cases input with
    | none => exact ⟨o, ⟨ha, hh, s, hs, hi⟩, rfl⟩
    | some d =>
      obtain ⟨h0, h1, _⟩ : 0 ≤ len ∧ len ≤ d.length ∧ len ≤ most := hl
      by_cases hz : len = 0
      · subst hz
        exact ⟨o, ⟨ha, hh, s, hs, hi⟩, rfl⟩
      · obtain ⟨s', u1, u2⟩ := Sha1.update_ok s t d len.toNat hi (by omega)
        rw [Int.toNat_of_nonneg h0] at u1
        refine ⟨{ o with spi := .sha1 ⟨hh, s', false⟩ }, ?_, ?_⟩
        · rw [spec_update sha1 d len t hz]
          exact ⟨ha, _, _, rfl, u2⟩
        · rw [spec_update sha1 d len t hz]
          have hd : engineUpdate m d len o.spi = .ok (.sha1 ⟨hh, s', false⟩) := by
            rw [hs]
            unfold engineUpdate
            simp only
            rw [u1, Outcome.bind_eq, Outcome.bind_ok]
          rw [step_update m d len o _ hz hd]
          rfl

theorem md5_step (m : Sem) (op : Op) (o : Obj) (t : List Byte) (h : IsMd5 o t) (hl : legal (Md5.limit m) op) :
    ∃ o', IsMd5 o' (spec md5Continued op t).1 ∧ (step m op o).Is o' (spec md5Continued op t).2 := by
  obtain ⟨ha, hh, s, hs, hi⟩ := h
  cases op with
  | getAlgorithm => exact ⟨o, ⟨ha, hh, s, hs, hi⟩, by show Res.ret o (Ans.text o.algorithm) = _; rw [ha]; rfl⟩
  | getDigestLength => exact ⟨o, ⟨ha, hh, s, hs, hi⟩, by show Res.ret o (Ans.int (engineGetDigestLength o.spi)) = _; rw [hs]; rfl⟩
  | reset =>
    refine ⟨{ o with spi := engineReset o.spi }, ⟨ha, List.replicate 16 0#8, Md5.init s.buf, ?_, Md5.init_inv _ hi.holds.len⟩, rfl⟩
    show engineReset o.spi = _
    rw [hs]; rfl
  | digest buf len =>
    cases buf with
    | none => exact ⟨o, ⟨ha, hh, s, hs, hi⟩, rfl⟩
    | some b =>
      have hl' : len ≤ b.length := hl
      have hg : engineGetDigestLength o.spi = 16 := by rw [hs]; rfl
      by_cases hlen : len < 16
      · rw [spec_short md5Continued b len t hlen, step_short m b len o (by rw [hg]; exact hlen)]
        exact ⟨o, ⟨ha, hh, s, hs, hi⟩, rfl⟩
      · obtain ⟨s', hf, hi'⟩ := Md5.finish_ok m s t hi
        refine ⟨{ o with spi := .md5 ⟨Md5.RFC.md5 t, s', false⟩ }, ?_, ?_⟩
        · rw [spec_digest md5Continued b len t hlen]
          exact ⟨ha, _, _, rfl, hi'⟩
        · rw [spec_digest md5Continued b len t hlen]
          have hfin : engineFinish m (.md5 ⟨hh, s, false⟩) = .ok (.md5 ⟨Md5.RFC.md5 t, s', false⟩) := by
            unfold engineFinish
            simp only [Bool.not_false, if_true]
            rw [hf, Outcome.bind_eq, Outcome.bind_ok]
          have hd : engineDigest m b len o.spi = .ok (.md5 ⟨Md5.RFC.md5 t, s', false⟩, .digest 16 (Md5.RFC.md5 t ++ b.drop 16)) := by
            unfold engineDigest
            rw [hg, if_neg hlen, hs, hfin, Outcome.bind_eq, Outcome.bind_ok]
            have hnl : ¬ b.length < (Engine.hash (.md5 ⟨Md5.RFC.md5 t, s', false⟩)).length := by
              show ¬ b.length < (Md5.RFC.md5 t).length
              rw [md5_length]; omega
            rw [if_neg hnl]
            show Outcome.ok (_, Ans.digest 16 (Md5.RFC.md5 t ++ b.drop (Md5.RFC.md5 t).length)) = _
            rw [md5_length]
          rw [step_digest m b len o _ _ (by rw [hg]; exact hlen) hd]
          rfl
  | update input len =>
    cases input with
    | none => exact ⟨o, ⟨ha, hh, s, hs, hi⟩, rfl⟩
    | some d =>
      obtain ⟨h0, h1, h2⟩ : 0 ≤ len ∧ len ≤ d.length ∧ len ≤ Md5.limit m := hl
      by_cases hz : len = 0
      · subst hz
        exact ⟨o, ⟨ha, hh, s, hs, hi⟩, rfl⟩
      · obtain ⟨s', u1, u2⟩ := Md5.append_ok m s t d len.toNat hi (by omega) (by omega)
        rw [Int.toNat_of_nonneg h0] at u1
        refine ⟨{ o with spi := .md5 ⟨hh, s', false⟩ }, ?_, ?_⟩
        · rw [spec_update md5Continued d len t hz]
          exact ⟨ha, _, _, rfl, u2⟩
        · rw [spec_update md5Continued d len t hz]
          have hd : engineUpdate m d len o.spi = .ok (.md5 ⟨hh, s', false⟩) := by
            rw [hs]
            unfold engineUpdate
            simp only
            rw [u1, Outcome.bind_eq, Outcome.bind_ok]
          rw [step_update m d len o _ hz hd]
          rfl

end Verif.Digest
