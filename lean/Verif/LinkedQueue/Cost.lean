import Verif.LinkedQueue.Lone
/-!
# How many steps a call takes
-/
namespace Verif.LinkedQueue

variable {E : Type}

def AStg.left : AStg → Nat
  | .tail => 13
  | .head _ => 12
  | .test _ => 11
  | .grow _ => 10
  | .key .. => 9
  | .itail .. => 8
  | .get .. => 7
  | .reset .. => 6
  | .cons1 .. => 5
  | .val .. => 4
  | .tb .. => 3
  | .cons _ => 2
  | .pub _ => 1

def DStg.left : DStg E → Nat
  | .tail => 14
  | .over _ => 13
  | .opt .. => 12
  | .inc _ => 11
  | .again .. => 10
  | .head _ => 9
  | .miss _ => 1
  | .idx _ => 8
  | .itail .. => 7
  | .ikey .. => 6
  | .val .. => 5
  | .take .. => 4
  | .mark .. => 3
  | .null .. => 2
  | .free .. => 1

/-- At most so many steps to go, when there are at most `n` producers. -/
def left (n : Nat) : Pos E → Nat
  | .idle => 0
  | .find _ => 14
  | .add _ _ a => a.left
  | .poll => 16 * n + 17
  | .scan m _ _ _ => 2 * m + 14 * n + 16
  | .scanH m _ _ _ _ => 2 * m + 14 * n + 15
  | .deq .first _ d => d.left + 14 * n + 1
  | .deq (.rest _ m) _ d => d.left + 14 * m
  | .others _ => 14 * n + 1
  | .count _ => 2 * n + 2
  | .countT _ m _ => 2 * m + 1
  | .countH _ m _ _ => 2 * m

theorem nextDeq_left {n best : Nat} : ∀ (m : Nat) {y : Pos E}, nextDeq best m = some y →
    left n y ≤ 14 * m
  | 0, y, h => by simp [nextDeq] at h
  | m + 1, y, h => by
    rw [nextDeq] at h
    split at h
    · have := nextDeq_left (n := n) m h
      omega
    · cases h
      simp only [left, DStg.left]
      omega

theorem scanNext_left {s : Sys E} {t n m cnt best bsz : Nat} (hm : m ≤ n) :
    left n ((scanNext s t m cnt best bsz).pos t) ≤ 2 * m + 14 * n + 16 ∧
      (m = 0 → left n ((scanNext s t m cnt best bsz).pos t) ≤ 14 * n + 15) := by
  unfold scanNext
  split
  · next h => rw [go_pos, upd_same]; simp only [left]; exact ⟨by omega, fun h0 => absurd h0 h.2⟩
  · split
    · rw [ret_pos, upd_same]; simp only [left]; omega
    · rw [go_pos, upd_same]; simp only [left, DStg.left]; omega

theorem countNext_left {s : Sys E} {t n m acc : Nat} {z : Bool} :
    left n ((countNext s t z m acc).pos t) ≤ 2 * m + 1 ∧
      (m = 0 → left n ((countNext s t z m acc).pos t) = 0) := by
  unfold countNext
  split
  · rw [ret_pos, upd_same]; exact ⟨Nat.zero_le _, fun _ => rfl⟩
  · next h => rw [go_pos, upd_same]; exact ⟨Nat.le_refl _, fun h0 => absurd h0 h⟩

theorem missed_left {s : Sys E} {t p n : Nat} {k : Cont} (d : DStg E) (hd : 0 < d.left) :
    left n ((missed s t p k).pos t) < left n (.deq k p d : Pos E) := by
  cases k with
  | first => simp only [missed, go_pos, upd_same, left]; omega
  | rest best m =>
    simp only [missed]
    split
    · rw [ret_pos, upd_same]; simp only [left]; omega
    · next y hy =>
      rw [go_pos, upd_same]
      have := nextDeq_left (n := n) m hy
      show _ < d.left + 14 * m
      omega

theorem addStep_left {s s' : Sys E} {t p c n : Nat} {e : E} {a : AStg}
    (h : addStep s t p e c a = some s') : left n (s'.pos t) < left n (.add p e a : Pos E) := by
  cases a <;> simp only [addStep, requisition] at h
  case tail => cases h; rw [go_pos, upd_same]; split <;> simp [left, AStg.left]
  case head ct => split at h <;> cases h <;> simp [left, AStg.left]
  case test ct =>
    split at h <;> first | cases h | skip
    all_goals simp [left, AStg.left]
  case get ct en => split at h <;> cases h <;> simp [left, AStg.left]
  case reset ct en b => cases h; rw [go_pos, upd_same]; split <;> simp [left, AStg.left]
  case cons1 ct en b => split at h <;> cases h; simp [left, AStg.left]
  case tb ct b => cases h; rw [go_pos, upd_same]; split <;> simp [left, AStg.left]
  case cons ct =>
    split at h
    · cases h
    · split at h <;> cases h; simp [left, AStg.left]
  all_goals (cases h; simp [left, AStg.left])

theorem left_deq {n p : Nat} {k : Cont} {d d' : DStg E} (h : d'.left < d.left) :
    left n (.deq k p d' : Pos E) < left n (.deq k p d : Pos E) := by
  cases k <;> (simp only [left]; omega)

theorem deqStep_left {s s' : Sys E} {t p n : Nat} {k : Cont} {d : DStg E}
    (h : deqStep s t k p d = some s') : left n (s'.pos t) < left n (.deq k p d : Pos E) := by
  cases d with
  | opt tl oc =>
    simp only [deqStep] at h
    split at h <;> cases h
    · rw [go_pos, upd_same]; exact left_deq (by simp [DStg.left])
    · exact missed_left _ (by simp [DStg.left])
  | miss m => simp only [deqStep] at h; cases h; exact missed_left _ (by simp [DStg.left])
  | again m oc =>
    simp only [deqStep] at h
    split at h <;> cases h <;> (rw [go_pos, upd_same]; exact left_deq (by simp [DStg.left]))
  | ikey i h' q =>
    simp only [deqStep] at h
    split at h <;> cases h
    rw [go_pos, upd_same]; exact left_deq (by simp [DStg.left])
  | val i en =>
    simp only [deqStep] at h
    split at h <;> cases h
    rw [go_pos, upd_same]; exact left_deq (by simp [DStg.left])
  | take i en b =>
    simp only [deqStep] at h
    split at h <;> cases h
    rw [go_pos, upd_same]; exact left_deq (by simp [DStg.left])
  | mark i en b e =>
    simp only [deqStep] at h
    split at h <;> cases h
    · rw [go_pos, upd_same]; exact left_deq (by simp [DStg.left])
    · rw [ret_pos, upd_same]; cases k <;> (simp only [left, DStg.left]; omega)
  | free i b e =>
    cases h; rw [ret_pos, upd_same]; cases k <;> (simp only [left, DStg.left]; omega)
  | _ => cases h; rw [go_pos, upd_same]; exact left_deq (by simp [DStg.left])

/-- Every step of a call brings its end nearer. -/
theorem tick_left {s s' : Sys E} {t c n : Nat} (hn : s.count ≤ n) (hr : Ranged s.count (s.pos t))
    (h : tick s t c = some s') : left n (s'.pos t) < left n (s.pos t) := by
  unfold tick at h
  cases hp : s.pos t with
  | idle => rw [hp] at h; cases h
  | find e =>
    rw [hp] at h
    simp only at h
    split at h <;> cases h <;> (rw [go_pos, upd_same]; simp [left, AStg.left])
  | add p e a => rw [hp] at h; exact addStep_left h
  | poll =>
    rw [hp] at h; cases h
    have := (scanNext_left (s := s) (t := t) (cnt := 0) (best := 0) (bsz := 0) hn).1
    show _ < 16 * n + 17
    omega
  | scan m cnt best bsz =>
    rw [hp] at h; cases h
    rw [go_pos, upd_same]; simp only [left]; omega
  | scanH m cnt best bsz tl =>
    rw [hp] at h hr
    obtain ⟨h1, h2, h3, h4⟩ := hr
    have key : ∀ cnt best bsz,
        left n ((scanNext s t (m - 1) cnt best bsz).pos t) <
          left n (.scanH m cnt best bsz tl : Pos E) := by
      intro cnt best bsz
      have := (scanNext_left (s := s) (t := t) (cnt := cnt) (best := best) (bsz := bsz)
        (m := m - 1) (n := n) (by omega)).1
      show _ < 2 * m + 14 * n + 15
      omega
    simp only at h
    split at h
    · cases h; exact key _ _ _
    · split at h <;> cases h <;> exact key _ _ _
  | deq k p d => rw [hp] at h; exact deqStep_left h
  | others best =>
    rw [hp] at h
    simp only at h
    split at h <;> cases h
    · rw [ret_pos, upd_same]; simp only [left]; omega
    · next y hy =>
      rw [go_pos, upd_same]
      have := nextDeq_left (n := n) _ hy
      show _ < 14 * n + 1
      omega
  | count z =>
    rw [hp] at h; cases h
    have := (countNext_left (s := s) (t := t) (n := n) (m := s.count) (acc := 0) (z := z)).1
    show _ < 2 * n + 2
    omega
  | countT z m acc => rw [hp] at h; cases h; rw [go_pos, upd_same]; simp only [left]; omega
  | countH z m acc tl =>
    rw [hp] at h hr; cases h
    have := (countNext_left (s := s) (t := t) (n := n) (m := m - 1)
      (acc := acc + (tl - (s.prods (m - 1)).head)) (z := z)).1
    have := hr.1
    show _ < 2 * m
    omega

theorem Reach.steps {q : Bool} {t k : Nat} {s s' : Sys E} (hr : Reach q s)
    (h : Steps t s k s') : Reach q s' := by
  induction h with
  | refl => exact hr
  | call t' c _ _ hi ih => exact .step ih (.call t' c hi)
  | other t' c _ _ h ih => exact .step ih (.tick t' c h)
  | own c _ h ih => exact .step ih (.tick t c h)

theorem steps_left {q : Bool} {t k n : Nat} {s s' : Sys E} (hr : Reach q s)
    (h : Steps t s k s') (hn : s'.count ≤ n) : k + left n (s'.pos t) ≤ left n (s.pos t) := by
  induction h with
  | refl => omega
  | @call k1 s1 t' c _ hne _ ih =>
    have : (begin s1 t' c).pos t = s1.pos t := upd_ne _ _ (fun e => hne e.symm)
    rw [this]
    exact ih hn
  | other t' c hs hne h ih =>
    rw [tick_pos h t (fun e => hne e.symm)]
    exact ih (Nat.le_trans (tick_count h) hn)
  | own c hs h ih =>
    have hn' := Nat.le_trans (tick_count h) hn
    have := tick_left hn' (Ranged.reach (hr.steps hs) t) h
    have := ih hn'
    omega

/-- The whole of a call. -/
theorem call_left {q : Bool} {t k : Nat} {s s' : Sys E} {c : Call E} (hr : Reach q s)
    (hi : s.pos t = .idle) (h : Steps t (begin s t c) k s') :
    k ≤ 16 * s'.count + 17 := by
  have := steps_left (.step hr (.call t c hi)) h (Nat.le_refl _)
  have e : (begin s t c).pos t = start c := upd_same _ _ _
  rw [e] at this
  have : left s'.count (start c : Pos E) ≤ 16 * s'.count + 17 := by
    cases c <;> simp only [start, left] <;> omega
  omega

end Verif.LinkedQueue
