import Verif.BlockQueue.Spec
import Verif.LightSema.Lemmas
/-!
# The accounts of the blocking queue
-/
namespace Verif.BlockQueue
open LightSema (sum sum_set sum_zero sum_nonneg sum_ge)

/-- Permits that were put in or are being put in. -/
def putAll (s : LightSema.Sys) : Int := s.putIn + s.puttingIn

/-- A call of the semaphore that runs is that of its thread. -/
def Matches (l : Local) (t : LightSema.Thread) : Prop :=
  match l with
  | .calling op => ∃ p, t = some (semOp op, p)
  | _ => t = none

/-- The results that may come of a loop. -/
def FineLocal : Local → Prop
  | .draining op left got => 0 < left ∧ Gets op ∧ left + got.length ≤ wanted op
  | _ => True

def lens (l : Local) : Int := (gotBy l).length
def lefts (l : Local) : Int := leftOf l
def logLen (d : Op × Res) : Int := (gotOf d).length

structure Inv (s : Sys) : Prop where
  sem : LightSema.Inv 0 s.sem
  len : s.sem.threads.length = s.locals.length
  same : ∀ (i : Nat) l t, s.locals[i]? = some l → s.sem.threads[i]? = some t → Matches l t
  local_ : ∀ l ∈ s.locals, FineLocal l
  log : ∀ op r, (op, r) ∈ s.log → Result op r
  put : putAll s.sem = s.added.length
  grant : s.sem.granted = sum logLen s.log + sum lens s.locals + sum lefts s.locals
  all : (s.added.length : Int) = s.bag.length + sum logLen s.log + sum lens s.locals
  each : ∀ x, (s.added.count x : Int) = s.bag.count x + s.gotCount x

theorem takeOut_ok {picks : List Int} : ∀ {bag bag' : List Int}, takeOut bag picks = some bag' →
    bag.length = bag'.length + picks.length ∧ ∀ x, bag.count x = bag'.count x + picks.count x := by
  induction picks with
  | nil => intro bag bag' h; cases h; simp
  | cons y ys ih =>
    intro bag bag' h
    simp only [takeOut] at h
    split at h
    · rename_i hm
      obtain ⟨h1, h2⟩ := ih h
      refine ⟨?_, fun x => ?_⟩
      · have := List.length_erase_of_mem hm
        have := List.length_pos_of_mem hm
        simp only [List.length_cons]
        omega
      · have h3 := h2 x
        rw [List.count_cons]
        by_cases hx : y = x
        · subst hx
          have h4 := List.count_erase_self (a := y) (l := bag)
          have h5 : 0 < bag.count y := List.count_pos_iff.2 hm
          simp only [beq_self_eq_true, if_true]
          omega
        · have h4 := List.count_erase_of_ne (a := x) (b := y) (fun e => hx e.symm) (l := bag)
          have : (y == x) = false := by simpa using hx
          rw [this]
          simp only [Bool.false_eq_true, if_false]
          omega
    · cases h

theorem takeOut_some {picks : List Int} : ∀ {bag : List Int}, picks.length ≤ bag.length →
    ∃ picks' bag', picks'.length = picks.length ∧ takeOut bag picks' = some bag' := by
  induction picks with
  | nil => intro bag _; exact ⟨[], bag, rfl, rfl⟩
  | cons y ys ih =>
    intro bag h
    match bag with
    | [] => simp at h
    | b :: bag =>
      obtain ⟨p, q, h1, h2⟩ := ih (bag := bag) (by simpa using h)
      refine ⟨b :: p, q, by simp [h1], ?_⟩
      simp [takeOut, h2]

/-- A step of the semaphore keeps what is put in, and grants what it answers. -/
theorem sem_put {n : Nat} {s : LightSema.Sys} {i : Nat} {op : LightSema.Op} {p : LightSema.Pos}
    {sh : LightSema.Shared} {nx : LightSema.Next} (hi : LightSema.Inv n s)
    (ht : s.threads[i]? = some (some (op, p))) (hf : nx.Fine op) :
    putAll (LightSema.put s i op sh nx) = putAll s := by
  have hfp := hi.fine op p (List.mem_of_getElem? ht)
  cases nx with
  | «at» q =>
    simp only [putAll, LightSema.put, LightSema.Sys.putIn, LightSema.Sys.puttingIn]
    rw [sum_set _ ht]
    have : LightSema.puttingIn (some (op, q)) = LightSema.puttingIn (some (op, p)) := by cases op <;> rfl
    omega
  | ret r =>
    simp only [putAll, LightSema.put, LightSema.Sys.putIn, LightSema.Sys.puttingIn, sum]
    rw [sum_set _ ht]
    have h0 : LightSema.puttingIn none = 0 := rfl
    cases op with
    | signal m =>
      have h1 : 0 ≤ m := by cases p <;> first | exact hfp | exact hfp.1 | exact absurd hfp id
      have h2 : LightSema.Result (.signal m) r := hf
      rcases h2 with ⟨h2, _⟩ | ⟨_, rfl⟩
      · omega
      · have h3 : LightSema.putIn (.signal m, some 0) = m := rfl
        have h4 : LightSema.puttingIn (some (.signal m, p)) = m := rfl
        omega
    | _ =>
      simp only [LightSema.putIn, LightSema.puttingIn]
      omega

theorem get_set {α : Type} {l : List α} {i j : Nat} {a b : α} (h : (l.set i a)[j]? = some b) :
    (j = i ∧ b = a) ∨ (j ≠ i ∧ l[j]? = some b) := by
  by_cases e : i = j
  · subst e
    have hl : i < (l.set i a).length := (List.getElem?_eq_some_iff.1 h).1
    rw [List.length_set] at hl
    simp [hl] at h
    exact .inl ⟨rfl, h.symm⟩
  · rw [List.getElem?_set_ne e] at h
    exact .inr ⟨fun e' => e e'.symm, h⟩

/-- The thread at `i` goes from `l` to `l'`; its call of the semaphore goes to `t'`. -/
theorem inv_set {s : Sys} {i : Nat} {l l' : Local} {sem : LightSema.Sys} {t' : LightSema.Thread}
    {bag added : List Int} {log : List (Op × Res)} (hi : Inv s) (hl : s.locals[i]? = some l)
    (h1 : LightSema.Inv 0 sem) (h2 : sem.threads = s.sem.threads.set i t') (h3 : Matches l' t')
    (h4 : FineLocal l') (h5 : ∀ op r, (op, r) ∈ log → Result op r) (h6 : putAll sem = added.length)
    (h7 : sem.granted - sum logLen log - lens l' - lefts l' = s.sem.granted - sum logLen s.log - lens l - lefts l)
    (h8 : (added.length : Int) - bag.length - sum logLen log - lens l'
      = s.added.length - s.bag.length - sum logLen s.log - lens l)
    (h9 : ∀ x, (added.count x : Int) - bag.count x - sum (fun d => ((gotOf d).count x : Int)) log - (gotBy l').count x
      = s.added.count x - s.bag.count x - sum (fun d => ((gotOf d).count x : Int)) s.log - (gotBy l).count x) :
    Inv ⟨sem, s.locals.set i l', bag, added, log⟩ := by
  refine ⟨h1, ?_, ?_, ?_, h5, h6, ?_, ?_, ?_⟩
  · rw [h2]; simp [hi.len]
  · intro j a b ha hb
    simp only at ha hb
    rw [h2] at hb
    rcases get_set ha with ⟨rfl, rfl⟩ | ⟨hj, ha⟩
    · rcases get_set hb with ⟨_, rfl⟩ | ⟨hn, _⟩
      · exact h3
      · exact absurd rfl hn
    · rcases get_set hb with ⟨hj', _⟩ | ⟨_, hb⟩
      · exact absurd hj' hj
      · exact hi.same j a b ha hb
  · intro a ha
    rcases LightSema.mem_set ha with ha | rfl
    · exact hi.local_ a ha
    · exact h4
  · have := hi.grant
    simp only
    rw [sum_set _ hl, sum_set _ hl]
    omega
  · have := hi.all
    simp only
    rw [sum_set _ hl]
    omega
  · intro x
    have := hi.each x
    have := h9 x
    simp only [Sys.gotCount] at *
    rw [sum_set _ hl]
    omega

theorem init_inv (k : Nat) : Inv (init k) := by
  have z : ∀ f : Local → Int, f .idle = 0 → sum f (List.replicate k .idle) = 0 := fun f hf =>
    sum_zero f (fun a ha => by rw [List.eq_of_mem_replicate ha, hf])
  refine ⟨LightSema.init_inv 0 k, by simp [init, LightSema.init], ?_, ?_, ?_, ?_, ?_, ?_, ?_⟩
  · intro i l t h1 h2
    have e1 := List.eq_of_mem_replicate (List.mem_of_getElem? h1)
    have e2 := List.eq_of_mem_replicate (List.mem_of_getElem? h2)
    subst e1 e2
    rfl
  · intro l h
    rw [List.eq_of_mem_replicate h]
    trivial
  · intro op r h; cases h
  · simp only [init, putAll, LightSema.init, LightSema.Sys.putIn, LightSema.Sys.puttingIn]
    rw [sum_zero LightSema.puttingIn (fun a ha => by rw [List.eq_of_mem_replicate ha]; rfl)]
    rfl
  · simp only [init, LightSema.init, LightSema.Sys.granted]
    rw [z _ rfl, z _ rfl]
    rfl
  · simp only [init]
    rw [z _ rfl]
    rfl
  · intro x
    simp only [init, Sys.gotCount]
    rw [z _ rfl]
    rfl

theorem drain_inv {s : Sys} {i : Nat} {op : Op} {left : Nat} {got : List Int} {l : Local}
    {sem : LightSema.Sys} {bag : List Int} (hi : Inv s) (hl : s.locals[i]? = some l)
    (h1 : LightSema.Inv 0 sem) (h2 : sem.threads = s.sem.threads.set i none)
    (hg : Gets op) (hw : left + got.length ≤ wanted op)
    (h0 : left = 0 → Result op (.got got))
    (h6 : putAll sem = s.added.length)
    (h7 : sem.granted - got.length - left = s.sem.granted - lens l - lefts l)
    (h8 : (bag.length : Int) + got.length = s.bag.length + lens l)
    (h9 : ∀ x, (bag.count x : Int) + got.count x = s.bag.count x + (gotBy l).count x) :
    Inv (drain ⟨sem, s.locals, bag, s.added, s.log⟩ i op left got) := by
  unfold drain
  split
  · rename_i hz
    refine inv_set (s := s) (l' := .idle) hi hl h1 h2 rfl trivial ?_ h6 ?_ ?_ ?_
    · intro op' r' hm
      rcases List.mem_cons.1 hm with e | hm
      · cases e; exact h0 hz
      · exact hi.log _ _ hm
    · simp only [sum, logLen, gotOf, lens, lefts, gotBy, leftOf, List.length_nil] at *
      omega
    · simp only [sum, logLen, gotOf, lens, gotBy, List.length_nil] at *
      omega
    · intro x
      have := h9 x
      simp only [sum, gotOf, gotBy, List.count_nil] at *
      omega
  · refine inv_set (s := s) (l' := .draining op left got) hi hl h1 h2 rfl ⟨by omega, hg, hw⟩ hi.log h6 ?_ ?_ ?_
    · simp only [lens, lefts, gotBy, leftOf] at *
      omega
    · simp only [lens, gotBy] at *
      omega
    · intro x
      have := h9 x
      simp only [gotBy] at *
      omega

/-- A call of the semaphore by a thread that has none. -/
theorem call_inv {s s' : Sys} {i : Nat} {op : Op} {l : Local} {sem : LightSema.Sys} {bag added : List Int}
    (hi : Inv s) (hl : s.locals[i]? = some l) (hgot : gotBy l = []) (hleft : leftOf l = 0)
    (h1 : LightSema.Inv 0 sem) (h2 : sem.threads = s.sem.threads.set i none)
    (h6 : putAll sem + (LightSema.puttingIn (some (semOp op, .add))) = added.length)
    (h7 : sem.granted = s.sem.granted)
    (h8 : (added.length : Int) - bag.length = s.added.length - s.bag.length)
    (h9 : ∀ x, (added.count x : Int) - bag.count x = s.added.count x - s.bag.count x)
    (h : call ⟨sem, s.locals, bag, added, s.log⟩ i op = some s') : Inv s' := by
  simp only [call] at h
  cases hm : LightSema.move sem (.start i (semOp op)) with
  | none => rw [hm] at h; cases h
  | some sem' =>
    rw [hm] at h
    simp only [Option.map] at h
    have hinv := LightSema.move_inv h1 hm
    have hlt := (List.getElem?_eq_some_iff.1 hl).1
    have hth : sem.threads[i]? = some none := by
      rw [h2]; simp [hi.len, hlt]
    simp only [LightSema.move, hth] at hm
    injection hm with hm
    have hb : (∃ p, LightSema.begin (semOp op) = .at p) ∨
        (LightSema.begin (semOp op) = .ret none ∧ LightSema.puttingIn (some (semOp op, .add)) = 0) := by
      cases op <;> simp only [semOp, LightSema.begin] <;>
        first | exact .inl ⟨_, rfl⟩ | (split <;> first | exact .inl ⟨_, rfl⟩ | exact .inr ⟨rfl, rfl⟩ | omega)
    have hpt : ∀ p, LightSema.puttingIn (some (semOp op, p)) = LightSema.puttingIn (some (semOp op, .add)) := by
      intro p; cases op <;> rfl
    rcases hb with ⟨p, hp⟩ | ⟨hp, hz⟩
    · rw [hp] at hm
      subst hm
      simp only [LightSema.put_get hth] at h
      cases h
      refine inv_set (s := s) (l' := .calling op) hi hl hinv (t' := some (semOp op, p)) ?_ ⟨p, rfl⟩ trivial hi.log ?_ ?_ ?_ ?_
      · simp only [LightSema.put, h2, List.set_set]
      · simp only [putAll, LightSema.put, LightSema.Sys.putIn, LightSema.Sys.puttingIn] at *
        rw [sum_set _ hth, hpt p, ← h6]
        simp only [LightSema.puttingIn]
        omega
      · simp only [lens, lefts, hgot, hleft]
        simp only [LightSema.put, LightSema.Sys.granted, gotBy, leftOf, List.length_nil] at *
        omega
      · have e1 : lens l = 0 := by rw [lens, hgot]; rfl
        rw [e1]; simp only [lens, gotBy, List.length_nil]; omega
      · intro x
        have := h9 x
        rw [hgot]; simp only [gotBy, List.count_nil]; omega
    · rw [hp] at hm
      subst hm
      simp only [LightSema.put_ret_get hth] at h
      cases h
      have hgr : LightSema.granted (semOp op, none) = 0 := by cases op <;> rfl
      have hpi : LightSema.putIn (semOp op, none) = 0 := by cases op <;> rfl
      refine inv_set (s := s) (l' := .aborted) hi hl hinv (t' := none) ?_ rfl trivial hi.log ?_ ?_ ?_ ?_
      · simp only [LightSema.put, h2, List.set_set]
      · simp only [putAll, LightSema.put, LightSema.Sys.putIn, LightSema.Sys.puttingIn, sum] at *
        rw [sum_set _ hth, hpi]
        omega
      · simp only [lens, lefts, hgot, hleft]
        simp only [LightSema.put, LightSema.Sys.granted, sum, hgr, gotBy, leftOf, List.length_nil] at *
        omega
      · have e1 : lens l = 0 := by rw [lens, hgot]; rfl
        rw [e1]; simp only [lens, gotBy, List.length_nil]; omega
      · intro x
        have := h9 x
        rw [hgot]; simp only [gotBy, List.count_nil]; omega

theorem signed_le (max : Nat) : signed max ≤ max := by
  unfold signed
  split <;> omega

theorem answered_inv {s s' : Sys} {i : Nat} {op : Op} {sem : LightSema.Sys} {r : Option Nat}
    (hi : Inv s) (hl : s.locals[i]? = some (.calling op))
    (h1 : LightSema.Inv 0 sem) (h2 : sem.threads = s.sem.threads.set i none)
    (hlog : sem.log = (semOp op, r) :: s.sem.log) (h6 : putAll sem = s.added.length)
    (h : answered ⟨sem, s.locals, s.bag, s.added, s.log⟩ i op r = some s') : Inv s' := by
  have hres : LightSema.Result (semOp op) r := h1.results _ _ (by rw [hlog]; simp)
  have hgr : sem.granted = s.sem.granted + LightSema.granted (semOp op, r) := by
    simp only [LightSema.Sys.granted, hlog, sum]; omega
  cases r with
  | none =>
    cases h
    have hg0 : LightSema.granted (semOp op, none) = 0 := by cases op <;> rfl
    refine inv_set (s := s) (l' := .aborted) hi hl h1 h2 rfl trivial hi.log h6 ?_ ?_ ?_
    · simp only [lens, lefts, gotBy, leftOf]; omega
    · simp only [lens, gotBy]
    · intro x; simp only [gotBy]
  | some r =>
    have fin : ∀ res : Res, gotOf (op, res) = [] → Result op res → LightSema.granted (semOp op, some r) = 0 →
        Inv (finish ⟨sem, s.locals, s.bag, s.added, s.log⟩ i op res) := by
      intro res hg hr h0
      refine inv_set (s := s) (l' := .idle) hi hl h1 h2 rfl trivial ?_ h6 ?_ ?_ ?_
      · intro op' r' hm
        rcases List.mem_cons.1 hm with e | hm
        · cases e; exact hr
        · exact hi.log _ _ hm
      · simp only [sum, logLen, hg, lens, lefts, gotBy, leftOf, List.length_nil]; omega
      · simp only [sum, logLen, hg, lens, gotBy, List.length_nil]; omega
      · intro x; simp only [sum, hg, gotBy, List.count_nil]; omega
    have dr : ∀ left : Nat, Gets op → left ≤ wanted op → LightSema.granted (semOp op, some r) = left →
        (left = 0 → Result op (.got [])) →
        Inv (drain ⟨sem, s.locals, s.bag, s.added, s.log⟩ i op left []) := by
      intro left hg hw h0 hz
      refine drain_inv (s := s) hi hl h1 h2 hg (by simpa using hw) hz h6 ?_ ?_ ?_
      · simp only [lens, lefts, gotBy, leftOf, List.length_nil]; omega
      · simp only [lens, gotBy, List.length_nil]
      · intro x; simp only [gotBy, List.count_nil]
    cases op with
    | enqueue items => cases h; exact fin _ rfl ⟨_, rfl⟩ rfl
    | size => cases h; exact fin _ rfl ⟨_, rfl⟩ rfl
    | tryDequeue =>
      cases h
      rcases hres with e | e <;> cases e
      · exact fin _ rfl ⟨[], rfl, Nat.zero_le _⟩ rfl
      · exact dr 1 trivial (Nat.le_refl _) rfl (fun e => by cases e)
    | waitTimed =>
      cases h
      rcases hres with e | ⟨_, e⟩ <;> cases e
      · exact dr 1 trivial (Nat.le_refl _) rfl (fun e => by cases e)
      · exact fin _ rfl ⟨[], rfl, Nat.zero_le _⟩ rfl
    | waitDequeue =>
      rcases hres with e | ⟨e, _⟩
      · cases e; cases h
        exact dr 1 trivial (Nat.le_refl _) rfl (fun e => by cases e)
      · cases e
    | tryBulk max =>
      cases h
      have := signed_le max
      rcases hres with ⟨_, e⟩ | ⟨k, e, hk⟩ <;> cases e
      exact dr r trivial (by simp only [wanted]; omega) rfl (fun e => ⟨[], rfl, Nat.zero_le _⟩)
    | waitBulk max =>
      cases h
      have := signed_le max
      rcases hres with ⟨_, e⟩ | ⟨_, _, e⟩ | ⟨e, _⟩ | ⟨k, e, hk1, hk⟩ <;> cases e
      exact dr r trivial (by simp only [wanted]; omega) rfl (fun e => by omega)
    | waitBulkTimed max =>
      cases h
      have := signed_le max
      rcases hres with ⟨_, e⟩ | ⟨_, e, _⟩ | ⟨_, e, _⟩ | ⟨k, e, hk1, hk⟩ <;> cases e
      · exact dr 0 trivial (Nat.zero_le _) rfl (fun e => ⟨[], rfl, Nat.zero_le _⟩)
      · exact dr r trivial (by simp only [wanted]; omega) rfl (fun e => ⟨[], rfl, Nat.zero_le _⟩)

theorem none_of {s : Sys} {i : Nat} {l : Local} (hi : Inv s) (hl : s.locals[i]? = some l)
    (hc : ∀ op, l ≠ .calling op) : s.sem.threads[i]? = some none := by
  have hlt := (List.getElem?_eq_some_iff.1 hl).1
  have h1 : i < s.sem.threads.length := by rw [hi.len]; exact hlt
  have h2 := hi.same i l _ hl (List.getElem?_eq_getElem h1)
  cases l with
  | calling op => exact absurd rfl (hc op)
  | _ => rw [List.getElem?_eq_getElem h1]; exact congrArg some h2

theorem move_inv {s s' : Sys} {m : Move} (hi : Inv s) (h : move s m = some s') : Inv s' := by
  cases m with
  | start i op =>
    simp only [move] at h
    split at h
    · rename_i hl
      have hn := none_of hi hl (fun op => by simp)
      have hset : s.sem.threads = s.sem.threads.set i none := (LightSema.set_same hn).symm
      have hput := hi.put
      cases op with
      | enqueue items =>
        cases h
        exact inv_set (s := s) (l' := .adding items) hi hl hi.sem hset rfl trivial hi.log hi.put rfl rfl (fun _ => rfl)
      | _ =>
        exact call_inv (s := s) (l := .idle) hi hl rfl rfl hi.sem hset
          (by simp only [semOp, LightSema.puttingIn]; omega) rfl rfl (fun _ => rfl) h
    · cases h
  | inner i ok =>
    simp only [move] at h
    split at h
    · rename_i items hl
      have hn := none_of hi hl (fun op => by simp)
      have hset : s.sem.threads = s.sem.threads.set i none := (LightSema.set_same hn).symm
      have hput := hi.put
      cases ok with
      | true =>
        simp only [if_true] at h
        refine call_inv (s := s) (l := .adding items) hi hl rfl rfl hi.sem hset ?_ rfl ?_ ?_ h
        · simp only [semOp, LightSema.puttingIn, List.length_append]; omega
        · simp only [List.length_append]; omega
        · intro x; simp only [List.count_append]; omega
      | false =>
        cases h
        refine inv_set (s := s) (l' := .idle) hi hl hi.sem hset rfl trivial ?_ hi.put ?_ ?_ ?_
        · intro op' r' hm
          rcases List.mem_cons.1 hm with e | hm
          · cases e; exact ⟨_, rfl⟩
          · exact hi.log _ _ hm
        · simp only [sum, logLen, gotOf, lens, lefts, gotBy, leftOf, List.length_nil]; omega
        · simp only [sum, logLen, gotOf, lens, gotBy, List.length_nil]; omega
        · intro x; simp only [sum, gotOf, gotBy, List.count_nil]; omega
    · cases h
  | sem i c =>
    simp only [move] at h
    split at h
    · rename_i op hl
      have hput := hi.put
      cases hm : LightSema.move s.sem (.go i c) with
      | none => rw [hm] at h; cases h
      | some sem =>
        rw [hm] at h
        simp only [Option.bind] at h
        have hinv := LightSema.move_inv hi.sem hm
        obtain ⟨op', p, r, e1, e2, rfl⟩ := LightSema.go_split hm
        obtain ⟨q, hq⟩ := hi.same i _ _ hl e1
        cases hq
        obtain ⟨sh', nx⟩ := r
        have hk := LightSema.step_ok (hi.sem.fine _ _ (List.mem_of_getElem? e1)) e2
        have h6 := sem_put (sh := sh') hi.sem e1 hk.fine
        rw [hput] at h6
        cases nx with
        | «at» p' =>
          simp only [LightSema.put_get e1] at h
          cases h
          have := inv_set (s := s) (l' := .calling op) (t' := some (semOp op, p')) hi hl hinv rfl ⟨p', rfl⟩ trivial hi.log h6
            rfl rfl (fun _ => rfl)
          rw [LightSema.set_same hl] at this
          exact this
        | ret r' =>
          simp only [LightSema.put_ret_get e1] at h
          exact answered_inv hi hl hinv rfl rfl h6 h
    · cases h
  | take i picks =>
    simp only [move] at h
    split at h
    · rename_i op left got hl
      have hn := none_of hi hl (fun op => by simp)
      have hset : s.sem.threads = s.sem.threads.set i none := (LightSema.set_same hn).symm
      split at h
      · rename_i hle
        cases ht : takeOut s.bag picks with
        | none => rw [ht] at h; cases h
        | some bag =>
          rw [ht] at h
          cases h
          obtain ⟨t1, t2⟩ := takeOut_ok ht
          obtain ⟨f1, f2, f3⟩ := hi.local_ _ (List.mem_of_getElem? hl)
          refine drain_inv (s := s) hi hl hi.sem hset f2 ?_ ?_ hi.put ?_ ?_ ?_
          · simp only [List.length_append]; omega
          · intro hz
            have hgl : 1 ≤ (got ++ picks).length := by simp only [List.length_append]; omega
            have hgw : (got ++ picks).length ≤ wanted op := by simp only [List.length_append]; omega
            cases op with
            | waitDequeue =>
              generalize got ++ picks = g at *
              match g with
              | [x] => exact ⟨x, rfl⟩
              | [] => simp at hgl
              | _ :: _ :: _ => simp [wanted] at hgw
            | waitBulk max => exact ⟨_, rfl, hgl, hgw⟩
            | enqueue _ => exact absurd f2 id
            | size => exact absurd f2 id
            | _ => exact ⟨_, rfl, hgw⟩
          · simp only [lens, lefts, gotBy, leftOf, List.length_append]; omega
          · simp only [lens, gotBy, List.length_append]; omega
          · intro x
            have := t2 x
            simp only [gotBy, List.count_append]; omega
      · cases h
    · cases h

theorem run_inv (ms : List Move) : ∀ {s s' : Sys}, Inv s → run s ms = some s' → Inv s' := by
  induction ms with
  | nil => intro s s' hi h; cases h; exact hi
  | cons m ms ih =>
    intro s s' hi h
    simp only [run] at h
    cases hm : move s m with
    | none => rw [hm] at h; cases h
    | some s1 => rw [hm] at h; exact ih (move_inv hi hm) h

theorem reach_inv {k : Nat} {s : Sys} (h : Reach k s) : Inv s := by
  obtain ⟨ms, h⟩ := h
  exact run_inv ms (init_inv k) h

end Verif.BlockQueue
