import Verif.StringBuffer.SyncSpec
/-!
# A method executed without interruption is the method of `Model.lean`
-/
namespace Verif.StringBuffer.Sync

open Verif.StringBuilder (SB reverseLoop fixPairs)
open Verif.StringBuffer (Op Ans)

/-- A program executed without interruption. -/
def Prog.run {α : Type} : Prog α → Obj → Res Obj α
  | .out x, b => OM.lift x b
  | .acc _ _ _ f k, b =>
    match f b with
    | some (b', v) => (k v).run b'
    | none => .ub
  | .lock _ k, b => k.run b
  | .unlock _ k, b => k.run b

/-- The program accesses object `o` only and no mutex. -/
def Own {α : Type} (o : Nat) : Prog α → Prop
  | .out _ => True
  | .acc o' _ _ _ k => o' = o ∧ ∀ v, Own o (k v)
  | .lock _ _ => False
  | .unlock _ _ => False

/-- `original` points to the block in use. -/
def Fresh (b : Obj) : Prop := b.ptr = b.live

/-- Same outcome. -/
def Refines {α : Type} : Res Obj α → Res SB α → Prop
  | .ret b v, r => r = .ret b.s v ∧ Fresh b
  | .exc b e, r => r = .exc b.s e ∧ Fresh b
  | .ub, r => r = .ub
  | .diverge, r => r = .diverge

/-- What follows a result. -/
def thenRun {α β : Type} (g : α → Prog β) : Res Obj α → Res Obj β
  | .ret b v => (g v).run b
  | .exc b e => .exc b e
  | .ub => .ub
  | .diverge => .diverge

theorem run_bind {α β : Type} (p : Prog α) (g : α → Prog β) (b : Obj) : (p >>= g).run b = thenRun g (p.run b) := by
  change (p.after (Prog.onOk g)).run b = _
  induction p generalizing b with
  | out x => cases x <;> rfl
  | acc o l w f k ih =>
    simp only [Prog.after, Prog.run]
    cases hf : f b with
    | none => rfl
    | some r => exact ih r.2 r.1
  | lock o k ih => exact ih b
  | unlock o k ih => exact ih b

theorem Own.bind {α β : Type} {o : Nat} {p : Prog α} {g : α → Prog β} (hp : Own o p) (hg : ∀ v, Own o (g v)) : Own o (p >>= g) := by
  change Own o (p.after (Prog.onOk g))
  induction p with
  | out x =>
    cases x with
    | ok v => exact hg v
    | _ => trivial
  | acc o l w f k ih => exact ⟨hp.1, fun v => ih v (hp.2 v)⟩
  | lock o k ih => exact hp.elim
  | unlock o k ih => exact hp.elim

@[simp] theorem run_give {α : Type} (x : Outcome α) (b : Obj) : (give x).run b = OM.lift x b := rfl
@[simp] theorem run_raise {α : Type} (e : Exc) (b : Obj) : (raise e : Prog α).run b = .exc b e := rfl
@[simp] theorem run_getLen (o : Nat) (b : Obj) : (getLen o).run b = .ret b b.s.len := rfl
@[simp] theorem run_getCap (o : Nat) (b : Obj) : (getCap o).run b = .ret b b.s.cap := rfl
@[simp] theorem run_getPtr (o : Nat) (b : Obj) : (getPtr o).run b = .ret b b.ptr := rfl
@[simp] theorem run_setLen (o : Nat) (n : Int) (b : Obj) : (setLen o n).run b = .ret { b with s := { b.s with len := n } } () := rfl
@[simp] theorem run_setCap (o : Nat) (n : Int) (b : Obj) : (setCap o n).run b = .ret { b with s := { b.s with cap := n } } () := rfl
@[simp] theorem run_setPtr (o : Nat) (n : Nat) (b : Obj) : (setPtr o n).run b = .ret { b with ptr := n } () := rfl

theorem run_look {α : Type} (o : Nat) (f : Block → Outcome α) (b : Obj) (h : Fresh b) :
    (look o b.ptr f).run b = OM.lift (f b.s.mem) b := by
  simp only [look, Prog.run, if_pos (show b.ptr = b.live from h)]

theorem run_change (o : Nat) (f : Block → Outcome Block) (b : Obj) (h : Fresh b) :
    (change o b.ptr f).run b = OM.lift (written b (f b.s.mem)).2 (written b (f b.s.mem)).1 := by
  simp only [change, Prog.run, if_pos (show b.ptr = b.live from h)]

theorem run_reallocate (o : Nat) (n : Nat) (b : Obj) (h : Fresh b) :
    (reallocate o b.ptr n).run b = .ret { b with s := { b.s with mem := b.s.mem.realloc n }, live := b.live + 1 } (b.live + 1) := by
  simp only [reallocate, Prog.run, if_pos (show b.ptr = b.live from h)]
  rfl

@[simp] theorem thenRun_ret {α β : Type} (g : α → Prog β) (b : Obj) (v : α) : thenRun g (.ret b v) = (g v).run b := rfl
@[simp] theorem thenRun_exc {α β : Type} (g : α → Prog β) (b : Obj) (e : Exc) : thenRun g (.exc b e) = .exc b e := rfl
@[simp] theorem thenRun_ub {α β : Type} (g : α → Prog β) : thenRun g .ub = .ub := rfl
@[simp] theorem thenRun_diverge {α β : Type} (g : α → Prog β) : thenRun g .diverge = .diverge := rfl

/-! ## Simulation -/

/-- The program does what the method does. -/
def Sim {α : Type} (p : Prog α) (m : OM SB α) : Prop := ∀ b, Fresh b → Refines (p.run b) (m b.s)

theorem Refines.lift {α : Type} (x : Outcome α) (b : Obj) (h : Fresh b) : Refines (OM.lift x b) (OM.lift x b.s) := by
  cases x with
  | ok v => exact ⟨rfl, h⟩
  | throw e => exact ⟨rfl, h⟩
  | ub => exact rfl
  | diverge => exact rfl

theorem Refines.bind {α β : Type} {x : Res Obj α} {g : α → Prog β} {m : OM SB α} {s : SB} {f : α → OM SB β}
    (h : Refines x (m s)) (hg : ∀ b v, x = .ret b v → m s = .ret b.s v → Fresh b → Refines ((g v).run b) (f v b.s)) :
    Refines (thenRun g x) (m.bind f s) := by
  unfold OM.bind
  cases x with
  | ret b v =>
    rw [h.1]
    exact hg b v rfl h.1 h.2
  | exc b e => rw [h.1]; exact ⟨rfl, h.2⟩
  | ub => rw [show m s = .ub from h]; exact rfl
  | diverge => rw [show m s = .diverge from h]; exact rfl

theorem Sim.bind {α β : Type} {p : Prog α} {g : α → Prog β} {m : OM SB α} {f : α → OM SB β} (h : Sim p m)
    (hg : ∀ v, Sim (g v) (f v)) : Sim (p >>= g) (m.bind f) := by
  intro b hb
  rw [run_bind]
  exact Refines.bind (h b hb) fun b' v _ _ hf => hg v b' hf

/-- A step that writes the block, followed by `g`. -/
theorem change_bind {β : Type} {o : Nat} {φ : Block → Outcome Block} {g : Unit → Prog β} {b : Obj} (h : Fresh b) {s : SB} {f : Block → OM SB β}
    (hg : ∀ m, φ b.s.mem = .ok m → Refines ((g ()).run { b with s := { b.s with mem := m } }) (f m s)) (hs : s = b.s) :
    Refines (thenRun g ((change o b.ptr φ).run b)) ((OM.lift (φ b.s.mem)).bind f s) := by
  subst hs
  rw [run_change o φ b h]
  cases hx : φ b.s.mem with
  | ok m => exact hg m hx
  | throw e => exact ⟨rfl, h⟩
  | ub => exact rfl
  | diverge => exact rfl

theorem change_bind' {β : Type} {o : Nat} {φ : Block → Outcome Block} {g : Unit → Prog β} {b : Obj} (h : Fresh b) {s : SB} {f : Block → OM SB β}
    (hg : ∀ m, φ b.s.mem = .ok m → Refines ((g ()).run { b with s := { b.s with mem := m } }) (f m s)) (ht : ∀ e, φ b.s.mem ≠ .throw e) :
    Refines (thenRun g ((change o b.ptr φ).run b)) ((OM.lift (φ b.s.mem)).bind f s) := by
  rw [run_change o φ b h]
  cases hx : φ b.s.mem with
  | ok m => exact hg m hx
  | throw e => exact (ht e hx).elim
  | ub => exact rfl
  | diverge => exact rfl

theorem copyIn_nothrow (m : Block) (d : Int) (l : List Byte) (n : Int) (e : Exc) : m.copyIn d l n ≠ .throw e := by
  unfold Block.copyIn
  split
  · exact fun h => nomatch h
  · split <;> exact fun h => nomatch h

theorem move_nothrow (m : Block) (d k n : Int) (e : Exc) : m.move d k n ≠ .throw e := by
  unfold Block.move
  split
  · exact fun h => nomatch h
  · split <;> exact fun h => nomatch h

theorem chk32_cases (x : Int) : chk32 x = .ok x ∨ chk32 x = .ub := by
  unfold chk32; split
  · exact .inl rfl
  · exact .inr rfl

theorem growLoop_sim (o : Nat) (k : Int) (n : Nat) (b : Obj) (hb : Fresh b) :
    match iter (StringBuffer.growBody k) n b.s.cap with
    | .ok c => (growLoop o k n).run b = .ret { b with s := { b.s with cap := c } } c
    | .ub => (growLoop o k n).run b = .ub
    | .diverge => (growLoop o k n).run b = .diverge
    | .throw _ => False := by
  induction n generalizing b with
  | zero => rfl
  | succ n ih =>
    simp only [iter, StringBuffer.growBody, growLoop]
    rw [run_bind, run_getCap, thenRun_ret, run_bind, run_give]
    rcases chk32_cases (b.s.cap * 2 + 2) with h | h
    · rw [h]
      simp only [Outcome.bind, OM.lift_ok, OM.ret_apply, thenRun_ret]
      rw [run_bind, run_setCap, thenRun_ret]
      by_cases hc : b.s.cap * 2 + 2 < k
      · rw [if_pos hc, if_pos hc]
        exact ih { b with s := { b.s with cap := b.s.cap * 2 + 2 } } hb
      · rw [if_neg hc, if_neg hc]
        rfl
    · rw [h]; rfl

theorem moveTo_run (o : Nat) (n : Int) (b : Obj) (hb : Fresh b) :
    (moveTo o n).run b = .ret ⟨{ b.s with mem := b.s.mem.realloc n.toNat }, b.live + 1, b.live + 1⟩ () := by
  unfold moveTo
  rw [run_bind, run_getPtr, thenRun_ret, run_bind, run_reallocate o _ b hb, thenRun_ret, run_setPtr]

theorem ensure_sim (o : Nat) (k : Int) : Sim (ensureCapacity o k) (StringBuffer.ensureCapacity k) := by
  intro b hb
  unfold ensureCapacity StringBuffer.ensureCapacity
  simp only [OM.bind_eq, OM.bind_read]
  by_cases h0 : k ≤ 0
  · rw [if_pos h0, if_pos h0]; exact ⟨rfl, hb⟩
  · rw [if_neg h0, if_neg h0, run_bind, run_getCap, thenRun_ret]
    by_cases h1 : k ≤ b.s.cap
    · rw [if_pos h1, if_pos h1]; exact ⟨rfl, hb⟩
    · rw [if_neg h1, if_neg h1, run_bind]
      have hg := growLoop_sim o k 33 b hb
      cases hi : iter (StringBuffer.growBody k) 33 b.s.cap with
      | ok c =>
        rw [hi] at hg
        rw [show (growLoop o k 33).run b = _ from hg, thenRun_ret, moveTo_run o c { b with s := { b.s with cap := c } } hb]
        exact ⟨rfl, rfl⟩
      | throw e => rw [hi] at hg; exact hg.elim
      | ub =>
        rw [hi] at hg
        rw [show (growLoop o k 33).run b = _ from hg]; exact rfl
      | diverge =>
        rw [hi] at hg
        rw [show (growLoop o k 33).run b = _ from hg]; exact rfl

/-- Room for more leaves the length. -/
theorem ensure_len {k : Int} {s s' : SB} (h : StringBuffer.ensureCapacity k s = .ret s' ()) : s'.len = s.len := by
  unfold StringBuffer.ensureCapacity at h
  simp only [OM.bind_eq, OM.bind_read] at h
  by_cases h0 : k ≤ 0
  · rw [if_pos h0] at h; cases h; rfl
  · rw [if_neg h0] at h
    by_cases h1 : k ≤ s.cap
    · rw [if_pos h1] at h; cases h; rfl
    · rw [if_neg h1] at h
      cases hi : iter (StringBuffer.growBody k) 33 s.cap with
      | ok c => rw [hi] at h; cases h; rfl
      | throw e => rw [hi] at h; cases h
      | ub => rw [hi] at h; cases h
      | diverge => rw [hi] at h; cases h

theorem addLen_run (o : Nat) (len : Int) (b : Obj) (n : Int) (h : chk32 (b.s.len + len) = .ok n) :
    (addLen o len).run b = .ret { b with s := { b.s with len := n } } () := by
  unfold addLen
  rw [run_bind, run_getLen, thenRun_ret, run_bind, run_give, h, OM.lift_ok, OM.ret_apply, thenRun_ret, run_setLen]

theorem appendAt_sim (o : Nat) (l : List Byte) (i n : Int) : Sim (appendAt o l i n) (StringBuffer.appendAt l i n) := by
  intro b hb
  unfold appendAt StringBuffer.appendAt
  simp only [OM.bind_eq, OM.bind_read]
  rw [run_bind, run_getLen, thenRun_ret, run_bind, run_give]
  cases hn : chk32 (b.s.len + n) with
  | ok k =>
    simp only [OM.lift_ok, OM.ret_apply, thenRun_ret, OM.bind_ret]
    rw [run_bind]
    refine Refines.bind (ensure_sim o k b hb) fun b' v hv hv' hf => ?_
    rw [OM.bind_read, run_bind, run_getPtr, thenRun_ret, run_bind, run_getLen, thenRun_ret, run_bind]
    refine change_bind (φ := fun m => m.copyIn b'.s.len (l.drop i.toNat) n) hf (fun m hm => ?_) rfl
    have hl := ensure_len hv'
    rw [addLen_run o n _ k (by simpa only [hl] using hn)]
    exact ⟨rfl, hf⟩
  | throw e => rcases chk32_cases (b.s.len + n) with h | h <;> rw [h] at hn <;> cases hn
  | ub => exact rfl
  | diverge => rcases chk32_cases (b.s.len + n) with h | h <;> rw [h] at hn <;> cases hn

theorem Sim.ite {α : Type} {c : Prop} [Decidable c] {p q : Prog α} {m k : OM SB α} (h1 : c → Sim p m) (h2 : ¬ c → Sim q k) :
    Sim (if c then p else q) (if c then m else k) := by
  by_cases h : c
  · rw [if_pos h, if_pos h]; exact h1 h
  · rw [if_neg h, if_neg h]; exact h2 h

theorem iteAt {α : Type} {c : Prop} [Decidable c] {p q : Prog α} {m k : OM SB α} {b : Obj} {s : SB}
    (h1 : c → Refines (p.run b) (m s)) (h2 : ¬ c → Refines (q.run b) (k s)) :
    Refines ((if c then p else q).run b) ((if c then m else k) s) := by
  by_cases h : c
  · rw [if_pos h, if_pos h]; exact h1 h
  · rw [if_neg h, if_neg h]; exact h2 h

theorem Sim.lift {α : Type} (x : Outcome α) : Sim (give x) (OM.lift x) := fun b hb => Refines.lift x b hb
theorem Sim.raise {α : Type} (e : Exc) : Sim (raise e : Prog α) (OM.raise e) := fun _ hb => ⟨rfl, hb⟩
theorem Sim.ret {α : Type} (v : α) : Sim (give (.ok v)) (OM.ret v) := fun _ hb => ⟨rfl, hb⟩

theorem appendSlice_sim (o : Nat) (l : List Byte) (i n : Int) : Sim (appendSlice o l i n) (StringBuffer.appendSlice l i n) := by
  unfold appendSlice StringBuffer.appendSlice
  refine Sim.ite (fun _ => Sim.raise _) fun _ => ?_
  refine Sim.bind (Sim.lift _) fun v => ?_
  exact Sim.ite (fun _ => Sim.raise _) fun _ => appendAt_sim o l i n

theorem append_sim (o : Nat) (l : List Byte) : Sim (append o l) (StringBuffer.append l) := appendSlice_sim o l 0 l.length
theorem appendChar_sim (o : Nat) (c : Byte) : Sim (appendChar o c) (StringBuffer.appendChar c) := append_sim o _

theorem appendSub_sim (o : Nat) (l : List Byte) (i j : Int) : Sim (appendSub o l i j) (StringBuffer.appendSub l i j) := by
  unfold appendSub StringBuffer.appendSub
  exact Sim.ite (fun _ => Sim.raise _) fun _ => appendSlice_sim o l i _

theorem appendCodePoint_sim (o : Nat) (c : BitVec 32) : Sim (appendCodePoint o c) (StringBuffer.appendCodePoint c) := by
  unfold appendCodePoint StringBuffer.appendCodePoint
  split
  · exact appendChar_sim o _
  · split
    · generalize highByte c = x
      generalize lowByte c = y
      exact Sim.bind (appendChar_sim o x) fun _ => appendChar_sim o y
    · exact Sim.raise _

theorem insertAt_sim (o : Nat) (k : Int) (l : List Byte) (i n : Int) : Sim (insertAt o k l i n) (StringBuffer.insertAt k l i n) := by
  intro b hb
  unfold insertAt StringBuffer.insertAt
  simp only [OM.bind_eq, OM.bind_read]
  rw [run_bind, run_getLen, thenRun_ret, run_bind, run_give]
  cases hn : chk32 (b.s.len + n) with
  | ok c =>
    simp only [OM.lift_ok, OM.ret_apply, thenRun_ret, OM.bind_ret]
    rw [run_bind]
    refine Refines.bind (ensure_sim o c b hb) fun b' v hv hv' hf => ?_
    rw [OM.bind_read, run_bind, run_getPtr, thenRun_ret, run_bind, run_getLen, thenRun_ret, run_bind]
    refine change_bind (φ := fun m => m.move (k + n) k (b'.s.len - k)) hf (fun m hm => ?_) rfl
    have hl := ensure_len hv'
    rw [run_bind]
    refine change_bind' (b := { b' with s := { b'.s with mem := m } }) (φ := fun m => m.copyIn k (l.drop i.toNat) n) hf (fun m' hm' => ?_)
      (copyIn_nothrow _ _ _ _)
    rw [addLen_run o n { b' with s := { b'.s with mem := m' } } c (by simpa only [hl] using hn)]
    exact ⟨rfl, hf⟩
  | throw e => rcases chk32_cases (b.s.len + n) with h | h <;> rw [h] at hn <;> cases hn
  | ub => exact rfl
  | diverge => rcases chk32_cases (b.s.len + n) with h | h <;> rw [h] at hn <;> cases hn

/-- Reading the length first. -/
theorem Sim.getLen {α : Type} {o : Nat} {g : Int → Prog α} {f : SB → OM SB α}
    (h : ∀ b, Fresh b → Refines ((g b.s.len).run b) (f b.s b.s)) : Sim (getLen o >>= g) (OM.read >>= f) := by
  intro b hb
  rw [run_bind]
  exact h b hb

theorem insertSlice_sim (o : Nat) (k : Int) (l : List Byte) (i n : Int) : Sim (insertSlice o k l i n) (StringBuffer.insertSlice k l i n) := by
  unfold insertSlice StringBuffer.insertSlice
  refine Sim.getLen fun b hb => ?_
  refine Sim.ite (fun _ => Sim.raise _) (fun _ => ?_) b hb
  refine Sim.bind (Sim.lift _) fun v => ?_
  exact Sim.ite (fun _ => Sim.raise _) fun _ => insertAt_sim o k l i n

theorem insert_sim (o : Nat) (k : Int) (l : List Byte) : Sim (insert o k l) (StringBuffer.insert k l) := insertSlice_sim o k l 0 _
theorem insertChar_sim (o : Nat) (k : Int) (c : Byte) : Sim (insertChar o k c) (StringBuffer.insertChar k c) := insert_sim o k _

theorem insertSub_sim (o : Nat) (k : Int) (l : List Byte) (i j : Int) : Sim (insertSub o k l i j) (StringBuffer.insertSub k l i j) := by
  unfold insertSub StringBuffer.insertSub
  refine Sim.getLen fun b hb => ?_
  refine Sim.ite (fun _ => Sim.raise _) (fun _ => ?_) b hb
  exact Sim.ite (fun _ => Sim.raise _) fun _ => insertSlice_sim o k l i _

/-- A write of the block after which nothing but the object's fields changes. -/
theorem change_last {o : Nat} {φ : Block → Outcome Block} {b : Obj} (h : Fresh b) {s : SB} {f : Block → SB}
    (hg : ∀ m, φ b.s.mem = .ok m → f m = { b.s with mem := m }) (ht : ∀ e, φ b.s.mem ≠ .throw e) :
    Refines ((change o b.ptr φ).run b) ((OM.lift (φ b.s.mem)).bind (fun m => OM.write (f m)) s) := by
  rw [run_change o φ b h]
  cases hx : φ b.s.mem with
  | ok m => exact ⟨congrArg (fun x => Res.ret x ()) (hg m hx), h⟩
  | throw e => exact (ht e hx).elim
  | ub => exact rfl
  | diverge => exact rfl

theorem deleteMove_sim (o : Nat) (i j : Int) : Sim (deleteMove o i j) (StringBuffer.deleteMove i j) := by
  unfold deleteMove StringBuffer.deleteMove
  refine Sim.getLen fun b hb => ?_
  by_cases h : j > b.s.len
  · rw [if_pos h, if_pos h, run_bind, run_getPtr, thenRun_ret, run_bind, run_getLen, thenRun_ret, run_bind, run_setLen, thenRun_ret]
    exact change_last (b := { b with s := { b.s with len := i } }) (φ := fun m => m.move i b.s.len b.s.len) hb (fun m _ => rfl)
      (move_nothrow _ _ _ _)
  · rw [if_neg h, if_neg h, run_bind, run_getPtr, thenRun_ret, run_bind, run_getLen, thenRun_ret, run_bind, run_setLen, thenRun_ret]
    exact change_last (b := { b with s := { b.s with len := b.s.len - (j - i) } }) (φ := fun m => m.move i j (b.s.len - i)) hb
      (fun m _ => rfl) (move_nothrow _ _ _ _)

theorem deletes_sim (o : Nat) (i j : Int) : Sim (deletes o i j) (StringBuffer.deletes i j) := by
  intro b hb
  unfold deletes StringBuffer.deletes
  rw [OM.bind_eq, OM.bind_read]
  refine iteAt (fun _ => ⟨rfl, hb⟩) (fun _ => ?_)
  rw [run_bind, run_getLen, thenRun_ret]
  refine iteAt (fun _ => ⟨rfl, hb⟩) (fun _ => ?_)
  rw [run_bind, run_getLen, thenRun_ret]
  exact iteAt (fun _ => ⟨rfl, hb⟩) (fun _ => deleteMove_sim o i j b hb)

theorem deleteCharAt_sim (o : Nat) (i : Int) : Sim (deleteCharAt o i) (StringBuffer.deleteCharAt i) := by
  intro b hb
  unfold deleteCharAt StringBuffer.deleteCharAt
  rw [OM.bind_eq, OM.bind_read]
  refine iteAt (fun _ => ⟨rfl, hb⟩) (fun _ => ?_)
  rw [run_bind, run_getLen, thenRun_ret]
  refine iteAt (fun _ => ⟨rfl, hb⟩) (fun _ => ?_)
  rw [run_bind, run_getPtr, thenRun_ret, run_bind, run_getLen, thenRun_ret, run_bind]
  refine change_bind (φ := fun m => m.move i (i + 1) (b.s.len - i)) hb (fun m _ => ?_) rfl
  rw [run_bind, run_getLen, thenRun_ret, run_setLen]
  exact ⟨rfl, hb⟩

theorem replaceTail_sim (o : Nat) (i j : Int) (l : List Byte) : Sim (replaceTail o i j l) (StringBuffer.replaceTail i j l) := by
  intro b hb
  unfold replaceTail StringBuffer.replaceTail
  simp only [OM.bind_eq, OM.bind_read]
  rw [run_bind, run_getLen, thenRun_ret, run_bind, run_give]
  cases hn : chk32 (b.s.len + l.length) with
  | ok c =>
    simp only [OM.lift_ok, OM.ret_apply, thenRun_ret, OM.bind_ret]
    rw [run_bind]
    refine Refines.bind (ensure_sim o _ b hb) fun b' v hv hv' hf => ?_
    rw [OM.bind_read, run_bind, run_setLen, thenRun_ret, run_bind, run_getPtr, thenRun_ret, run_bind]
    refine change_bind' (b := { b' with s := { b'.s with len := c - j + i } }) (φ := fun m => m.move (i + l.length) j l.length) hf (fun m hm => ?_)
      (move_nothrow _ _ _ _)
    exact change_last (b := ⟨⟨m, c - j + i, b'.s.cap⟩, b'.ptr, b'.live⟩) (φ := fun m => m.copyIn i l l.length) hf (fun m _ => rfl)
      (copyIn_nothrow _ _ _ _)
  | throw e => rcases chk32_cases (b.s.len + l.length) with h | h <;> rw [h] at hn <;> cases hn
  | ub => exact rfl
  | diverge => rcases chk32_cases (b.s.len + l.length) with h | h <;> rw [h] at hn <;> cases hn

theorem replace_sim (o : Nat) (i j : Int) (l : List Byte) : Sim (replace o i j l) (StringBuffer.replace i j l) := by
  intro b hb
  unfold replace StringBuffer.replace
  rw [OM.bind_eq, OM.bind_read]
  refine iteAt (fun _ => ⟨rfl, hb⟩) (fun _ => ?_)
  rw [run_bind, run_getLen, thenRun_ret]
  refine iteAt (fun _ => ⟨rfl, hb⟩) (fun _ => ?_)
  rw [run_bind, run_getLen, thenRun_ret]
  exact replaceTail_sim o i _ l b hb

theorem reverse_sim (o : Nat) : Sim (reverse o) StringBuffer.reverse := by
  intro b hb
  unfold reverse StringBuffer.reverse
  simp only [OM.bind_eq, OM.bind_read]
  rw [run_bind, run_getLen, thenRun_ret, run_bind, run_getPtr, thenRun_ret, run_change o _ b hb]
  unfold reversed
  cases h : reverseLoop b.s.len (b.s.len.tdiv 2).toNat 0 (b.s.mem, false) with
  | ok r =>
    simp only [Outcome.bind, OM.lift_ok, OM.bind_ret]
    cases h' : (if r.2 then fixPairs (b.s.len - 1) b.s.len.toNat 0 r.1 else Outcome.ok r.1) with
    | ok m => exact ⟨rfl, hb⟩
    | throw e => exact ⟨rfl, hb⟩
    | ub => exact rfl
    | diverge => exact rfl
  | throw e => exact ⟨rfl, hb⟩
  | ub => exact rfl
  | diverge => exact rfl

theorem setCharAt_sim (o : Nat) (i : Int) (c : Byte) : Sim (setCharAt o i c) (StringBuffer.setCharAt i c) := by
  intro b hb
  unfold setCharAt StringBuffer.setCharAt
  rw [OM.bind_eq, OM.bind_read]
  refine iteAt (fun _ => ⟨rfl, hb⟩) (fun _ => ?_)
  rw [run_bind, run_getLen, thenRun_ret]
  refine iteAt (fun _ => ⟨rfl, hb⟩) (fun _ => ?_)
  rw [run_bind, run_getPtr, thenRun_ret]
  rw [run_change o _ b hb]
  rw [OM.bind_eq]
  cases h : b.s.mem.wr i c with
  | ok m => exact ⟨rfl, hb⟩
  | throw e => exact ⟨rfl, hb⟩
  | ub => exact rfl
  | diverge => exact rfl

theorem setLength_sim (o : Nat) (n : Int) : Sim (setLength o n) (StringBuffer.setLength n) := by
  intro b hb
  unfold setLength StringBuffer.setLength
  refine iteAt (fun _ => ⟨rfl, hb⟩) (fun _ => ?_)
  rw [run_bind, run_getLen, thenRun_ret, run_bind, run_getLen, thenRun_ret]
  rw [OM.bind_eq, OM.bind_read]
  refine iteAt (fun _ => ?_) (fun _ => ?_)
  · rw [run_bind]
    refine Refines.bind (ensure_sim o n b hb) fun b' v hv hv' hf => ?_
    have hl := ensure_len hv'
    rw [OM.bind_eq, OM.bind_read, run_bind, run_getPtr, thenRun_ret, run_bind, ← hl]
    refine change_bind (φ := fun m => m.store b'.s.len (List.replicate (n - b'.s.len + 1).toNat 0#8)) hf (fun m _ => ?_) rfl
    rw [run_setLen]
    exact ⟨rfl, hf⟩
  · rw [run_bind, run_getPtr, thenRun_ret, run_bind]
    refine change_bind (φ := fun m => wipeDown m b.s.len (b.s.len - n + 1).toNat) hb (fun m _ => ?_) rfl
    rw [run_setLen]
    exact ⟨rfl, hb⟩

theorem charAt_sim (o : Nat) (i : Int) : Sim (charAt o i) (StringBuffer.charAt i) := by
  intro b hb
  unfold charAt StringBuffer.charAt
  rw [OM.bind_eq, OM.bind_read]
  refine iteAt (fun _ => ⟨rfl, hb⟩) (fun _ => ?_)
  rw [run_bind, run_getLen, thenRun_ret]
  refine iteAt (fun _ => ⟨rfl, hb⟩) (fun _ => ?_)
  rw [run_bind, run_getPtr, thenRun_ret, run_look o _ b hb]
  exact Refines.lift _ b hb

theorem pairAt_cap (sem : Sem) (m : Block) (n c c' : Int) (x : Byte) (i : Int) :
    pairAt sem ⟨m, n, c⟩ x i = pairAt sem ⟨m, n, c'⟩ x i := rfl

theorem codePointAt_sim (sem : Sem) (o : Nat) (i : Int) : Sim (codePointAt sem o i) (StringBuffer.codePointAt sem i) := by
  intro b hb
  unfold codePointAt StringBuffer.codePointAt
  rw [OM.bind_eq, OM.bind_read]
  refine iteAt (fun _ => ⟨rfl, hb⟩) (fun _ => ?_)
  rw [run_bind, run_getLen, thenRun_ret]
  refine iteAt (fun _ => ⟨rfl, hb⟩) (fun _ => ?_)
  rw [run_bind, run_getPtr, thenRun_ret, run_bind, run_look o _ b hb]
  refine Refines.bind (Refines.lift _ b hb) fun b' v hv _ hf => ?_
  have hbb : b' = b := by
    cases hx : b.s.mem.rd i with
    | ok w => rw [hx] at hv; cases hv; rfl
    | throw e => rw [hx] at hv; cases hv
    | ub => rw [hx] at hv; cases hv
    | diverge => rw [hx] at hv; cases hv
  subst hbb
  refine iteAt (fun _ => ?_) (fun _ => ⟨rfl, hf⟩)
  rw [run_bind, run_getLen, thenRun_ret, run_look o _ b' hf]
  exact Refines.lift _ b' hf

theorem codePointBefore_sim (sem : Sem) (o : Nat) (i : Int) : Sim (codePointBefore sem o i) (StringBuffer.codePointBefore sem i) := by
  intro b hb
  unfold codePointBefore StringBuffer.codePointBefore
  rw [OM.bind_eq, OM.bind_read]
  refine iteAt (fun _ => ⟨rfl, hb⟩) (fun _ => ?_)
  rw [run_bind, run_getLen, thenRun_ret]
  refine iteAt (fun _ => ⟨rfl, hb⟩) (fun _ => ?_)
  rw [run_bind, run_getPtr, thenRun_ret, run_bind, run_look o _ b hb]
  refine Refines.bind (Refines.lift _ b hb) fun b' v hv _ hf => ?_
  have hbb : b' = b := by
    cases hx : b.s.mem.rd (i - 1) with
    | ok w => rw [hx] at hv; cases hv; rfl
    | throw e => rw [hx] at hv; cases hv
    | ub => rw [hx] at hv; cases hv
    | diverge => rw [hx] at hv; cases hv
  subst hbb
  refine iteAt (fun _ => ?_) (fun _ => ⟨rfl, hf⟩)
  rw [run_look o _ b' hf]
  exact Refines.lift _ b' hf

theorem codePointCount_sim (o : Nat) (i j : Int) : Sim (codePointCount o i j) (StringBuffer.codePointCount i j) := by
  unfold codePointCount StringBuffer.codePointCount
  refine Sim.getLen fun b hb => ?_
  refine iteAt (fun _ => ⟨rfl, hb⟩) (fun _ => ?_)
  rw [run_bind, run_getPtr, thenRun_ret, run_look o _ b hb]
  exact Refines.lift _ b hb

theorem toString_sim (o : Nat) : Sim (toString o) StringBuffer.toString := by
  intro b hb
  unfold toString StringBuffer.toString
  rw [OM.bind_eq, OM.bind_read, run_bind, run_getPtr, thenRun_ret, run_look o _ b hb]
  exact Refines.lift _ b hb

theorem subString_sim (o : Nat) (i j : Int) : Sim (subString o i j) (StringBuffer.subString i j) := by
  intro b hb
  unfold subString StringBuffer.subString
  rw [OM.bind_eq, OM.bind_read]
  refine iteAt (fun _ => ⟨rfl, hb⟩) (fun _ => ?_)
  rw [run_bind, run_getLen, thenRun_ret]
  refine iteAt (fun _ => ⟨rfl, hb⟩) (fun _ => ?_)
  rw [run_bind, run_getPtr, thenRun_ret, run_bind, run_look o _ b hb]
  exact Refines.bind (Refines.lift _ b hb) fun b' v _ _ hf => ⟨rfl, hf⟩

theorem subStringFrom_sim (o : Nat) (i : Int) : Sim (subStringFrom o i) (StringBuffer.subStringFrom i) := by
  unfold subStringFrom StringBuffer.subStringFrom
  exact Sim.getLen fun b hb => subString_sim o i _ b hb

theorem trimToSize_sim (o : Nat) : Sim (trimToSize o) StringBuffer.trimToSize := by
  intro b hb
  unfold trimToSize StringBuffer.trimToSize
  rw [OM.bind_eq, OM.bind_read, run_bind, run_getCap, thenRun_ret, run_bind, run_getLen, thenRun_ret]
  refine iteAt (fun _ => ⟨rfl, hb⟩) (fun _ => ?_)
  rw [run_bind, run_getLen, thenRun_ret, run_bind, moveTo_run o _ b hb, thenRun_ret, run_bind, run_getLen, thenRun_ret, run_setCap]
  exact ⟨rfl, rfl⟩

theorem length_sim (o : Nat) : Sim (getLen o) StringBuffer.length := fun _ hb => ⟨rfl, hb⟩
theorem capacity_sim (o : Nat) : Sim (getCap o) StringBuffer.capacity := fun _ hb => ⟨rfl, hb⟩

/-- A call executed without interruption is the call of `Model.lean`. -/
theorem body_sim (sem : Sem) (o : Nat) (c : Op) : Sim (body sem o c) (StringBuffer.step sem c) := by
  cases c with
  | append l => exact Sim.bind (append_sim o l) fun _ => Sim.ret _
  | appendSlice l i n => exact Sim.bind (appendSlice_sim o l i n) fun _ => Sim.ret _
  | appendSub l i j => exact Sim.bind (appendSub_sim o l i j) fun _ => Sim.ret _
  | appendChar c => exact Sim.bind (appendChar_sim o c) fun _ => Sim.ret _
  | appendCodePoint c => exact Sim.bind (appendCodePoint_sim o c) fun _ => Sim.ret _
  | insert i l => exact Sim.bind (insert_sim o i l) fun _ => Sim.ret _
  | insertSlice i l k n => exact Sim.bind (insertSlice_sim o i l k n) fun _ => Sim.ret _
  | insertSub i l a b => exact Sim.bind (insertSub_sim o i l a b) fun _ => Sim.ret _
  | insertChar i c => exact Sim.bind (insertChar_sim o i c) fun _ => Sim.ret _
  | deletes i j => exact Sim.bind (deletes_sim o i j) fun _ => Sim.ret _
  | deleteCharAt i => exact Sim.bind (deleteCharAt_sim o i) fun _ => Sim.ret _
  | replace i j l => exact Sim.bind (replace_sim o i j l) fun _ => Sim.ret _
  | reverse => exact Sim.bind (reverse_sim o) fun _ => Sim.ret _
  | setCharAt i c => exact Sim.bind (setCharAt_sim o i c) fun _ => Sim.ret _
  | setLength n => exact Sim.bind (setLength_sim o n) fun _ => Sim.ret _
  | ensureCapacity n => exact Sim.bind (ensure_sim o n) fun _ => Sim.ret _
  | trimToSize => exact Sim.bind (trimToSize_sim o) fun _ => Sim.ret _
  | charAt i => exact Sim.bind (charAt_sim o i) fun _ => Sim.ret _
  | codePointAt i => exact Sim.bind (codePointAt_sim sem o i) fun _ => Sim.ret _
  | codePointBefore i => exact Sim.bind (codePointBefore_sim sem o i) fun _ => Sim.ret _
  | codePointCount i j => exact Sim.bind (codePointCount_sim o i j) fun _ => Sim.ret _
  | length => exact Sim.bind (length_sim o) fun _ => Sim.ret _
  | capacity => exact Sim.bind (capacity_sim o) fun _ => Sim.ret _
  | toString => exact Sim.bind (toString_sim o) fun _ => Sim.ret _
  | subString i j => exact Sim.bind (subString_sim o i j) fun _ => Sim.ret _
  | subStringFrom i => exact Sim.bind (subStringFrom_sim o i) fun _ => Sim.ret _

/-! ## What a method touches -/

theorem Own.ite {α : Type} {o : Nat} {c : Prop} [Decidable c] {p q : Prog α} (h1 : Own o p) (h2 : Own o q) : Own o (if c then p else q) := by
  split
  · exact h1
  · exact h2

theorem own_getLen (o : Nat) : Own o (getLen o) := ⟨rfl, fun _ => trivial⟩
theorem own_setLen (o : Nat) (n : Int) : Own o (setLen o n) := ⟨rfl, fun _ => trivial⟩
theorem own_getCap (o : Nat) : Own o (getCap o) := ⟨rfl, fun _ => trivial⟩
theorem own_setCap (o : Nat) (n : Int) : Own o (setCap o n) := ⟨rfl, fun _ => trivial⟩
theorem own_getPtr (o : Nat) : Own o (getPtr o) := ⟨rfl, fun _ => trivial⟩
theorem own_setPtr (o p : Nat) : Own o (setPtr o p) := ⟨rfl, fun _ => trivial⟩
theorem own_look {α : Type} (o p : Nat) (f : Block → Outcome α) : Own o (look o p f) := ⟨rfl, fun _ => trivial⟩
theorem own_change (o p : Nat) (f : Block → Outcome Block) : Own o (change o p f) := ⟨rfl, fun _ => trivial⟩
theorem own_reallocate (o p n : Nat) : Own o (reallocate o p n) := ⟨rfl, fun _ => trivial⟩
theorem own_give {α : Type} (o : Nat) (x : Outcome α) : Own o (give x) := trivial
theorem own_raise {α : Type} (o : Nat) (e : Exc) : Own o (raise e : Prog α) := trivial

/-- Goes through a program. -/
macro "owns" : tactic => `(tactic| repeat' (with_reducible first
  | exact own_getLen _ | exact own_setLen _ _ | exact own_getCap _ | exact own_setCap _ _ | exact own_getPtr _ | exact own_setPtr _ _
  | exact own_look _ _ _ | exact own_change _ _ _ | exact own_reallocate _ _ _ | exact own_give _ _ | exact own_raise _ _
  | assumption | apply Own.ite | (refine Own.bind ?_ fun _ => ?_)))

theorem own_growLoop (o : Nat) (k : Int) (n : Nat) : Own o (growLoop o k n) := by
  induction n with
  | zero => exact own_give _ _
  | succ n ih => unfold growLoop; owns

theorem own_moveTo (o : Nat) (n : Int) : Own o (moveTo o n) := by
  unfold moveTo
  owns

theorem own_ensure (o : Nat) (k : Int) : Own o (ensureCapacity o k) := by
  unfold ensureCapacity
  owns
  · exact own_growLoop o k 33
  · exact own_moveTo o _

theorem own_addLen (o : Nat) (n : Int) : Own o (addLen o n) := by
  unfold addLen
  owns

theorem own_appendAt (o : Nat) (l : List Byte) (i n : Int) : Own o (appendAt o l i n) := by
  unfold appendAt
  owns
  · exact own_ensure o _
  · exact own_addLen o _

theorem own_appendSlice (o : Nat) (l : List Byte) (i n : Int) : Own o (appendSlice o l i n) := by
  unfold appendSlice
  owns
  exact own_appendAt o _ _ _

theorem own_append (o : Nat) (l : List Byte) : Own o (append o l) := own_appendSlice o _ _ _
theorem own_appendChar (o : Nat) (c : Byte) : Own o (appendChar o c) := own_append o _

theorem own_appendSub (o : Nat) (l : List Byte) (i j : Int) : Own o (appendSub o l i j) := by
  unfold appendSub
  owns
  exact own_appendSlice o _ _ _

theorem own_appendCodePoint (o : Nat) (c : BitVec 32) : Own o (appendCodePoint o c) := by
  unfold appendCodePoint
  split
  · exact own_appendChar o _
  · split
    · generalize highByte c = x
      generalize lowByte c = y
      exact Own.bind (own_appendChar o x) fun _ => own_appendChar o y
    · exact own_raise _ _

theorem own_insertAt (o : Nat) (k : Int) (l : List Byte) (i n : Int) : Own o (insertAt o k l i n) := by
  unfold insertAt
  owns
  · exact own_ensure o _
  · exact own_addLen o _

theorem own_insertSlice (o : Nat) (k : Int) (l : List Byte) (i n : Int) : Own o (insertSlice o k l i n) := by
  unfold insertSlice
  owns
  exact own_insertAt o _ _ _ _

theorem own_insert (o : Nat) (k : Int) (l : List Byte) : Own o (insert o k l) := own_insertSlice o _ _ _ _
theorem own_insertChar (o : Nat) (k : Int) (c : Byte) : Own o (insertChar o k c) := own_insert o _ _

theorem own_insertSub (o : Nat) (k : Int) (l : List Byte) (i j : Int) : Own o (insertSub o k l i j) := by
  unfold insertSub
  owns
  exact own_insertSlice o _ _ _ _

theorem own_deletes (o : Nat) (i j : Int) : Own o (deletes o i j) := by
  unfold deletes deleteMove
  owns

theorem own_deleteCharAt (o : Nat) (i : Int) : Own o (deleteCharAt o i) := by
  unfold deleteCharAt
  owns

theorem own_replace (o : Nat) (i j : Int) (l : List Byte) : Own o (replace o i j l) := by
  unfold replace replaceTail
  owns
  exact own_ensure o _

theorem own_reverse (o : Nat) : Own o (reverse o) := by
  unfold reverse
  owns

theorem own_setCharAt (o : Nat) (i : Int) (c : Byte) : Own o (setCharAt o i c) := by
  unfold setCharAt
  owns

theorem own_setLength (o : Nat) (n : Int) : Own o (setLength o n) := by
  unfold setLength
  owns
  exact own_ensure o _

theorem own_charAt (o : Nat) (i : Int) : Own o (charAt o i) := by
  unfold charAt
  owns

theorem own_codePointAt (sem : Sem) (o : Nat) (i : Int) : Own o (codePointAt sem o i) := by
  unfold codePointAt
  owns

theorem own_codePointBefore (sem : Sem) (o : Nat) (i : Int) : Own o (codePointBefore sem o i) := by
  unfold codePointBefore
  owns

theorem own_codePointCount (o : Nat) (i j : Int) : Own o (codePointCount o i j) := by
  unfold codePointCount
  owns

theorem own_toString (o : Nat) : Own o (toString o) := by
  unfold toString
  owns

theorem own_subString (o : Nat) (i j : Int) : Own o (subString o i j) := by
  unfold subString
  owns

theorem own_subStringFrom (o : Nat) (i : Int) : Own o (subStringFrom o i) := by
  unfold subStringFrom
  owns
  exact own_subString o _ _

theorem own_trimToSize (o : Nat) : Own o (trimToSize o) := by
  unfold trimToSize
  owns
  exact own_moveTo o _

/-- A method touches its object. -/
theorem own_body (sem : Sem) (o : Nat) (c : Op) : Own o (body sem o c) := by
  cases c with
  | append l => exact Own.bind (own_append o _) fun _ => own_give _ _
  | appendSlice l i n => exact Own.bind (own_appendSlice o _ _ _) fun _ => own_give _ _
  | appendSub l i j => exact Own.bind (own_appendSub o _ _ _) fun _ => own_give _ _
  | appendChar c => exact Own.bind (own_appendChar o _) fun _ => own_give _ _
  | appendCodePoint c => exact Own.bind (own_appendCodePoint o _) fun _ => own_give _ _
  | insert i l => exact Own.bind (own_insert o _ _) fun _ => own_give _ _
  | insertSlice i l k n => exact Own.bind (own_insertSlice o _ _ _ _) fun _ => own_give _ _
  | insertSub i l a b => exact Own.bind (own_insertSub o _ _ _ _) fun _ => own_give _ _
  | insertChar i c => exact Own.bind (own_insertChar o _ _) fun _ => own_give _ _
  | deletes i j => exact Own.bind (own_deletes o _ _) fun _ => own_give _ _
  | deleteCharAt i => exact Own.bind (own_deleteCharAt o _) fun _ => own_give _ _
  | replace i j l => exact Own.bind (own_replace o _ _ _) fun _ => own_give _ _
  | reverse => exact Own.bind (own_reverse o) fun _ => own_give _ _
  | setCharAt i c => exact Own.bind (own_setCharAt o _ _) fun _ => own_give _ _
  | setLength n => exact Own.bind (own_setLength o _) fun _ => own_give _ _
  | ensureCapacity n => exact Own.bind (own_ensure o _) fun _ => own_give _ _
  | trimToSize => exact Own.bind (own_trimToSize o) fun _ => own_give _ _
  | charAt i => exact Own.bind (own_charAt o _) fun _ => own_give _ _
  | codePointAt i => exact Own.bind (own_codePointAt sem o _) fun _ => own_give _ _
  | codePointBefore i => exact Own.bind (own_codePointBefore sem o _) fun _ => own_give _ _
  | codePointCount i j => exact Own.bind (own_codePointCount o _ _) fun _ => own_give _ _
  | length => exact Own.bind (own_getLen o) fun _ => own_give _ _
  | capacity => exact Own.bind (own_getCap o) fun _ => own_give _ _
  | toString => exact Own.bind (own_toString o) fun _ => own_give _ _
  | subString i j => exact Own.bind (own_subString o _ _) fun _ => own_give _ _
  | subStringFrom i => exact Own.bind (own_subStringFrom o _) fun _ => own_give _ _

end Verif.StringBuffer.Sync
