import Verif.WeakSema.Lemmas
/-!
# What calls return is what they took
-/
namespace Verif.WeakSema
open Verif.Weak (View TView Mem Msg join bot upto msgAt newest push load store rmw write Below MemOk TvOk)
open Verif.LightSema (Op Pos Next begin checked taken hit spinNext miss got timed amount toRelease posts)

variable {s s' : Sys} {i : Nat} {th : Th}

/-- Which calls get to a position. -/
def For (op : Op) : Pos → Prop
  | .load h => takes op = true ∧ (h ≠ 0 → ∃ max t, op = .waitMany max t)
  | .test h _ => takes op = true ∧ (h ≠ 0 → ∃ max t, op = .waitMany max t)
  | .add => ∃ n, op = .signal n
  | .post _ => ∃ n, op = .signal n
  | .read => takes op = false
  | _ => takes op = true

def NextFor (op : Op) (nx : Next) : Prop := ∀ p, nx = .at p → For op p

/-- The permits that a call has, or returns with. -/
def deliver (op : Op) : Next → Nat
  | .at p => heldOf p
  | .ret r => if takes op then r.getD 0 else 0

def callHeld (x : Th) : Nat := match x.call with
  | some (_, p) => heldOf p
  | none => 0

def logged (op : Op) (log : List (Op × Option Nat)) : Next → List (Op × Option Nat)
  | .at _ => log
  | .ret r => (op, r) :: log

theorem checked_deliver {op : Op} (h : takes op = true) (r : Nat) : deliver op (checked op r) = r ∧ NextFor op (checked op r) := by
  refine ⟨?_, fun p e => ?_⟩
  · unfold checked
    split
    · simp [deliver]
    · simp [deliver, h]
  · unfold checked at e
    split at e <;> cases e

theorem spin_deliver {op : Op} (h : takes op = true) (n : Nat) : deliver op (spinNext n) = 0 ∧ NextFor op (spinNext n) := by
  cases n with
  | zero => exact ⟨rfl, fun p e => by cases e; exact h⟩
  | succ n => exact ⟨rfl, fun p e => by cases e; exact h⟩

theorem miss_deliver {op : Op} {held : Nat} (h : takes op = true) (hh : held ≠ 0 → ∃ max t, op = .waitMany max t) :
    deliver op (miss op held) = held ∧ NextFor op (miss op held) := by
  unfold miss
  split
  · have h0 : held = 0 := by
      by_cases e : held = 0
      · exact e
      · obtain ⟨m, t, e⟩ := hh e
        cases e
    rw [h0]
    exact spin_deliver h _
  · split
    · exact spin_deliver h _
    · exact checked_deliver h _
  · exact checked_deliver h _

theorem got_deliver {op : Op} (h : takes op = true) : deliver op (got op) = 1 ∧ NextFor op (got op) := by
  cases op with
  | waitMany max t =>
    unfold got
    dsimp only
    split
    · exact ⟨rfl, fun p e => by cases e; exact ⟨rfl, fun _ => ⟨_, _, rfl⟩⟩⟩
    · exact checked_deliver h _
  | tryWait => exact checked_deliver h _
  | wait t => exact checked_deliver h _
  | tryWaitMany max => exact checked_deliver h _
  | signal n => cases h
  | available => cases h

theorem posts_deliver {op : Op} (h : ∃ n, op = .signal n) (r : Nat) : deliver op (posts r) = 0 ∧ NextFor op (posts r) := by
  unfold posts
  split
  · exact ⟨by obtain ⟨n, rfl⟩ := h; rfl, fun p e => nomatch e⟩
  · exact ⟨rfl, fun p e => by cases e; exact h⟩

theorem begin_deliver (op : Op) : deliver op (begin op) = 0 ∧ NextFor op (begin op) := by
  cases op <;> unfold begin <;> dsimp only <;> (try split) <;>
    first
      | exact ⟨rfl, fun p e => by cases e; first | exact rfl | exact ⟨_, rfl⟩ | exact ⟨rfl, fun h => absurd rfl h⟩⟩
      | exact ⟨by simp [deliver], fun p e => nomatch e⟩

/-- What a step of thread `i` does to the records. -/
structure Did (s s' : Sys) (i : Nat) (th : Th) (op : Op) (had : Nat) (nx : Next) (tv : TView Loc) (k : Nat) : Prop where
  took : s'.took = s.took ++ List.replicate k tv.cur
  threads : s'.threads = s.threads.set i ⟨tv, callOf op nx⟩
  log : s'.log = logged op s.log nx
  grows : Below th.tv.cur tv.cur
  deliver : deliver op nx = had + k
  next : NextFor op nx
  all : 0 < k → s'.mem .sema = s.mem .sema → Below (newest (s.mem .count)).view tv.cur

theorem did_to {op : Op} {had : Nat} {nx : Next} {tv : TView Loc} (hb : Below th.tv.cur tv.cur) (hd : deliver op nx = had ∧ NextFor op nx) :
    Did s (to s i op tv nx) i th op had nx tv 0 := by
  obtain ⟨_, _, _, t4, t5⟩ := to_same s i op tv nx
  refine ⟨by rw [t4]; simp, t5, by cases nx <;> rfl, hb, hd.1, hd.2, fun h => absurd h (Nat.lt_irrefl _)⟩

theorem did_look {acq : Bool} {op : Op} {had w : Nat} {nx : Int → Option Next} (hn : ∀ v n, nx v = some n → deliver op n = had ∧ NextFor op n)
    (h : look acq s i th op w nx = some s') : ∃ n tv k, Did s s' i th op had n tv k := by
  unfold look at h
  split at h
  · rename_i v tv e
    obtain ⟨n, hv, rfl⟩ := Option.map_eq_some_iff.mp h
    have hb : Below th.tv.cur tv.cur := (Weak.load_get e).1
    exact ⟨n, tv, 0, did_to hb (hn _ n hv)⟩
  · cases h

theorem did_change {acq rel : Bool} {op : Op} {d : Int} {k had : Nat} {nx : Next} (hk : 0 < k → acq = true) (hd : deliver op nx = had + k) (hn : NextFor op nx) :
    Did s (change acq rel s i th op d k nx) i th op had nx (rmw acq rel (fun v => enc (dec v + d)) s.mem th.tv .count).2.2 k := by
  unfold change
  dsimp only
  generalize hs1 : ({ s with mem := (rmw acq rel (fun v => enc (dec v + d)) s.mem th.tv .count).2.1, took := s.took ++ List.replicate k (rmw acq rel (fun v => enc (dec v + d)) s.mem th.tv .count).2.2.cur } : Sys) = s1
  obtain ⟨t1, _, _, t4, t5⟩ := to_same s1 i op (rmw acq rel (fun v => enc (dec v + d)) s.mem th.tv .count).2.2 nx
  have t6 : (to s1 i op (rmw acq rel (fun v => enc (dec v + d)) s.mem th.tv .count).2.2 nx).log = logged op s1.log nx := by cases nx <;> rfl
  subst hs1
  exact ⟨t4, t5, t6, Weak.rmw_grows _ _ _ _, hd, hn, fun h _ => (rmw_newest acq rel _ s.mem th.tv .count).2.2.2 (hk h)⟩

theorem did_pass {op : Op} (h : takes op = true) : Did s (pass s i th op) i th op 0 (got op) (rmw true false (fun v => v - 1) s.mem th.tv .sema).2.2 1 := by
  unfold pass
  dsimp only
  generalize hs1 : ({ s with mem := (rmw true false (fun v => v - 1) s.mem th.tv .sema).2.1, took := s.took ++ [(rmw true false (fun v => v - 1) s.mem th.tv .sema).2.2.cur] } : Sys) = s1
  obtain ⟨t1, _, _, t4, t5⟩ := to_same s1 i op (rmw true false (fun v => v - 1) s.mem th.tv .sema).2.2 (got op)
  have t6 : (to s1 i op (rmw true false (fun v => v - 1) s.mem th.tv .sema).2.2 (got op)).log = logged op s1.log (got op) := by cases got op <;> rfl
  subst hs1
  refine ⟨t4, t5, t6, Weak.rmw_grows _ _ _ _, by rw [(got_deliver h).1], (got_deliver h).2, fun _ he => ?_⟩
  rw [t1] at he
  have := congrArg List.length he
  have h2 : ((rmw true false (fun v => v - 1) s.mem th.tv .sema).2.1 .sema).length = (s.mem .sema).length + 1 := by
    unfold rmw
    dsimp only
    rw [Weak.push_self, List.length_append]
    rfl
  rw [h2] at this
  omega

theorem step_did {op : Op} {p : Pos} (hf : For op p) {w : Nat} {c : Bool} (h : step s i th op p w c = some s') :
    ∃ nx tv k, Did s s' i th op (heldOf p) nx tv k := by
  unfold step at h
  cases p with
  | load held =>
    exact did_look (fun v n e => by cases e; exact ⟨rfl, fun p e => by cases e; exact hf⟩) h
  | test held old =>
    dsimp only at h
    split at h
    · cases h
      exact ⟨_, _, 0, did_to (Weak.Below.refl _) (miss_deliver hf.1 hf.2)⟩
    · split at h
      · split at h
        · cases h
          exact ⟨_, _, _, did_change (fun _ => rfl) (checked_deliver hf.1 _).1 (checked_deliver hf.1 _).2⟩
        · cases h
      · exact did_look (fun v n e => by cases e; exact ⟨rfl, fun p e => by cases e; exact hf⟩) h
  | spinLoad left =>
    exact did_look (fun v n e => by cases e; exact ⟨rfl, fun p e => by cases e; exact hf⟩) h
  | spinTest left old =>
    dsimp only at h
    split at h
    · split at h
      · split at h
        · cases h
          exact ⟨_, _, _, did_change (fun _ => rfl) (checked_deliver hf _).1 (checked_deliver hf _).2⟩
        · cases h
      · refine did_look (fun v n e => ?_) h
        split at e
        · cases e
        · cases e
          exact spin_deliver hf left
    · cases h
      exact ⟨_, _, 0, did_to (Weak.Below.refl _) (spin_deliver hf left)⟩
  | sub =>
    cases h
    by_cases hp : 0 < s.count
    · rw [if_pos hp, if_pos hp]
      exact ⟨_, _, _, did_change (fun _ => rfl) (got_deliver hf).1 (got_deliver hf).2⟩
    · rw [if_neg hp, if_neg hp]
      exact ⟨_, _, _, did_change (fun _ => rfl) rfl (fun p e => by cases e; exact hf)⟩
  | sleep =>
    dsimp only at h
    split at h
    · split at h
      · cases h
        exact ⟨_, _, _, did_pass hf⟩
      · cases h
    · split at h
      · cases h
        exact ⟨_, _, 0, did_to (Weak.Below.refl _) ⟨rfl, fun p e => by cases e; exact hf⟩⟩
      · cases h
  | adjLoad =>
    exact did_look (fun v n e => by cases e; exact ⟨rfl, fun p e => by cases e; exact hf⟩) h
  | adjTest old =>
    dsimp only at h
    split at h
    · split at h
      · split at h
        · cases h
          exact ⟨_, _, _, did_pass hf⟩
        · cases h
      · cases h
        exact ⟨_, _, 0, did_to (Weak.Below.refl _) ⟨rfl, fun p e => by cases e; exact hf⟩⟩
    · split at h
      · split at h
        · cases h
          exact ⟨_, _, _, did_change (fun h => absurd h (Nat.lt_irrefl _)) (checked_deliver hf _).1 (checked_deliver hf _).2⟩
        · cases h
      · refine did_look (fun v n e => ?_) h
        split at e
        · cases e
        · cases e
          exact ⟨rfl, fun p e => by cases e; exact hf⟩
  | add =>
    cases h
    obtain ⟨a, b, c, d, e, f, g⟩ := did_change (s := s) (i := i) (th := th) (acq := false) (rel := true) (op := op) (d := amount op) (k := 0) (had := 0)
      (fun h => absurd h (Nat.lt_irrefl _)) (posts_deliver hf (toRelease s.count (amount op)).toNat).1 (posts_deliver hf _).2
    exact ⟨_, _, _, ⟨a, b, c, d, e, f, g⟩⟩
  | post k =>
    cases h
    generalize hs1 : ({ s with mem := (rmw false true (fun v => v + 1) s.mem th.tv .sema).2.1 } : Sys) = s1
    obtain ⟨a, b, c, d, e, f, g⟩ := did_to (s := s1) (i := i) (th := th) (tv := (rmw false true (fun v => v + 1) s.mem th.tv .sema).2.2) (Weak.rmw_grows _ _ _ _) (posts_deliver hf (k - 1))
    subst hs1
    exact ⟨_, _, 0, ⟨a, b, c, d, e, f, fun h => absurd h (Nat.lt_irrefl _)⟩⟩
  | read =>
    refine did_look (fun v n e => ?_) h
    cases e
    exact ⟨by simp only [deliver, show takes op = false from hf]; rfl, fun p e => nomatch e⟩

/-! ### The balance -/

structure Bal (s : Sys) : Prop where
  fors : ∀ (j : Nat) (x : Th), s.threads[j]? = some x → ∀ op p, x.call = some (op, p) → For op p
  sum : returned s.log + (s.threads.map callHeld).sum = s.took.length

theorem sum_set {ts : List Th} {x : Th} (hi : ts[i]? = some th) : ((ts.set i x).map callHeld).sum + callHeld th = (ts.map callHeld).sum + callHeld x := by
  induction ts generalizing i with
  | nil => cases hi
  | cons t ts ih =>
    cases i with
    | zero =>
      cases hi
      simp only [List.set_cons_zero, List.map_cons, List.sum_cons]
      omega
    | succ i =>
      have := ih (i := i) hi
      simp only [List.set_cons_succ, List.map_cons, List.sum_cons]
      omega

theorem Bal.did (b : Bal s) (hi : s.threads[i]? = some th) {op : Op} {had : Nat} {nx : Next} {tv : TView Loc} {k : Nat} (hh : callHeld th = had)
    (d : Did s s' i th op had nx tv k) : Bal s' := by
  refine ⟨?_, ?_⟩
  · intro j x h op' p hc
    rw [d.threads] at h
    rcases get_set hi h with ⟨_, rfl⟩ | ⟨_, h⟩
    · cases nx with
      | «at» q =>
        cases hc
        exact d.next p rfl
      | ret r => cases hc
    · exact b.fors j x h op' p hc
  · have h1 := b.sum
    have h2 := d.deliver
    have h3 := sum_set (x := ⟨tv, callOf op nx⟩) hi
    rw [d.threads, d.log, d.took, List.length_append, List.length_replicate]
    cases nx with
    | «at» q =>
      have h4 : callHeld ⟨tv, callOf op (.at q)⟩ = heldOf q := rfl
      have h5 : WeakSema.deliver op (.at q) = heldOf q := rfl
      rw [h4] at h3
      rw [h5] at h2
      show returned s.log + _ = _
      omega
    | ret r =>
      have h4 : callHeld ⟨tv, callOf op (.ret r)⟩ = 0 := rfl
      have h5 : returned ((op, r) :: s.log) = WeakSema.deliver op (.ret r) + returned s.log := rfl
      rw [h4] at h3
      show returned ((op, r) :: s.log) + _ = _
      omega

theorem Bal.puts (b : Bal s) (hi : s.threads[i]? = some th) {mem : Mem Loc} {tv : TView Loc} : Bal (put s i th mem tv) := by
  refine ⟨?_, ?_⟩
  · intro j x h op p hc
    rcases get_set hi h with ⟨_, rfl⟩ | ⟨_, h⟩
    · exact b.fors i th hi op p hc
    · exact b.fors j x h op p hc
  · have h1 := b.sum
    have h3 := sum_set (x := ⟨tv, th.call⟩) hi
    have h4 : callHeld ⟨tv, th.call⟩ = callHeld th := rfl
    show returned s.log + ((s.threads.set i ⟨tv, th.call⟩).map callHeld).sum = s.took.length
    omega

theorem Bal.move (b : Bal s) {m : Move} (hm : move s m = some s') : Bal s' := by
  obtain ⟨th, hi, hm⟩ := Option.bind_eq_some_iff.mp hm
  cases m with
  | start i op =>
    unfold act at hm
    dsimp only at hm
    split at hm
    · rename_i hc
      cases hm
      exact b.did hi (by unfold callHeld; rw [hc]) (did_to (th := th) (Weak.Below.refl _) (begin_deliver op))
    · cases hm
  | go i w c =>
    unfold act at hm
    dsimp only at hm
    split at hm
    · rename_i op p e
      obtain ⟨nx, tv, k, d⟩ := step_did (b.fors i th hi op p e) hm
      exact b.did hi (by unfold callHeld; rw [e]) d
    · cases hm
  | read i x w acq =>
    unfold act at hm
    dsimp only at hm
    split at hm
    · cases hm
      exact b.puts hi
    · cases hm
  | write i x v rel => cases hm; exact b.puts hi
  | update i x v acq rel => cases hm; exact b.puts hi
  | change i x v => cases hm; exact b.puts hi

theorem Bal.run {ms : List Move} : ∀ {s s' : Sys}, Bal s → run s ms = some s' → Bal s' := by
  induction ms with
  | nil => intro s s' h hr; cases hr; exact h
  | cons m ms ih =>
    intro s s' h hr
    obtain ⟨t, ht, hr⟩ := Option.bind_eq_some_iff.mp hr
    exact ih (h.move ht) hr

theorem bal_init (base k : Nat) : Bal (init base k) := by
  refine ⟨?_, ?_⟩
  · intro j x h op p hc
    rw [show x = ⟨⟨bot, bot⟩, none⟩ from List.eq_of_mem_replicate (List.mem_of_getElem? h)] at hc
    cases hc
  · show 0 + ((List.replicate k (⟨⟨bot, bot⟩, none⟩ : Th)).map callHeld).sum = 0
    rw [List.map_replicate, List.sum_replicate_nat]
    simp [callHeld]

theorem Reach.bal {base k : Nat} (h : Reach base k s) : Bal s := by
  obtain ⟨ms, hr⟩ := h
  exact Bal.run (bal_init base k) hr

/-! ### Threads keep what they know -/

theorem put_sees {j : Nat} {u : View Loc} (h : Sees s j u) (hi : s.threads[i]? = some th) {x : Th} (hs : s'.threads = s.threads.set i x) (hb : Below th.tv.cur x.tv.cur) : Sees s' j u := by
  obtain ⟨y, hy, hu⟩ := h
  by_cases e : j = i
  · subst e
    rw [hi] at hy
    cases hy
    obtain ⟨hl, _⟩ := List.getElem?_eq_some_iff.mp hi
    exact ⟨x, by rw [hs, List.getElem?_set_self hl], hu.trans hb⟩
  · exact ⟨y, by rw [hs, List.getElem?_set_ne (Ne.symm e)]; exact hy, hu⟩

theorem move_sees {j : Nat} {u : View Loc} (b : Bal s) (h : Sees s j u) {m : Move} (hm : move s m = some s') : Sees s' j u := by
  obtain ⟨th, hi, hm⟩ := Option.bind_eq_some_iff.mp hm
  cases m with
  | start i op =>
    unfold act at hm
    dsimp only at hm
    split at hm
    · cases hm
      exact put_sees h hi (to_same s i op th.tv (begin op)).2.2.2.2 (Weak.Below.refl _)
    · cases hm
  | go i w c =>
    unfold act at hm
    dsimp only at hm
    split at hm
    · rename_i op p e
      obtain ⟨nx, tv, k, d⟩ := step_did (b.fors i th hi op p e) hm
      exact put_sees h hi d.threads d.grows
    · cases hm
  | read i x w acq =>
    unfold act at hm
    dsimp only at hm
    split at hm
    · rename_i v tv e
      cases hm
      exact put_sees h hi rfl ((Weak.load_get e).1)
    · cases hm
  | write i x v rel => cases hm; exact put_sees h hi rfl (Weak.below_join_left _ _)
  | update i x v acq rel => cases hm; exact put_sees h hi rfl ((Weak.below_join_left _ _).trans (Weak.below_join_left _ _))
  | change i x v => cases hm; exact put_sees h hi rfl (Weak.below_join_left _ _)

theorem run_sees {j : Nat} {u : View Loc} {ms : List Move} : ∀ {s s' : Sys}, Bal s → Sees s j u → run s ms = some s' → Sees s' j u := by
  induction ms with
  | nil => intro s s' _ h hr; cases hr; exact h
  | cons m ms ih =>
    intro s s' b h hr
    obtain ⟨t, ht, hr⟩ := Option.bind_eq_some_iff.mp hr
    exact ih (b.move ht) (move_sees b h ht) hr

end Verif.WeakSema
