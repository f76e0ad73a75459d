import Verif.TokenQueue.Props
import Verif.TokenQueue.EndRing
/-!
# The end of a queue with a producer token: properties
-/
namespace Verif.TokenQueue

variable {E : Type} {c : Cfg} {s s' : Sys E}

theorem ends_of (h : Reach c s) (hb : NoBulkFailed s.log) (hq : s.quiet) (hp : s.pp = .idle) :
    ∃ g, Ends c g s ∧ g.vals = sent s.log ∧ s.head = (taken s.log).length := by
  obtain ⟨g, own, fate, hi⟩ := good_reach h (unspoilt h hb)
  obtain ⟨⟨hw, -⟩, hd⟩ := ends_reach h hb
  have hr := hi.prod
  rw [hp] at hr hw
  have h1 : g.vals = sent s.log := hr.vals
  have h2 : g.hi = ceil c.B s.tail := hr.hi
  refine ⟨g, ⟨hi.mem, hr.mid, h2, ?_, ?_, by rw [h2]; exact hw⟩, h1, (quiet_head hi hq).symm⟩
  · rw [h1]; exact hi.log.tail.symm
  · intro j hj
    rcases hd j hj with h3 | ⟨t, h3⟩
    · exact h3
    · rw [hq t] at h3; exact absurd h3 id

/-! ## Elements -/

/-- C207: while no `enqueue_bulk` fails, a queue that is destroyed when no call is under way destroys exactly
the elements sent that were not taken, each once and in their order, and none is left. (With `C194_whole_partial`
the elements taken are the first ones sent.) -/
theorem C207_elements_partial (h : Reach c s) (hb : NoBulkFailed s.log) (hq : s.quiet) (hp : s.pp = .idle) :
    ∃ r, endElems c s = some r ∧ r.dead = (sent s.log).drop (taken s.log).length ∧
      ∀ b j, j < c.B → (r.blk b).slots j = none := by
  obtain ⟨g, he, h1, h2⟩ := ends_of h hb hq hp
  obtain ⟨r, g1, g2, g3⟩ := end_prod he
  exact ⟨r, g1, by rw [g2, h1, h2], g3⟩

/-! ## Blocks -/

/-- C208: whatever calls failed before, the destructor releases every block the producer took from the pool or
the allocator, and each once. (That its first half, which destroys the elements, is safe is C207.) -/
theorem C208_blocks (h : Reach c s) :
    ∃ l, endBlocks s = some l ∧ l.Nodup ∧ ∀ b, b ∈ l ↔ b < s.made :=
  end_blocks (circ_reach h).1

/-- `m` elements go in and `n` are taken out. -/
def w4 (m n : Nat) : List (Move Nat) :=
  [.bulk true (List.range m)] ++ List.replicate (m + 2 * ((m + 31) / 32) + 4) (.prod true) ++ [.deq 0 n] ++
    List.replicate (n + 2 * ((n + 31) / 32) + 9) (.cons 0)

theorem w4_runs : ∃ s l, run c0 (start c0 true) (w4 70 33) = some s ∧ s.quiet ∧ s.pp = .idle ∧ l = List.range 70 ∧
    s.log = [.bulk l true, .deq ⟨33, 1⟩ 0 (List.range 33)] ∧ s.made = 3 := by
  have h : ((run c0 (start c0 true) (w4 70 33)).map fun s =>
      (decide (s.log = [.bulk (List.range 70) true, .deq ⟨33, 1⟩ 0 (List.range 33)]),
        match s.pos 0 with | .idle => true | _ => false, match s.pp with | .idle => true | _ => false, s.made)) =
      some (true, true, true, 3) := by
    decide +kernel
  cases hr : run c0 (start c0 true) (w4 70 33) with
  | none => rw [hr] at h; cases h
  | some s =>
    rw [hr] at h
    injection h with h
    injection h with h1 h2
    injection h2 with h2 h3
    injection h3 with h3 h4
    refine ⟨s, _, rfl, fun t => ?_, ?_, rfl, of_decide_eq_true h1, h4⟩
    · by_cases e : t = 0
      · subst e
        cases hp : s.pos 0 <;> rw [hp] at h2 <;> first | rfl | cases h2
      · rw [pos_run hr t]
        · rfl
        · intro m hm max
          simp only [w4, List.mem_append, List.mem_cons, List.not_mem_nil, or_false, List.mem_replicate] at hm
          rcases hm with ((hm | ⟨-, hm⟩) | hm) | ⟨-, hm⟩ <;> subst hm <;>
            (constructor <;> intro e' <;> injection e' <;> omega)
    · cases hp : s.pp <;> rw [hp] at h3 <;> first | rfl | cases h3

example : ∃ s : Sys Nat, Reach c0 s ∧ NoBulkFailed s.log ∧ s.quiet ∧ s.pp = .idle ∧
    (sent s.log).drop (taken s.log).length = (List.range 37).map (33 + ·) ∧ s.made = 3 := by
  obtain ⟨s, l, h1, h2, h3, h4, h5, h6⟩ := w4_runs
  refine ⟨s, ⟨true, _, h1⟩, ?_, h2, h3, ?_, h6⟩
  · intro l; rw [h5]; simp
  · rw [h5, h4]; decide +kernel

/-- 1024 elements go in, which fills the first block index, 33 are taken out, and `try_enqueue_bulk` of 33
more takes the first block again, has no place in the index for a second one and fails. -/
def w5 : List (Move Nat) := w4 1024 33 ++ [.bulk false (List.range 33)] ++ List.replicate 3 (.prod true)

theorem w5_runs : ∃ s l l', run c0 (start c0 true) w5 = some s ∧ s.quiet ∧ s.pp = .idle ∧ s.bad = false ∧
    l = List.range 1024 ∧ s.log = [.bulk l true, .deq ⟨33, 1⟩ 0 (List.range 33), .bulk l' false] ∧
    endElems c0 s = none := by
  have h : ((run c0 (start c0 true) w5).map fun s =>
      (decide (s.log = [.bulk (List.range 1024) true, .deq ⟨33, 1⟩ 0 (List.range 33), .bulk (List.range 33) false]),
        match s.pos 0 with | .idle => true | _ => false, match s.pp with | .idle => true | _ => false,
        s.bad, (endElems c0 s).isNone)) =
      some (true, true, true, false, true) := by
    decide +kernel
  cases hr : run c0 (start c0 true) w5 with
  | none => rw [hr] at h; cases h
  | some s =>
    rw [hr] at h
    injection h with h
    injection h with h1 h2
    injection h2 with h2 h3
    injection h3 with h3 h4
    injection h4 with h4 h5
    refine ⟨s, _, _, rfl, fun t => ?_, ?_, h4, rfl, of_decide_eq_true h1, Option.isNone_iff_eq_none.1 h5⟩
    · by_cases e : t = 0
      · subst e
        cases hp : s.pos 0 <;> rw [hp] at h2 <;> first | rfl | cases h2
      · rw [pos_run hr t]
        · rfl
        · intro m hm max
          simp only [w5, w4, List.mem_append, List.mem_cons, List.not_mem_nil, or_false, List.mem_replicate] at hm
          rcases hm with ((((hm | ⟨-, hm⟩) | hm) | ⟨-, hm⟩) | hm) | ⟨-, hm⟩ <;> subst hm <;>
            (constructor <;> intro e' <;> injection e' <;> omega)
    · cases hp : s.pp <;> rw [hp] at h3 <;> first | rfl | cases h3

example : ∃ s : Sys Nat, Reach c0 s ∧ ¬ NoBulkFailed s.log := by
  obtain ⟨s, l, l', h1, h2, h3, h4, h5, h6, h7⟩ := w5_runs
  exact ⟨s, ⟨true, _, h1⟩, fun h => h l' (by rw [h6]; simp)⟩

/-- C207: after a `try_enqueue_bulk` that failed the destructor may destroy an element a consumer has moved out
and destroyed, although until then nothing undefined has happened. -/
theorem C207_elements_wrong : ∃ s : Sys Nat, Reach c0 s ∧ s.quiet ∧ s.pp = .idle ∧ s.bad = false ∧
    sent s.log = List.range 1024 ∧ taken s.log = List.range 33 ∧ endElems c0 s = none := by
  obtain ⟨s, l, l', h1, h2, h3, h4, h5, h6, h7⟩ := w5_runs
  refine ⟨s, ⟨true, _, h1⟩, h2, h3, h4, ?_, ?_, h7⟩
  · rw [h6, ← h5]
    show l ++ ([] ++ ([] ++ [])) = l
    rw [List.nil_append, List.nil_append, List.append_nil]
  · rw [h6]
    show [] ++ (List.range 33 ++ ([] ++ [])) = _
    rw [List.nil_append, List.nil_append, List.append_nil]

end Verif.TokenQueue
