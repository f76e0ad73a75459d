import Verif.Kernel.Lemmas
/-!
# Properties of the kernel
-/
namespace Verif.Kernel

/-! ### Arrays -/

/-- C179: for any history of calls, an array gives the results of a growing list, `length` is the number
of its elements, and an index outside, negative ones included, is an exception that changes nothing, as
long as there are fewer than 2^31 elements. -/
theorem C179_history_partial {α : Type u} (l : List α) (ops : List (ArrOp α))
    (h : (listRun l ops).1.length < 2147483648) :
    (arrRun (KArr.ofList l) ops).2 = (listRun l ops).2 ∧
      (arrRun (KArr.ofList l) ops).1.items = (listRun l ops).1 := by
  have hm := listRun_mono ops l
  have hl : (KArr.ofList l).len = (KArr.ofList l).items.length := asInt_id (by omega)
  have := arrRun_eq ops hl h
  exact ⟨this.1, this.2.1⟩

example : (listRun [1, 2] [.push 3, .get (-1), .set 0 7, .get 0, .length]).2 =
    [.unit, .outOfRange, .unit, .elem 7, .int 3] := by decide

/-- C179: the other constructors make such arrays. -/
theorem C179_made {α : Type u} : (KArr.empty : KArr α) = KArr.ofList [] ∧
    (∀ (d : α) (n : Nat), KArr.ofSize d n = .ok (KArr.ofList (List.replicate n d))) ∧
    (∀ (d : α) (n : Int), n < 0 → KArr.ofSize d n = .throw .lengthError) ∧
    ∀ (l : List α) (rest : List (Option α)),
      KArr.ofPtrs (l.map some ++ none :: rest) = .ok (KArr.ofList l) := by
  refine ⟨?_, fun d n => ?_, fun d n hn => if_pos hn, fun l rest => ?_⟩
  · have h0 : asInt ((0 : Nat) : Int) = ((0 : Nat) : Int) := asInt_id (by omega)
    unfold KArr.ofList
    rw [List.length_nil, h0]
    rfl
  · unfold KArr.ofSize KArr.ofList
    rw [if_neg (by omega), List.length_replicate]
    rfl
  · unfold KArr.ofPtrs KArr.ofList
    rw [readPtrs_ok, Outcome.bind_ok]

/-- C179 fails for big arrays: from 2^31 to 2^32 elements `length` is negative. -/
theorem C179_length_wrong {α : Type u} (d : α) {n : Nat} (h : 2147483648 ≤ n) (h' : n < 4294967296) :
    ∃ a, KArr.ofSize d n = .ok a ∧ a.items.length = n ∧ a.len < 0 :=
  ⟨_, C179_made.2.1 d n, List.length_replicate, by
    show asInt _ < 0
    rw [List.length_replicate]
    exact asInt_neg h h'⟩

/-- C180: a loop over an array sees each of the elements the array had at the start, once and in order,
even when the body of the loop adds elements to the array. -/
theorem C180_each_partial {α : Type u} (l : List α) (hn : l.length < 2147483648)
    (body : α → KArr α → KArr α)
    (hb : ∀ x b, b.items.take l.length = l → (body x b).items.take l.length = l)
    {fuel : Nat} (hf : l.length < fuel) : ∃ a, KArr.forEach fuel body (KArr.ofList l) = .ok (a, l) := by
  have := each_ok hn hb l.length fuel 0 (KArr.ofList l) (by omega) hf (List.take_length ..)
  unfold KArr.forEach
  have hl : (KArr.ofList l).len = l.length := asInt_id hn
  rw [hl]
  exact this

/-- A body that adds: it satisfies the condition of `C180_each_partial`. -/
example (l : List Nat) (x : Nat) (b : KArr Nat) (h : b.items.take l.length = l) :
    (b.push (x + 1)).items.take l.length = l := by
  have hlen : l.length ≤ b.items.length := by
    have := congrArg List.length h
    rw [List.length_take] at this
    omega
  show (b.items ++ [x + 1]).take l.length = l
  rw [List.take_append_of_le_length hlen, h]

example : KArr.forEach 4 (fun x b => b.push (x + 10)) (KArr.ofList [1, 2, 3]) =
    .ok (⟨[1, 2, 3, 11, 12, 13], 6⟩, [1, 2, 3]) := by decide +kernel

/-- C180 fails for big arrays: a loop over an array of 2^31 to 2^32 elements ends in undefined behaviour. -/
theorem C180_each_wrong {α : Type u} (d : α) {n : Nat} (h : 2147483648 ≤ n) (h' : n < 4294967296)
    {a : KArr α} (ha : KArr.ofSize d n = .ok a) {fuel : Nat} (hf : 2147483647 < fuel) :
    KArr.forEach fuel (fun _ b => b) a = .ub := by
  obtain ⟨a', h1, h2, h3⟩ := C179_length_wrong d h h'
  rw [h1] at ha
  cases ha
  exact each_huge h3 (by omega) 2147483647 fuel 0 (by omega) hf

/-! ### The start of a program -/

/-- C181: `Application` calls its function once, with exactly the arguments of `main`, and returns 0 if
the function returns; if it throws, whatever it throws, 1 is returned and one line printed, which holds
the message if it is an `Exception`. -/
theorem C181_start_partial (program : List String → Ending) (args : List String)
    (rest : List (Option String)) : ∃ s, application program args.length (args.map some ++ none :: rest) = .ok s ∧
      s.args = some args ∧
      (program args = .returns → s.result = 0 ∧ s.out = []) ∧
      (program args ≠ .returns → s.result = 1 ∧ ∃ line, s.out = [line]) ∧
      ∀ m, program args = .exception m → s.out = ["Application Exception: " ++ m] := by
  have h1 : ¬ (args.map some ++ none :: rest).length < args.length := by simp
  have h2 : ((args.map some ++ none :: rest).take args.length).all Option.isSome = true := by
    rw [List.take_append_of_le_length (by simp), List.take_of_length_le (by simp)]
    simp
  have h3 : KArr.ofPtrs (args.map some ++ none :: rest) = .ok (KArr.ofList args) := C179_made.2.2.2 args rest
  have h4 : (KArr.ofList args).items = args := rfl
  simp only [application, if_neg h1, if_pos h2, h3, Outcome.bind_ok, h4]
  cases hp : program args with
  | returns => exact ⟨_, rfl, rfl, fun _ => ⟨rfl, rfl⟩, fun h => absurd rfl h, fun m hm => (nomatch hm)⟩
  | exception msg =>
    exact ⟨_, rfl, rfl, fun h => (nomatch h), fun _ => ⟨rfl, _, rfl⟩, fun m hm => by cases hm; rfl⟩
  | error msg => exact ⟨_, rfl, rfl, fun h => (nomatch h), fun _ => ⟨rfl, _, rfl⟩, fun m hm => (nomatch hm)⟩
  | other => exact ⟨_, rfl, rfl, fun h => (nomatch h), fun _ => ⟨rfl, _, rfl⟩, fun m hm => (nomatch hm)⟩

example : application (fun args => if args.length = 2 then .exception "bad" else .returns) 2
    [some "prog", some "x", none, some "PATH=/bin"] =
      .ok ⟨some ["prog", "x"], ["Application Exception: bad"], 1⟩ := by decide

/-- C181 fails for errors: the message of an `Error` is never printed. -/
theorem C181_error_wrong (args : List String) (rest : List (Option String)) (m : String) :
    application (fun _ => .error m) args.length (args.map some ++ none :: rest) =
      .ok ⟨some args, ["Unhandled Exception"], 1⟩ := by
  have h1 : ¬ (args.map some ++ none :: rest).length < args.length := by simp
  have h2 : ((args.map some ++ none :: rest).take args.length).all Option.isSome = true := by
    rw [List.take_append_of_le_length (by simp), List.take_of_length_le (by simp)]
    simp
  have h3 : KArr.ofPtrs (args.map some ++ none :: rest) = .ok (KArr.ofList args) := C179_made.2.2.2 args rest
  simp only [application, if_neg h1, if_pos h2, h3, Outcome.bind_ok]
  rfl

/-! ### Objects -/

/-- C182: `equals` on objects is reflexive, symmetric and transitive, and equal objects have the same
hash code, whatever their classes. -/
theorem C182_equivalence : (∀ a, objEquals a a = true) ∧ (∀ a b, objEquals a b = objEquals b a) ∧
    (∀ a b c, objEquals a b = true → objEquals b c = true → objEquals a c = true) ∧
    ∀ a b, objEquals a b = true → hashCode a = hashCode b := by
  have key : ∀ a b, objEquals a b = true ↔ hashCode a = hashCode b := fun a b => by
    unfold objEquals
    split <;> simp_all
  refine ⟨fun a => (key a a).mpr rfl, fun a b => ?_, fun a b c h1 h2 => ?_, fun a b h => (key a b).mp h⟩
  · rw [Bool.eq_iff_iff, key, key]
    exact ⟨Eq.symm, Eq.symm⟩
  · exact (key a c).mpr (((key a b).mp h1).trans ((key b c).mp h2))

/-- C182: two objects of classes that override nothing are equal only if they are the same, provided
they lie in one 4 GiB of memory. -/
theorem C182_identity_partial {a b : BitVec 64} (h : a.toNat / 4294967296 = b.toNat / 4294967296) :
    objEquals (.plain a) (.plain b) = true ↔ a = b := by
  show (if a.setWidth 32 = b.setWidth 32 then true else false) = true ↔ a = b
  have hab : a.setWidth 32 = b.setWidth 32 ↔ a = b := by
    constructor
    · intro he
      have he' := congrArg BitVec.toNat he
      rw [BitVec.toNat_setWidth, BitVec.toNat_setWidth] at he'
      apply BitVec.eq_of_toNat_eq
      have e : (2 : Nat) ^ 32 = 4294967296 := by decide
      rw [e] at he'
      omega
    · intro he; rw [he]
  rw [← hab]
  split <;> simp_all

example : objEquals (.plain 0x7f0000001000#64) (.plain 0x7f0000001010#64) = false := by decide

/-- C182 fails for values: a UUID equals the one with its halves exchanged, an `Integer` equals a `Bytes`
of the same number, and two distinct objects 4 GiB apart are equal. -/
theorem C182_equal_wrong : (∀ hi lo, objEquals (.uuid hi lo) (.uuid lo hi) = true) ∧
    (∀ v, objEquals (.integer (BitVec.setWidth 32 v)) (.byte v) = true) ∧
    ∀ a : BitVec 64, objEquals (.plain a) (.plain (a + 4294967296#64)) = true := by
  refine ⟨fun hi lo => ?_, fun v => ?_, fun a => ?_⟩
  · have : hashCode (.uuid hi lo) = hashCode (.uuid lo hi) := by
      simp only [hashCode]
      rw [BitVec.xor_comm hi lo]
    exact if_pos this
  · exact if_pos rfl
  · have : hashCode (.plain a) = hashCode (.plain (a + 4294967296#64)) := by
      simp only [hashCode]
      apply BitVec.eq_of_toNat_eq
      rw [BitVec.toNat_setWidth, BitVec.toNat_setWidth, BitVec.toNat_add]
      have e : (4294967296#64).toNat = 4294967296 := by decide
      have e2 : (2 : Nat) ^ 32 = 4294967296 := by decide
      have e3 : (2 : Nat) ^ 64 = 18446744073709551616 := by decide
      rw [e, e2, e3]
      omega
    exact if_pos this

/-! ### instanceof -/

/-- `a` is `b` or derives from it. -/
inductive Derives (parent : Nat → Option Nat) : Nat → Nat → Prop
  | refl (a) : Derives parent a a
  | step {a b c} : parent a = some b → Derives parent b c → Derives parent a c

/-- C183: `instanceof` is true for the class of the object, and never for a class it does not derive from. -/
theorem C183_exact_partial (parent : Nat → Option Nat) (base dyn : Nat) :
    instanceOf dyn dyn = true ∧ (instanceOf base dyn = true → Derives parent dyn base) := by
  refine ⟨by simp [instanceOf], fun h => ?_⟩
  have : dyn = base := by simpa [instanceOf] using h
  rw [this]
  exact .refl _

/-- C183 fails for base classes: it is false for every class the object's class properly derives from. -/
theorem C183_derived_wrong (parent : Nat → Option Nat) {base dyn : Nat} (_ : Derives parent dyn base)
    (hne : dyn ≠ base) : instanceOf base dyn = false := by
  simpa [instanceOf] using hne

/-- 2 derives from 1, which derives from 0. -/
example : Derives (fun c => if c = 2 then some 1 else if c = 1 then some 0 else none) 2 0 :=
  .step rfl (.step rfl (.refl _))

/-! ### Enumerations -/

/-- C184: for constants numbered from zero on, `compareTo` is a total order by their numbers: its sign
is right, it is zero exactly for equal constants, and exchanging the two negates it. -/
theorem C184_compare_partial {a b : EnumC} (ha : 0 ≤ a.ordinal) (ha' : a.ordinal ≤ INT_MAX)
    (hb : 0 ≤ b.ordinal) (hb' : b.ordinal ≤ INT_MAX) : ∃ r, enumCompare a b = .ok r ∧
      (r < 0 ↔ a.ordinal < b.ordinal) ∧ (r = 0 ↔ enumEquals a b = true) ∧ enumCompare b a = .ok (-r) := by
  unfold INT_MAX at ha' hb'
  refine ⟨a.ordinal - b.ordinal, chk32_ok (by unfold INT_MIN; omega) (by unfold INT_MAX; omega), by omega, ?_, ?_⟩
  · unfold enumEquals
    rw [beq_iff_eq]
    omega
  · have : -(a.ordinal - b.ordinal) = b.ordinal - a.ordinal := by omega
    rw [this]
    exact chk32_ok (by unfold INT_MIN; omega) (by unfold INT_MAX; omega)

example : enumCompare ⟨"A", 0⟩ ⟨"B", 2147483647⟩ = .ok (-2147483647) := by decide

/-- C184 fails for other numbers: if the difference does not fit, comparing is undefined. -/
theorem C184_compare_wrong {a b : EnumC} (h : INT_MAX < a.ordinal - b.ordinal) : enumCompare a b = .ub := by
  unfold enumCompare chk32
  rw [if_neg (by omega)]

example : INT_MAX < (⟨"A", 2147483647⟩ : EnumC).ordinal - (⟨"B", -1⟩ : EnumC).ordinal := by decide

/-! ### Throwables -/

/-- C185: the message and, if one was given, the cause are those given. -/
theorem C185_given_partial (m : String) (c : Option Nat) :
    getMessage (makeThr (.message m)) = m ∧ getMessage (makeThr (.both m c)) = m ∧
      getCause (makeThr (.both m c)) = .ok c ∧ getCause (makeThr (.cause c)) = .ok c ∧
      getMessage (makeThr .plain) = "" ∧ getMessage (makeThr (.cause c)) = "" :=
  ⟨rfl, rfl, rfl, rfl, rfl, rfl⟩

/-- C185 fails without a cause: asking for it is undefined. -/
theorem C185_cause_wrong (m : String) : getCause (makeThr .plain) = .ub ∧ getCause (makeThr (.message m)) = .ub :=
  ⟨rfl, rfl⟩

/-! ### Sets -/

/-- C186: after any history of calls a set holds, in strictly increasing order, exactly one of each kind
of the elements added since the last `clear`, the one added first. -/
theorem C186_content {α : Type u} {lt : α → α → Bool} (h : WeakOrder lt) (ops : List (SetOp α)) :
    (setRun lt [] ops).1.Pairwise (fun a b => lt a b = true) ∧
      (∀ x ∈ added [] ops, ∃ y ∈ (setRun lt [] ops).1, same lt x y) ∧
      ∀ y ∈ (setRun lt [] ops).1, ∃ l₁ l₂, added [] ops = l₁ ++ y :: l₂ ∧ ∀ x ∈ l₁, ¬ same lt x y := by
  have := setInv_run h ops (s := []) (l := [])
    ⟨List.Pairwise.nil, fun x hx => (nomatch hx), fun y hy => (nomatch hy)⟩
  exact ⟨this.sorted, this.all, this.first⟩

/-- C186: `size` is the number of these elements, below 2^31, and `isEmpty` tells whether there are any. -/
theorem C186_size {α : Type u} (lt : α → α → Bool) (s : List α) :
    (s.length < 2147483648 → (setStep lt s .size).2 = .int s.length) ∧
      ((setStep lt s .isEmpty).2 = .bool true ↔ s = []) := by
  refine ⟨fun h => congrArg SetRes.int (asInt_id h), ?_⟩
  cases s <;> simp [setStep]

/-- Numbers in tens: elements of one ten are equivalent. -/
def byTens (a b : Nat) : Bool := decide (a / 10 < b / 10)

example : WeakOrder byTens :=
  ⟨fun x => by simp [byTens], fun x y z h1 h2 => by simp only [byTens, decide_eq_true_eq] at *; omega,
    fun x y z h => by simp only [byTens, decide_eq_true_eq] at *; omega⟩

example : (setRun byTens [] [.add 31, .add 12, .add 15, .add 39, .add 2]).1 = [2, 12, 31] := by decide

/-- C187 fails: `add` says true for an element that is there already, `contains` for one that is not,
`remove` says true and removes nothing, `addAll` adds nothing. -/
theorem C187_answers_wrong {α : Type u} {lt : α → α → Bool} (s : List α) (x : α) (c : List α) :
    (setStep lt s (.add x)).2 = .bool true ∧ (setStep lt s (.contains x)).2 = .bool true ∧
      setStep lt s (.remove x) = (s, .bool true) ∧ setStep lt s (.addAll c) = (s, .bool true) ∧
      setStep lt s (.equals c) = (s, .bool true) ∧ setStep lt s (.removeAll c) = (s, .bool true) ∧
      setStep lt s (.retainAll c) = (s, .bool true) :=
  ⟨rfl, rfl, rfl, rfl, rfl, rfl, rfl⟩

end Verif.Kernel
