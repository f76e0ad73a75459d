import Verif.Cuckoo.Spec
/-! # Lemmas about the cuckoo table -/
namespace Verif.Cuckoo

variable {K V : Type} [DecidableEq K]

/-! ## Indexes -/

/-- The number whose low bits are the second bucket. -/
def other (hash : BitVec 64) : Nat := hash.toNat ^^^ tagProduct (partialKey hash)

theorem and_mask (x n : Nat) : x &&& hashmask n = x % 2 ^ n := by
  unfold hashmask hashsize
  exact Nat.and_two_pow_sub_one_eq_mod x n

theorem first_eq (hp : Nat) (hash : BitVec 64) : first hp hash = hash.toNat % 2 ^ hp := by
  unfold first indexHash
  exact and_mask _ _

theorem second_eq (hp : Nat) (hash : BitVec 64) : second hp hash = other hash % 2 ^ hp := by
  unfold second altIndex indexHash other
  rw [and_mask, and_mask, Nat.xor_mod_two_pow, Nat.xor_mod_two_pow, Nat.mod_mod]

theorem alt_first (hp : Nat) (hash : BitVec 64) : altIndex hp (partialKey hash) (first hp hash) = second hp hash := rfl

theorem alt_second (hp : Nat) (hash : BitVec 64) : altIndex hp (partialKey hash) (second hp hash) = first hp hash := by
  rw [second_eq, first_eq]
  unfold altIndex other
  rw [and_mask, Nat.xor_mod_two_pow, Nat.mod_mod, ← Nat.xor_mod_two_pow, Nat.xor_assoc, Nat.xor_self, Nat.xor_zero]

theorem lockInd_eq (cfg : Cfg K) (i : Nat) : lockInd cfg i = i % 2 ^ cfg.lockBits := by
  unfold lockInd numLocks
  exact Nat.and_two_pow_sub_one_eq_mod i _

theorem lockInd_lt (cfg : Cfg K) (i : Nat) : lockInd cfg i < numLocks cfg := by
  rw [lockInd_eq]
  exact Nat.mod_lt _ (Nat.two_pow_pos _)

theorem mod_mod_pow (x : Nat) {a b : Nat} (h : a ≤ b) : x % 2 ^ b % 2 ^ a = x % 2 ^ a :=
  Nat.mod_mod_of_dvd x (Nat.pow_dvd_pow 2 h)

theorem lockInd_first (cfg : Cfg K) (hp : Nat) (hash : BitVec 64) (h : cfg.lockBits ≤ hp) :
    lockInd cfg (first hp hash) = hash.toNat % 2 ^ cfg.lockBits := by
  rw [lockInd_eq, first_eq, mod_mod_pow _ h]

theorem lockInd_second (cfg : Cfg K) (hp : Nat) (hash : BitVec 64) (h : cfg.lockBits ≤ hp) :
    lockInd cfg (second hp hash) = other hash % 2 ^ cfg.lockBits := by
  rw [lockInd_eq, second_eq, mod_mod_pow _ h]

theorem lockInd_add (cfg : Cfg K) (hp i : Nat) (h : cfg.lockBits ≤ hp) :
    lockInd cfg (i + hashsize hp) = lockInd cfg i := by
  rw [lockInd_eq, lockInd_eq]
  unfold hashsize
  obtain ⟨d, hd⟩ := Nat.pow_dvd_pow 2 h
  rw [hd, Nat.add_mul_mod_self_left]

theorem mod_double (x n : Nat) : x % 2 ^ (n + 1) = x % 2 ^ n ∨ x % 2 ^ (n + 1) = x % 2 ^ n + 2 ^ n := by
  rw [Nat.pow_succ, Nat.mod_mul]
  rcases Nat.mod_two_eq_zero_or_one (x / 2 ^ n) with h | h <;> rw [h]
  · left; simp
  · right; simp

/-- The buckets a key may be in. -/
def Home (cfg : Cfg K) (hp : Nat) (k : K) (i : Nat) : Prop :=
  i = first hp (cfg.hash k) ∨ i = second hp (cfg.hash k)

theorem Home.lt {cfg : Cfg K} {hp : Nat} {k : K} {i : Nat} (h : Home cfg hp k i) : i < 2 ^ hp := by
  rcases h with rfl | rfl
  · rw [first_eq]; exact Nat.mod_lt _ (Nat.two_pow_pos _)
  · rw [second_eq]; exact Nat.mod_lt _ (Nat.two_pow_pos _)

theorem Home.alt {cfg : Cfg K} {hp : Nat} {k : K} {i : Nat} (h : Home cfg hp k i) :
    Home cfg hp k (altIndex hp (partialKey (cfg.hash k)) i) := by
  rcases h with rfl | rfl
  · exact Or.inr rfl
  · exact Or.inl (alt_second _ _)

/-- A key that moves up goes to a bucket of its own. -/
theorem home_up {cfg : Cfg K} {hp : Nat} {k : K} {i : Nat}
    (h : (i = first hp (cfg.hash k) ∧ first (hp + 1) (cfg.hash k) = i + hashsize hp) ∨
         (i = second hp (cfg.hash k) ∧ second (hp + 1) (cfg.hash k) = i + hashsize hp)) :
    Home cfg (hp + 1) k (i + hashsize hp) := by
  rcases h with ⟨_, h⟩ | ⟨_, h⟩
  · exact Or.inl h.symm
  · exact Or.inr h.symm

/-- A key that does not move up stays in a bucket of its own. -/
theorem home_stay {cfg : Cfg K} {hp : Nat} {k : K} {i : Nat} (hh : Home cfg hp k i)
    (h : ¬ ((i = first hp (cfg.hash k) ∧ first (hp + 1) (cfg.hash k) = i + hashsize hp) ∨
         (i = second hp (cfg.hash k) ∧ second (hp + 1) (cfg.hash k) = i + hashsize hp))) :
    Home cfg (hp + 1) k i := by
  rcases hh with hi | hi
  · rcases mod_double (cfg.hash k).toNat hp with h' | h'
    · left; rw [first_eq, h', ← first_eq, ← hi]
    · exfalso; apply h; left; refine ⟨hi, ?_⟩
      rw [first_eq, h', hi, first_eq]; rfl
  · rcases mod_double (other (cfg.hash k)) hp with h' | h'
    · right; rw [second_eq, h', ← second_eq, ← hi]
    · exfalso; apply h; right; refine ⟨hi, ?_⟩
      rw [second_eq, h', hi, second_eq]; rfl

/-! ## Places -/

/-- A slot of the current or of the old buckets. -/
inductive Place
  | cur (i s : Nat)
  | old (i s : Nat)
  deriving DecidableEq

/-- The pairs in the table: the current buckets, and the old ones whose lock is not
migrated and that have not been moved. -/
def live (cfg : Cfg K) (t : Table K V) (moved : Nat → Nat → Bool) : Place → Option (Entry K V)
  | .cur i s => t.cur i s
  | .old i s => if t.migrated (lockInd cfg i) || moved i s then none else t.old i s

def none2 : Nat → Nat → Bool := fun _ _ => false

/-- A place fits a key. -/
def Fits (cfg : Cfg K) (hp oldHp : Nat) (k : K) : Place → Prop
  | .cur i s => s < SLOTS ∧ Home cfg hp k i
  | .old i s => s < SLOTS ∧ Home cfg oldHp k i

/-- The pairs at `L` are those of the map. -/
structure Rep (cfg : Cfg K) (hp oldHp : Nat) (L : Place → Option (Entry K V)) (m : K → Option V) : Prop where
  part : ∀ p e, L p = some e → e.part = partialKey (cfg.hash e.key)
  fits : ∀ p e, L p = some e → Fits cfg hp oldHp e.key p
  val : ∀ p e, L p = some e → m e.key = some e.val
  all : ∀ k v, m k = some v → ∃ p e, L p = some e ∧ e.key = k
  once : ∀ p q e e', L p = some e → L q = some e' → e.key = e'.key → p = q

/-- `L` with another pair at `p`. -/
def upd (L : Place → Option (Entry K V)) (p : Place) (x : Option (Entry K V)) : Place → Option (Entry K V) :=
  fun q => if q = p then x else L q

theorem upd_self (L : Place → Option (Entry K V)) (p : Place) (x : Option (Entry K V)) : upd L p x p = x := if_pos rfl

theorem upd_other (L : Place → Option (Entry K V)) {p q : Place} (x : Option (Entry K V)) (h : q ≠ p) : upd L p x q = L q :=
  if_neg h

theorem live_put (cfg : Cfg K) (t : Table K V) (moved : Nat → Nat → Bool) (i s : Nat) (x : Option (Entry K V)) :
    live cfg { t with cur := t.cur.put i s x } moved = upd (live cfg t moved) (.cur i s) x := by
  funext p
  cases p with
  | cur j r =>
    show (if j = i ∧ r = s then x else t.cur j r) = (if Place.cur j r = Place.cur i s then x else t.cur j r)
    by_cases h : j = i ∧ r = s
    · obtain ⟨rfl, rfl⟩ := h; simp
    · rw [if_neg h, if_neg]
      intro hc; injection hc with h1 h2; exact h ⟨h1, h2⟩
  | old j r =>
    unfold upd
    rw [if_neg (by intro hc; cases hc)]
    rfl

/-- A pair moves to a free place. -/
theorem Rep.move {cfg : Cfg K} {hp oldHp : Nat} {L : Place → Option (Entry K V)} {m : K → Option V}
    (h : Rep cfg hp oldHp L m) {p q : Place} {e : Entry K V} (hp' : L p = some e) (hq : L q = none)
    (hf : Fits cfg hp oldHp e.key q) : Rep cfg hp oldHp (upd (upd L q (some e)) p none) m := by
  have hpq : p ≠ q := by intro hc; rw [hc, hq] at hp'; cases hp'
  have get : ∀ r x, upd (upd L q (some e)) p none r = some x → (r = q ∧ x = e) ∨ (r ≠ p ∧ r ≠ q ∧ L r = some x) := by
    intro r x hr
    by_cases h1 : r = p
    · rw [h1, upd_self] at hr; cases hr
    · rw [upd_other _ _ h1] at hr
      by_cases h2 : r = q
      · rw [h2, upd_self] at hr; injection hr with hr; exact Or.inl ⟨h2, hr.symm⟩
      · rw [upd_other _ _ h2] at hr; exact Or.inr ⟨h1, h2, hr⟩
  refine ⟨?_, ?_, ?_, ?_, ?_⟩
  · intro r x hr
    rcases get r x hr with ⟨_, rfl⟩ | ⟨_, _, h'⟩
    · exact h.part p _ hp'
    · exact h.part r x h'
  · intro r x hr
    rcases get r x hr with ⟨rfl, rfl⟩ | ⟨_, _, h'⟩
    · exact hf
    · exact h.fits r x h'
  · intro r x hr
    rcases get r x hr with ⟨_, rfl⟩ | ⟨_, _, h'⟩
    · exact h.val p _ hp'
    · exact h.val r x h'
  · intro k v hk
    obtain ⟨r, x, hr, hx⟩ := h.all k v hk
    by_cases h1 : r = p
    · subst h1
      rw [hp'] at hr; injection hr with hr; subst hr
      exact ⟨q, e, by rw [upd_other _ _ (Ne.symm hpq), upd_self], hx⟩
    · refine ⟨r, x, ?_, hx⟩
      have h2 : r ≠ q := by intro hc; rw [hc, hq] at hr; cases hr
      rw [upd_other _ _ h1, upd_other _ _ h2]; exact hr
  · intro r r' x x' hr hr' hk
    rcases get r x hr with ⟨h1, h2⟩ | ⟨h1, h2, h3⟩ <;> rcases get r' x' hr' with ⟨h1', h2'⟩ | ⟨h1', h2', h3'⟩
    · rw [h1, h1']
    · exfalso; apply h1'
      exact (h.once p r' e x' hp' h3' (by rw [← h2]; exact hk)).symm
    · exfalso; apply h1
      exact h.once r p x e h3 hp' (by rw [← h2']; exact hk)
    · exact h.once r r' x x' h3 h3' hk

/-- A new key comes to a free place. -/
theorem Rep.add {cfg : Cfg K} {hp oldHp : Nat} {L : Place → Option (Entry K V)} {m : K → Option V}
    (h : Rep cfg hp oldHp L m) {q : Place} {k : K} (v : V) (hq : L q = none) (hm : m k = none)
    (hf : Fits cfg hp oldHp k q) :
    Rep cfg hp oldHp (upd L q (some ⟨k, partialKey (cfg.hash k), v⟩)) (update m k (some v)) := by
  have get : ∀ r x, upd L q (some ⟨k, partialKey (cfg.hash k), v⟩) r = some x →
      (r = q ∧ x = ⟨k, partialKey (cfg.hash k), v⟩) ∨ (r ≠ q ∧ L r = some x ∧ x.key ≠ k) := by
    intro r x hr
    by_cases h2 : r = q
    · rw [h2, upd_self] at hr; injection hr with hr; exact Or.inl ⟨h2, hr.symm⟩
    · rw [upd_other _ _ h2] at hr
      refine Or.inr ⟨h2, hr, ?_⟩
      intro hc
      have := h.val r x hr
      rw [hc, hm] at this; cases this
  refine ⟨?_, ?_, ?_, ?_, ?_⟩
  · intro r x hr
    rcases get r x hr with ⟨_, rfl⟩ | ⟨_, h', _⟩
    · rfl
    · exact h.part r x h'
  · intro r x hr
    rcases get r x hr with ⟨rfl, rfl⟩ | ⟨_, h', _⟩
    · exact hf
    · exact h.fits r x h'
  · intro r x hr
    rcases get r x hr with ⟨_, rfl⟩ | ⟨_, h', hne⟩
    · exact if_pos rfl
    · unfold update; rw [if_neg hne]; exact h.val r x h'
  · intro k' v' hk
    by_cases hc : k' = k
    · subst hc
      exact ⟨q, _, upd_self _ _ _, rfl⟩
    · unfold update at hk
      rw [if_neg hc] at hk
      obtain ⟨r, x, hr, hx⟩ := h.all k' v' hk
      have : r ≠ q := by intro hc; rw [hc, hq] at hr; cases hr
      exact ⟨r, x, by rw [upd_other _ _ this]; exact hr, hx⟩
  · intro r r' x x' hr hr' hk
    rcases get r x hr with ⟨h1, h2⟩ | ⟨h1, h2, h3⟩ <;> rcases get r' x' hr' with ⟨h1', h2'⟩ | ⟨h1', h2', h3'⟩
    · rw [h1, h1']
    · exfalso; apply h3'; rw [← hk, h2]
    · exfalso; apply h3; rw [hk, h2']
    · exact h.once r r' x x' h2 h2' hk

/-- A key goes. -/
theorem Rep.del {cfg : Cfg K} {hp oldHp : Nat} {L : Place → Option (Entry K V)} {m : K → Option V}
    (h : Rep cfg hp oldHp L m) {p : Place} {e : Entry K V} (hp' : L p = some e) :
    Rep cfg hp oldHp (upd L p none) (update m e.key none) := by
  have get : ∀ r x, upd L p none r = some x → (r ≠ p ∧ L r = some x ∧ x.key ≠ e.key) := by
    intro r x hr
    by_cases h2 : r = p
    · rw [h2, upd_self] at hr; cases hr
    · rw [upd_other _ _ h2] at hr
      exact ⟨h2, hr, fun hc => h2 (h.once r p x e hr hp' hc)⟩
  refine ⟨?_, ?_, ?_, ?_, ?_⟩
  · intro r x hr; exact h.part r x (get r x hr).2.1
  · intro r x hr; exact h.fits r x (get r x hr).2.1
  · intro r x hr
    unfold update; rw [if_neg (get r x hr).2.2]; exact h.val r x (get r x hr).2.1
  · intro k v hk
    unfold update at hk
    by_cases hc : k = e.key
    · rw [if_pos hc] at hk; cases hk
    · rw [if_neg hc] at hk
      obtain ⟨r, x, hr, hx⟩ := h.all k v hk
      have : r ≠ p := by
        intro h'; subst h'; rw [hp'] at hr; injection hr with hr; subst hr; exact hc hx.symm
      exact ⟨r, x, by rw [upd_other _ _ this]; exact hr, hx⟩
  · intro r r' x x' hr hr' hk
    exact h.once r r' x x' (get r x hr).2.1 (get r' x' hr').2.1 hk

/-- A value changes. -/
theorem Rep.set {cfg : Cfg K} {hp oldHp : Nat} {L : Place → Option (Entry K V)} {m : K → Option V}
    (h : Rep cfg hp oldHp L m) {p : Place} {e : Entry K V} (hp' : L p = some e) (v : V) :
    Rep cfg hp oldHp (upd L p (some { e with val := v })) (update m e.key (some v)) := by
  have get : ∀ r x, upd L p (some { e with val := v }) r = some x →
      (r = p ∧ x = { e with val := v }) ∨ (r ≠ p ∧ L r = some x ∧ x.key ≠ e.key) := by
    intro r x hr
    by_cases h2 : r = p
    · rw [h2, upd_self] at hr; injection hr with hr; exact Or.inl ⟨h2, hr.symm⟩
    · rw [upd_other _ _ h2] at hr
      exact Or.inr ⟨h2, hr, fun hc => h2 (h.once r p x e hr hp' hc)⟩
  refine ⟨?_, ?_, ?_, ?_, ?_⟩
  · intro r x hr
    rcases get r x hr with ⟨_, rfl⟩ | ⟨_, h', _⟩
    · exact h.part p e hp'
    · exact h.part r x h'
  · intro r x hr
    rcases get r x hr with ⟨rfl, rfl⟩ | ⟨_, h', _⟩
    · exact h.fits _ e hp'
    · exact h.fits r x h'
  · intro r x hr
    rcases get r x hr with ⟨_, rfl⟩ | ⟨_, h', hne⟩
    · exact if_pos rfl
    · unfold update; rw [if_neg hne]; exact h.val r x h'
  · intro k' v' hk
    by_cases hc : k' = e.key
    · exact ⟨p, _, upd_self _ _ _, hc.symm⟩
    · unfold update at hk
      rw [if_neg hc] at hk
      obtain ⟨r, x, hr, hx⟩ := h.all k' v' hk
      have : r ≠ p := by
        intro h'; subst h'; rw [hp'] at hr; injection hr with hr; subst hr; exact hc hx.symm
      exact ⟨r, x, by rw [upd_other _ _ this]; exact hr, hx⟩
  · intro r r' x x' hr hr' hk
    rcases get r x hr with ⟨h1, h2⟩ | ⟨h1, h2, h3⟩ <;> rcases get r' x' hr' with ⟨h1', h2'⟩ | ⟨h1', h2', h3'⟩
    · rw [h1, h1']
    · exfalso; apply h3'; rw [← hk, h2]
    · exfalso; apply h3; rw [hk, h2']
    · exact h.once r r' x x' h2 h2' hk

end Verif.Cuckoo
