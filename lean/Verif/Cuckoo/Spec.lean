import Verif.Cuckoo.Model
/-!
# What a concurrent map is

A map whose calls happen at one moment each, between the call and its return
(linearizability).
-/
namespace Verif.Cuckoo

variable {K V : Type} [DecidableEq K]

/-- The map with another value for one key. -/
def update (m : K → Option V) (k : K) (x : Option V) : K → Option V := fun j => if j = k then x else m j

/-- What a call may answer and do. -/
inductive Legal : (K → Option V) → Call K V → Res V → (K → Option V) → Prop
  /-- `find` answers with the value of the key -/
  | find (m : K → Option V) (k : K) : Legal m (.find k) (.value (m k)) m
  /-- `insert_or_assign` sets the value, and tells whether the key is new -/
  | assign (m : K → Option V) (k : K) (v : V) : Legal m (.assign k v) (.bool (m k).isNone) (update m k (some v))
  /-- or it throws `load_factor_too_low` and changes nothing -/
  | refused (m : K → Option V) (k : K) (v : V) : Legal m (.assign k v) .tooLow m
  /-- `erase` removes the key, and tells whether it was there -/
  | erase (m : K → Option V) (k : K) : Legal m (.erase k) (.bool (m k).isSome) (update m k none)

/-- What a thread is doing. -/
inductive Status (K V : Type)
  | free
  /-- in a call that has not happened yet -/
  | called (c : Call K V)
  /-- in a call that has happened, and will return this -/
  | answered (c : Call K V) (r : Res V)

def setStatus (f : Nat → Status K V) (i : Nat) (x : Status K V) : Nat → Status K V := fun j => if j = i then x else f j

/-- The events can be explained by a map whose calls happen at one moment (`happen`)
between `call` and `ret`, each with a legal answer. Internal steps are not seen. -/
inductive Explains : (K → Option V) → (Nat → Status K V) → List (Ev K V) → (K → Option V) → (Nat → Status K V) → Prop
  | nil (m : K → Option V) (st : Nat → Status K V) : Explains m st [] m st
  | call {m m' : K → Option V} {st st' : Nat → Status K V} {es : List (Ev K V)} (i : Nat) (c : Call K V)
      (h : st i = .free) (hr : Explains m (setStatus st i (.called c)) es m' st') :
      Explains m st (.call i c :: es) m' st'
  | tau {m m' : K → Option V} {st st' : Nat → Status K V} {es : List (Ev K V)} (i : Nat)
      (hr : Explains m st es m' st') : Explains m st (.tau i :: es) m' st'
  | happen {m m₁ m' : K → Option V} {st st' : Nat → Status K V} {es : List (Ev K V)} (i : Nat) (c : Call K V) (r : Res V)
      (h : st i = .called c) (hl : Legal m c r m₁) (hr : Explains m₁ (setStatus st i (.answered c r)) es m' st') :
      Explains m st es m' st'
  | ret {m m' : K → Option V} {st st' : Nat → Status K V} {es : List (Ev K V)} (i : Nat) (c : Call K V) (r : Res V)
      (h : st i = .answered c r) (hr : Explains m (setStatus st i .free) es m' st') :
      Explains m st (.ret i c r :: es) m' st'

/-- The contents of a table, by its slots: key `k` has value `v`. -/
def Holds (cfg : Cfg K) (t : Table K V) (k : K) (v : V) : Prop :=
  ∃ i s e, e.key = k ∧ e.val = v ∧
    (t.cur i s = some e ∨ (t.migrated (lockInd cfg i) = false ∧ t.old i s = some e))

/-- A pair at a place: in the buckets, or in the old buckets if these are still to be
moved. -/
def At (cfg : Cfg K) (t : Table K V) (old : Bool) (i s : Nat) (e : Entry K V) : Prop :=
  if old then t.migrated (lockInd cfg i) = false ∧ t.old i s = some e else t.cur i s = some e

/-- `n` is the number of keys of the map. -/
def Keys (m : K → Option V) (n : Nat) : Prop :=
  ∃ ks : List K, ks.Nodup ∧ (∀ k, k ∈ ks ↔ (m k).isSome = true) ∧ ks.length = n

/-- Every pair of the map, once. -/
def Listing (m : K → Option V) (l : List (K × V)) : Prop :=
  (l.map Prod.fst).Nodup ∧ ∀ k v, (k, v) ∈ l ↔ m k = some v

/-- A walk through a list that ends when the action says so: what was seen, the last
one first. -/
def walk (action : List (K × V) → Bool) : List (K × V) → List (K × V) → List (K × V)
  | [], seen => seen
  | p :: rest, seen => if action (p :: seen) then walk action rest (p :: seen) else p :: seen

end Verif.Cuckoo
