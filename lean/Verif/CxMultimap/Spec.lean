import Verif.CxMultimap.Model
import Verif.CxSet.Spec

/-!
# Specification of `cx_multimap`: a finite map from keys to finite sets of values
-/

namespace Verif.CxMultimap

/-- A finite map from keys to finite sets (membership and cardinality), with the number of
keys. -/
structure Abs (κ ν : Type) where
  fn : κ → Option (CxSet.Abs ν)
  card : Nat

/-- No keys. -/
def Abs.empty {κ ν : Type} : Abs κ ν := ⟨fun _ => none, 0⟩

variable {κ ν : Type}

/-- Preconditions: room for a new key or value, a present key for `get`. -/
def Pre (c : Cfg ν) (m : Abs κ ν) : Op κ ν → Prop
  | .insert k v =>
    (∀ s, m.fn k = some s → s.mem v ∨ s.card < c.ValueN) ∧ (m.fn k = none → m.card < c.KeyN)
  | .insertKey k => m.fn k = none → m.card < c.KeyN
  | .get k => m.fn k ≠ none
  | .onSet k o => ∃ s, m.fn k = some s ∧ CxSet.Pre c.ValueN s o
  | _ => True

/-- `s'` is `s` with `v` added. -/
def Added (s : CxSet.Abs ν) (v : ν) (s' : CxSet.Abs ν) : Prop :=
  (∀ x, s'.mem x ↔ x = v ∨ s.mem x) ∧ (s.mem v → s'.card = s.card) ∧
    (¬ s.mem v → s'.card = s.card + 1)

/-- `s'` is `s` with `v` taken out. -/
def Removed (s : CxSet.Abs ν) (v : ν) (s' : CxSet.Abs ν) : Prop :=
  (∀ x, s'.mem x ↔ x ≠ v ∧ s.mem x) ∧ (s.mem v → s'.card + 1 = s.card) ∧
    (¬ s.mem v → s'.card = s.card)

/-- `m'` agrees with `m` on all keys except possibly `k`. -/
def SameElse (m m' : Abs κ ν) (k : κ) : Prop := ∀ x, x ≠ k → m'.fn x = m.fn x

/-- Intended effect and returned value.  In particular `erase(k, v)` removes the key only if
it removed the last value. -/
def Post (m : Abs κ ν) (o : Op κ ν) (m' : Abs κ ν) (r : Out κ ν) : Prop :=
  match o with
  | .insert k v => SameElse m m' k ∧ r = .unit ∧ ∃ s', m'.fn k = some s' ∧
      (∀ s, m.fn k = some s → Added s v s' ∧ m'.card = m.card) ∧
      (m.fn k = none → Added CxSet.Abs.empty v s' ∧ m'.card = m.card + 1)
  | .insertKey k => SameElse m m' k ∧ r = .unit ∧
      (m.fn k ≠ none → m'.fn k = m.fn k ∧ m'.card = m.card) ∧
      (m.fn k = none → m'.card = m.card + 1 ∧ ∃ s', m'.fn k = some s' ∧ (∀ x, ¬ s'.mem x) ∧
        s'.card = 0)
  | .eraseKey k => SameElse m m' k ∧ m'.fn k = none ∧
      (m.fn k ≠ none → m'.card + 1 = m.card ∧ r = .nat 1) ∧
      (m.fn k = none → m'.card = m.card ∧ r = .nat 0)
  | .erase k v => SameElse m m' k ∧
      (m.fn k = none → m'.fn k = none ∧ m'.card = m.card ∧ r = .nat 0) ∧
      (∀ s, m.fn k = some s →
        (¬ s.mem v → (∃ s', m'.fn k = some s' ∧ (∀ x, s'.mem x ↔ s.mem x) ∧ s'.card = s.card) ∧
          m'.card = m.card ∧ r = .nat 0) ∧
        (s.mem v → r = .nat 1 ∧
          (s.card = 1 → m'.fn k = none ∧ m'.card + 1 = m.card) ∧
          (s.card ≠ 1 → m'.card = m.card ∧ ∃ s', m'.fn k = some s' ∧ Removed s v s')))
  | .clear => (∀ x, m'.fn x = none) ∧ m'.card = 0 ∧ r = .unit
  | .containsKey k => m' = m ∧ r = .bool (m.fn k).isSome
  | .contains k v => m' = m ∧ ∃ b, r = .bool b ∧ (b = true ↔ ∃ s, m.fn k = some s ∧ s.mem v)
  | .get k => m' = m ∧ ∃ s l, m.fn k = some s ∧ r = .set l ∧ l.Nodup ∧
      (∀ x, x ∈ l ↔ s.mem x) ∧ l.length = s.card
  | .onSet k o => SameElse m m' k ∧ m'.card = m.card ∧ ∃ s s' r', m.fn k = some s ∧
      m'.fn k = some s' ∧ CxSet.Post s o s' r' ∧ r = .fromSet r'
  | .size => m' = m ∧ r = .nat m.card
  | .empty => m' = m ∧ r = .bool (decide (m.card = 0))
  | .keys => m' = m ∧ ∃ l : List κ, r = .keys l ∧ l.Nodup ∧ (∀ k, k ∈ l ↔ m.fn k ≠ none) ∧
      l.length = m.card

/-- The extra restriction under which the intended specification is met: `erase(k, v)` is not
called on a key whose value set is empty (see `C31_cx_multimap_erase_violated`). -/
def NotEmptySet (m : Abs κ ν) : Op κ ν → Prop
  | .erase k _ => ∀ s, m.fn k = some s → s.card ≠ 0
  | _ => True

/-- Histories whose operations meet preconditions (and the restriction). -/
def Admissible (c : Cfg ν) : Abs κ ν → List (Op κ ν) → Prop
  | _, [] => True
  | m, o :: os => Pre c m o ∧ NotEmptySet m o ∧ ∀ m' r, Post m o m' r → Admissible c m' os

/-- `m'` and `rs` are a possible result of a history from `m`. -/
def SpecRun : Abs κ ν → List (Op κ ν) → Abs κ ν → List (Out κ ν) → Prop
  | m, [], m', rs => m' = m ∧ rs = []
  | m, o :: os, m', rs => ∃ m1 r rs', Post m o m1 r ∧ SpecRun m1 os m' rs' ∧ rs = r :: rs'

end Verif.CxMultimap
