import Verif.Ids.Model

/-!
# Specification: the set of identifiers in use
-/

namespace Verif.Ids

/-- Whether an identifier is in use. -/
abbrev Used := Nat → Bool

/-- `i` comes to be in use, or not. -/
def put (u : Used) (i : Nat) (b : Bool) : Used := fun j => if j = i then b else u j

/-- A command, what it returns, and what is in use after it.  Identifiers are below `N`. -/
inductive Step (N : Nat) : Used → Cmd → Out → Used → Prop where
  | acquire {u i} (hi : i < N) (hf : u i = false) (hl : ∀ j, j < i → u j = true) : Step N u .acquire (.id (some i)) (put u i true)
  | none {u} (ha : ∀ j, j < N → u j = true) : Step N u .acquire (.id none) u
  | claim {u i} (hi : i < N) : Step N u (.claim i) (.bool (!u i)) (put u i true)
  | release {u i} (hi : i < N) : Step N u (.release i) .unit (put u i false)
  | claimAll {u} : Step N u .claimAll .unit fun _ => true
  | releaseAll {u} : Step N u .releaseAll .unit fun _ => false
  | swapAll {u} : Step N u .swapAll .unit fun j => !u j
  | available {u} : Step N u .available (.num ((List.range N).filter fun j => !u j).length) u
  | full {u} : Step N u .full (.bool ((List.range N).all u)) u

/-- Histories. -/
inductive Runs (N : Nat) : Used → List Cmd → List Out → Used → Prop where
  | nil (u) : Runs N u [] [] u
  | cons {u k r u' ks rs u''} (h : Step N u k r u') (hr : Runs N u' ks rs u'') : Runs N u (k :: ks) (r :: rs) u''

end Verif.Ids
