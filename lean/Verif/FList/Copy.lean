import Verif.FList.Spec

/-!
# Copies and moves of `stdx::intrusive_forward_list` objects
(/repo/include/stdx/intrusive_forward_list.hpp:9-126)

The class declares no constructor, assignment operator or destructor, so the compiler's own are used: copying and moving both copy the
two pointers, and destruction does nothing. A list object that is constructed from another is here a list object that has not been used
before; one that is destroyed is not used again.
-/

namespace Verif.FList

/-- What a program can do with list objects: call an operation (intrusive_forward_list.hpp:82-124) or make `dst` a copy of `src`, by
construction or assignment, copying or moving (the implicit members of intrusive_forward_list.hpp:11). -/
inductive OOp (ι : Type) where
  | on (i : ι) (o : Op)
  | copy (dst src : ι)

/-- One of them; a copy returns nothing of interest (intrusive_forward_list.hpp:57-58 and 82-124). -/
def stepO {ι : Type} [DecidableEq ι] (c : Cfg) (w : World ι) : OOp ι → Outcome (World ι × Out × Nat)
  | .on i o => stepW c w i o
  | .copy dst src => .ok (⟨w.heap, fun j => if j = dst then w.lists src else w.lists j⟩, .unit, 0)

/-- A history (intrusive_forward_list.hpp:9-126). -/
def runO {ι : Type} [DecidableEq ι] (c : Cfg) (w : World ι) : List (OOp ι) → Outcome (World ι × List Out × Nat)
  | [] => .ok (w, [], 0)
  | o :: os => do
    let (w1, r, p) ← stepO c w o
    let (w2, rs, ps) ← runO c w1 os
    return (w2, r :: rs, p + ps)

end Verif.FList
