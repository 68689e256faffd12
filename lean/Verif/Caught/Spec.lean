import Verif.Caught.Model
import Verif.CxQueue.Spec
import Verif.IList.Spec
import Verif.FList.Spec

/-!
# Specification: what is refused is not done
-/

namespace Verif.Caught

variable {E W α ι : Type}

/-- The world after `k` calls of the handler. -/
def after (H : Handler E W) : Nat → W → W
  | 0, w => w
  | k + 1, w => after H k (H w).1

/-- The handler throws the next `k` times it is called. -/
def Throws (H : Handler E W) : Nat → W → Prop
  | 0, _ => True
  | k + 1, w => (∃ e, (H w).2 = .error e) ∧ Throws H k (H w).1

/-- How many of the calls were left by an exception. -/
def thrown {Q : Type} : List (Option Q) → Nat
  | [] => 0
  | none :: rs => thrown rs + 1
  | some _ :: rs => thrown rs

/-- A bounded queue whose caller catches: what the abstract queue does not allow has no effect and no result. -/
def queueCaught (N : Nat) : List α → List (CxQueue.Op α) → List α × List (Option (CxQueue.Out α))
  | l, [] => (l, [])
  | l, o :: os =>
    match CxQueue.specStep N l o with
    | none => ((queueCaught N l os).1, none :: (queueCaught N l os).2)
    | some (l', r) => ((queueCaught N l' os).1, some r :: (queueCaught N l' os).2)

/-- Sequences of nodes whose caller catches: besides what is allowed, a member of a list of two or more may be added anywhere; that has no
effect and no result. -/
inductive ListCaught [DecidableEq ι] (size : Nat) :
    (ι → List Nat) → List (ι × IList.Op) → (ι → List Nat) → List (Option IList.Out) → Prop where
  | nil (ls) : ListCaught size ls [] ls []
  | done {ls i o l' r os ls' rs} (h : IList.specStep (ls i) o = some (l', r))
      (hn : ∀ n, o.added = some n → n < size ∧ ∀ j, n ∉ ls j)
      (hr : ListCaught size (fun j => if j = i then l' else ls j) os ls' rs) : ListCaught size ls ((i, o) :: os) ls' (some r :: rs)
  | refused {ls i o n j os ls' rs} (ha : o.added = some n) (hm : n ∈ ls j) (h2 : 2 ≤ (ls j).length)
      (hr : ListCaught size ls os ls' rs) : ListCaught size ls ((i, o) :: os) ls' (none :: rs)

/-- The same of forward lists, where a member that is not the last of its list is refused. -/
inductive FwdCaught [DecidableEq ι] (size : Nat) :
    (ι → List Nat) → List (ι × FList.Op) → (ι → List Nat) → List (Option FList.Out) → Prop where
  | nil (ls) : FwdCaught size ls [] ls []
  | done {ls i o l' r os ls' rs} (h : FList.specStep (ls i) o = some (l', r))
      (hn : ∀ n, o.added = some n → n < size ∧ ∀ j, n ∉ ls j)
      (hr : FwdCaught size (fun j => if j = i then l' else ls j) os ls' rs) : FwdCaught size ls ((i, o) :: os) ls' (some r :: rs)
  | refused {ls i o n j os ls' rs} (ha : o.added = some n) (hm : n ∈ (ls j).dropLast)
      (hr : FwdCaught size ls os ls' rs) : FwdCaught size ls ((i, o) :: os) ls' (none :: rs)

/-! ## Handlers that repair -/

/-- The message about a call that is not allowed. -/
def message : CxQueue.Op α → Msg
  | .push _ => .overflow
  | _ => .underflow

/-- The message about a call on a queue of this size, if it is misused. -/
def misuse (N size : Nat) : CxQueue.Op α → Option Msg
  | .push _ => if size < N then none else some .overflow
  | .size | .empty | .full | .clear => none
  | _ => if size = 0 then some .underflow else none

/-- A bounded queue and a handler that makes the calls `prog` says: what is not allowed is preceded by those; then it has to be allowed. -/
def queueRepaired (N : Nat) (prog : Msg → W → List (CxQueue.Op α) × W) :
    List α → W → List (CxQueue.Op α) → Option (List α × W × List (CxQueue.Out α))
  | l, w, [] => some (l, w, [])
  | l, w, o :: os =>
    match CxQueue.specStep N l o with
    | some (l', r) => (queueRepaired N prog l' w os).map fun x => (x.1, x.2.1, r :: x.2.2)
    | none =>
      (CxQueue.specRun N l (prog (message o) w).1).bind fun y =>
        (CxQueue.specStep N y.1 o).bind fun z =>
          (queueRepaired N prog z.1 (prog (message o) w).2 os).map fun x => (x.1, x.2.1, z.2 :: x.2.2)

/-- Sequences of nodes and a handler that makes the calls `prog` says: before a member of a list of two or more is added, they are made; then
the node is in no list.  An iterator that is passed is valid before and after. -/
inductive ListRepaired [DecidableEq ι] (size : Nat) (prog : W → List (ι × IList.Op) × W) :
    (ι → List Nat) → W → List (ι × IList.Op) → (ι → List Nat) → W → List IList.Out → Prop where
  | nil (ls v) : ListRepaired size prog ls v [] ls v []
  | done {ls v i o l' r os ls' v' rs} (h : IList.specStep (ls i) o = some (l', r))
      (hn : ∀ n, o.added = some n → n < size ∧ ∀ j, n ∉ ls j)
      (hr : ListRepaired size prog (fun j => if j = i then l' else ls j) v os ls' v' rs) :
      ListRepaired size prog ls v ((i, o) :: os) ls' v' (r :: rs)
  | repaired {ls v i o n j ls1 rs1 l' r os ls' v' rs} (ha : o.added = some n) (hm : n ∈ ls j) (h2 : 2 ≤ (ls j).length)
      (hp : IList.SpecRun ⟨.checked, .noreturn⟩ size ls (prog v).1 ls1 rs1) (hf : ∀ j, n ∉ ls1 j)
      (hi : ∀ x, o = .insert (some x) n → x ∈ ls i) (h : IList.specStep (ls1 i) o = some (l', r))
      (hr : ListRepaired size prog (fun j => if j = i then l' else ls1 j) (prog v).2 os ls' v' rs) :
      ListRepaired size prog ls v ((i, o) :: os) ls' v' (r :: rs)

/-- The same of forward lists, where a member that is not the last of its list is found. -/
inductive FwdRepaired [DecidableEq ι] (size : Nat) (prog : W → List (ι × FList.Op) × W) :
    (ι → List Nat) → W → List (ι × FList.Op) → (ι → List Nat) → W → List FList.Out → Prop where
  | nil (ls v) : FwdRepaired size prog ls v [] ls v []
  | done {ls v i o l' r os ls' v' rs} (h : FList.specStep (ls i) o = some (l', r))
      (hn : ∀ n, o.added = some n → n < size ∧ ∀ j, n ∉ ls j)
      (hr : FwdRepaired size prog (fun j => if j = i then l' else ls j) v os ls' v' rs) :
      FwdRepaired size prog ls v ((i, o) :: os) ls' v' (r :: rs)
  | repaired {ls v i o n j ls1 rs1 l' r os ls' v' rs} (ha : o.added = some n) (hm : n ∈ (ls j).dropLast)
      (hp : FList.SpecRun size ls (prog v).1 ls1 rs1) (hf : ∀ j, n ∉ ls1 j) (h : FList.specStep (ls1 i) o = some (l', r))
      (hr : FwdRepaired size prog (fun j => if j = i then l' else ls1 j) (prog v).2 os ls' v' rs) :
      FwdRepaired size prog ls v ((i, o) :: os) ls' v' (r :: rs)

end Verif.Caught
