import Verif.Base

/-!
# Model of the tuple operations (/repo/include/stdx/tuple.hpp, tuple_algorithms.hpp)

A tuple is the list of its elements; an element stands for a value together with its type, so the functions
of types that the algorithms use (predicates, projections, type names) are functions of elements.  Access
with an index outside the tuple (or outside a compile-time table) does not compile, `ub` here.

A pack expansion over an index sequence is a loop over the indices.  Function objects may have side effects on
a state `σ`; that state includes the function object's own members, except for the folds, which copy the function
object and model it separately.  Value categories are not modelled, except for `cartesian_product_copy` (see there).
-/

namespace Verif.Tuple

variable {α β γ κ σ τ : Type}

/-- `f<Is>...` over a list of indices, in order (a pack expansion such as tuple_algorithms.hpp:60 or 163). -/
def mapO (f : α → Outcome β) : List α → Outcome (List β)
  | [] => .ok []
  | x :: xs => do
    let y ← f x
    let ys ← mapO f xs
    return y :: ys

/-- `t[index<I>]` / `get<I>(t)`, tuple.hpp:226-270 and 422-426. -/
def get (t : List α) (i : Nat) : Outcome α := arrGet t i

/-! ## Folds -/

/-- The binary left fold `(init + ... + pack)`: `((init + x0) + x1) + ...`, tuple.hpp:201
and 207. -/
def foldExprL (plus : β → α → σ → β × σ) : β → List α → σ → β × σ
  | b, [], s => (b, s)
  | b, x :: xs, s =>
    let r := plus b x s
    foldExprL plus r.1 xs r.2

/-- The binary right fold `(pack + ... + init)`: `x0 + (x1 + ... (xn + init))`, tuple.hpp:215 and 221; the right
operand's calls come first. -/
def foldExprR (plus : α → β → σ → β × σ) : List α → β → σ → β × σ
  | [], b, s => (b, s)
  | x :: xs, b, s =>
    let r := foldExprR plus xs b s
    plus x r.1 r.2

/-- `fold_helper`, tuple.hpp:114-138, and `join_helper`, 140-145: a copy of the function object and a value. -/
structure Helper (τ β : Type) where
  op : τ
  value : β
deriving DecidableEq, Repr

/-- A call `op(b, x)` of a function object with data members `τ`: the result, the function object afterwards, and the
effects on the rest of the program (tuple.hpp:125, 134, 154). -/
abbrev Call (τ β α γ σ : Type) := τ → β → α → σ → (γ × τ) × σ

/-- `operator+(fold_helper &&lhs, Rhs &&rhs)`, tuple.hpp:119-126: `{lhs.op, lhs.op(lhs.value, rhs)}`.  The members are
initialized in order, so the function object is copied before it is called, and what the call does to the original is
lost with `lhs`. -/
def plusL (call : Call τ β α β σ) (lhs : Helper τ β) (rhs : α) (s : σ) : Helper τ β × σ :=
  let op := lhs.op
  let r := call lhs.op lhs.value rhs s
  (⟨op, r.1.1⟩, r.2)

/-- `operator+(Lhs &&lhs, fold_helper &&rhs)`, tuple.hpp:128-135. -/
def plusR (call : Call τ α β β σ) (lhs : α) (rhs : Helper τ β) (s : σ) : Helper τ β × σ :=
  let op := rhs.op
  let r := call rhs.op lhs rhs.value s
  (⟨op, r.1.1⟩, r.2)

/-- `fold_left`, tuple.hpp:198-210: the fold expression of the helper with `init` and the elements. -/
def foldLeft (call : Call τ β α β σ) (op : τ) (init : β) (t : List α) (s : σ) : β × σ :=
  let r := foldExprL (plusL call) ⟨op, init⟩ t s
  (r.1.value, r.2)

/-- `fold_right`, tuple.hpp:212-224. -/
def foldRight (call : Call τ α β β σ) (op : τ) (init : β) (t : List α) (s : σ) : β × σ :=
  let r := foldExprR (plusR call) t ⟨op, init⟩ s
  (r.1.value, r.2)

/-- `operator+(join_helper &&lhs, join_helper &&rhs)`, tuple.hpp:149-155; the right helper's function object is not
used. -/
def plusJ (call : Call τ α α α σ) (lhs rhs : Helper τ α) (s : σ) : Helper τ α × σ :=
  let op := lhs.op
  let r := call lhs.op lhs.value rhs.value s
  (⟨op, r.1.1⟩, r.2)

/-- `join(op)`, tuple.hpp:304-317: the unary left fold of `join_helper`s; not available for an empty tuple. -/
def join (call : Call τ α α α σ) (op : τ) (t : List α) (s : σ) : Outcome (α × σ) :=
  match t.map (Helper.mk op) with
  | [] => .ub
  | h :: hs =>
    let r := foldExprL (plusJ call) h hs s
    .ok (r.1.value, r.2)

/-- `join(init, op)`, tuple.hpp:319-334. -/
def joinInit (init : α) (call : Call τ α α α σ) (op : τ) (t : List α) (s : σ) : Outcome (α × σ) :=
  if t.length = 0 then .ok (init, s) else join call op t s

/-- `tail()`, tuple.hpp:340-364. -/
def tail (t : List α) : Outcome (List α) :=
  if t.length = 0 then .ok t else mapO (fun j => get t (j + 1)) (List.range (t.length - 1))

/-! ## Short-circuiting folds -/

/-- `(... and es)`: `((e0 and e1) and e2) ...`; the value of the empty one is `true` (tuple.hpp:370-390,
tuple_algorithms.hpp:262). -/
def andFoldL : List (σ → Outcome (Bool × σ)) → σ → Outcome (Bool × σ)
  | [], s => .ok (true, s)
  | e :: es, s => go e es s
where
  go (acc : σ → Outcome (Bool × σ)) : List (σ → Outcome (Bool × σ)) → σ → Outcome (Bool × σ)
    | [], s => acc s
    | e :: es, s => go (fun s => do
        let r ← acc s
        if r.1 then e r.2 else return r) es s

/-- `(... or es)`: `((e0 or e1) or e2) ...`; the value of the empty one is `false` (tuple_algorithms.hpp:284). -/
def orFoldL : List (σ → Outcome (Bool × σ)) → σ → Outcome (Bool × σ)
  | [], s => .ok (false, s)
  | e :: es, s => go e es s
where
  go (acc : σ → Outcome (Bool × σ)) : List (σ → Outcome (Bool × σ)) → σ → Outcome (Bool × σ)
    | [], s => acc s
    | e :: es, s => go (fun s => do
        let r ← acc s
        if r.1 then return r else e r.2) es s

/-- `(es or ...)`: `e0 or (e1 or (e2 ...))` (tuple.hpp:411 and 529). -/
def orFoldR : List (σ → Outcome (Bool × σ)) → σ → Outcome (Bool × σ)
  | [], s => .ok (false, s)
  | [e], s => e s
  | e :: es, s => do
    let r ← e s
    if r.1 then return r else orFoldR es r.2

/-! ## Comparison -/

/-- The results of a three-way comparison of any category (tuple.hpp:405-408). -/
inductive Cmp where
  | less
  | equal
  | greater
  | unordered
  deriving DecidableEq

/-- `operator==`, tuple.hpp:366-391; `eqAt i` compares the `i`-th elements, and may record the comparison. -/
def opEq (eqAt : Nat → α → β → σ → Bool × σ) (l : List α) (r : List β) (s : σ) : Outcome (Bool × σ) :=
  andFoldL ((List.range l.length).map fun i s => do
    let x ← get l i
    let y ← get r i
    return eqAt i x y s) s

/-- `compare_at<I>` of `operator<=>`, tuple.hpp:405-408: assigns `result`, and tells whether it is not zero. -/
def compareAt (cmpAt : Nat → α → β → Cmp) (l : List α) (r : List β) (i : Nat) (_ : Cmp) : Outcome (Bool × Cmp) := do
  let x ← get l i
  let y ← get r i
  let result := cmpAt i x y
  return (decide (result ≠ .equal), result)

/-- `operator<=>`, tuple.hpp:393-415. -/
def opCmp (cmpAt : Nat → α → β → Cmp) (l : List α) (r : List β) : Outcome Cmp :=
  if l.length = 0 then .ok .equal
  else do
    let x ← get l 0
    let y ← get r 0
    let result := cmpAt 0 x y
    let b ← orFoldR ((List.range l.length).map (compareAt cmpAt l r)) result
    return b.2

/-! ## Concatenation -/

/-- `index_pair`, tuple.hpp:165-168. -/
structure IndexPair where
  outer : Nat
  inner : Nat
  deriving DecidableEq

/-- `fill_inner_indices`, tuple_algorithms.hpp:20-27: writes `0, 1, ...` (from `i` on, `n` times) at `p`. -/
def fillInner : Nat → Nat → List IndexPair → Nat → Outcome (List IndexPair × Nat)
  | _, 0, a, p => .ok (a, p)
  | i, n + 1, a, p => do
    let e ← arrGet a p
    let a ← arrSet a p ⟨e.outer, i⟩
    fillInner (i + 1) n a (p + 1)

/-- `fill_outer_indices`, tuple_algorithms.hpp:29-37: writes `k`, `n` times. -/
def fillOuter (k : Nat) : Nat → List IndexPair → Nat → Outcome (List IndexPair × Nat)
  | 0, a, p => .ok (a, p)
  | n + 1, a, p => do
    let e ← arrGet a p
    let a ← arrSet a p ⟨k, e.inner⟩
    fillOuter k n a (p + 1)

/-- `((p = fill_inner_indices<Ts>(p)), ...)`, tuple_algorithms.hpp:49 and 78. -/
def fillInners : List Nat → List IndexPair → Nat → Outcome (List IndexPair)
  | [], a, _ => .ok a
  | n :: ns, a, p => do
    let (a, p) ← fillInner 0 n a p
    fillInners ns a p

/-- `((q = fill_outer_indices<Ts>(q, n++)), ...)`, tuple_algorithms.hpp:51-53 and 80-82. -/
def fillOuters : List Nat → Nat → List IndexPair → Nat → Outcome (List IndexPair)
  | [], _, a, _ => .ok a
  | n :: ns, k, a, p => do
    let (a, p) ← fillOuter k n a p
    fillOuters ns (k + 1) a p

/-- `element_indices`, tuple_algorithms.hpp:45-55 and 75-85; `sizes` are the tuples' sizes. -/
def elementIndices (sizes : List Nat) : Outcome (List IndexPair) := do
  let a ← fillInners sizes (List.replicate sizes.sum ⟨0, 0⟩) 0
  fillOuters sizes 0 a 0

/-- The elements picked by the table, tuple_algorithms.hpp:59-62 and 89-96. -/
def gatherIndices (ts : List (List α)) : Outcome (List α) := do
  let idx ← elementIndices (ts.map List.length)
  mapO (fun i => do
    let e ← arrGet idx i
    let t ← get ts e.outer
    get t e.inner) (List.range (ts.map List.length).sum)

/-- `tuple_cat(ts...)`, tuple_algorithms.hpp:65-98. -/
def tupleCat (ts : List (List α)) : Outcome (List α) :=
  match ts with
  | [] => .ok []
  | [t] => .ok t
  | ts => gatherIndices ts

/-- `apply(f, ts...)`, tuple_algorithms.hpp:40-63. -/
def apply (f : List α → σ → β × σ) (ts : List (List α)) (s : σ) : Outcome (β × σ) := do
  let xs ← gatherIndices ts
  return f xs s

/-- `tuple_cons(x, t)` / `tuple_push_front`, tuple_algorithms.hpp:100-110 and 124-128. -/
def tupleCons (x : α) (t : List α) : Outcome (List α) := do
  let xs ← mapO (get t) (List.range t.length)
  return x :: xs

/-- `tuple_snoc(t, x)` / `tuple_push_back`, tuple_algorithms.hpp:112-122 and 130-134. -/
def tupleSnoc (t : List α) (x : α) : Outcome (List α) := do
  let xs ← mapO (get t) (List.range t.length)
  return xs ++ [x]

/-! ## Filter -/

/-- `num_matches`, tuple_algorithms.hpp:140-143: the left fold of `0 + ... + (P ? 1 : 0)`. -/
def numMatches (p : α → Bool) (t : List α) : Nat := t.foldl (fun n x => n + (if p x then 1 else 0)) 0

/-- The loop of `copy_index`, tuple_algorithms.hpp:148-156, from index `i` on; `it` is the position of the output
iterator. -/
def copyIndices (p : α → Bool) : List α → Nat → List Nat → Nat → Outcome (List Nat)
  | [], _, a, _ => .ok a
  | x :: xs, i, a, it =>
    if p x then do
      let a ← arrSet a it i
      copyIndices p xs (i + 1) a (it + 1)
    else copyIndices p xs (i + 1) a it

/-- `filter<Pred>(t)`, tuple_algorithms.hpp:136-166. -/
def filter (p : α → Bool) (t : List α) : Outcome (List α) := do
  let n := numMatches p t
  let indices ← copyIndices p t 0 (List.replicate n 0) 0
  mapO (fun j => do
    let i ← arrGet indices j
    get t i) (List.range n)

/-! ## Zipping -/

/-- `zip_length_for`, tuple_algorithms.hpp:174-178. -/
def zipLength : List Nat → Nat
  | [] => 0
  | n :: ns => ns.foldl min n

/-- `get<I>(ts)...`, tuple_algorithms.hpp:171. -/
def column (i : Nat) (ts : List (List α)) : Outcome (List α) := mapO (fun t => get t i) ts

/-- `invoke_at<I>(op, ts...)`, tuple_algorithms.hpp:169-172. -/
def invokeAt (op : List α → σ → β × σ) (ts : List (List α)) (i : Nat) (s : σ) : Outcome (β × σ) := do
  let xs ← column i ts
  return op xs s

/-- Calls for a list of indices, in order, collecting the results: the expansion over `Is` at
tuple_algorithms.hpp:187-190, 206 and 233-235. -/
def calls (call : Nat → σ → Outcome (β × σ)) : List Nat → σ → Outcome (List β × σ)
  | [], s => .ok ([], s)
  | i :: is, s => do
    let r ← call i s
    let rs ← calls call is r.2
    return (r.1 :: rs.1, rs.2)

/-- `transform(op, ts...)` without index functions, tuple_algorithms.hpp:181-193 (a braced initialiser: in order)
and tuple.hpp:502-508. -/
def transform (op : List α → σ → β × σ) (ts : List (List α)) (s : σ) : Outcome (List β × σ) :=
  calls (invokeAt op ts) (List.range (zipLength (ts.map List.length))) s

/-- `transform<Fs...>(op, ts...)`, tuple_algorithms.hpp:194-198 and tuple.hpp:509-513: the calls are arguments of a
function call, evaluated in an unspecified order (`order`, a permutation of the indices); the results are
put in their places. -/
def transformIndexed (op : List α → σ → β × σ) (ts : List (List α)) (order : List Nat) (s : σ) : Outcome (List β × σ) := do
  let r ← calls (fun i s => do
    let r ← invokeAt op ts i s
    return ((i, r.1), r.2)) order s
  let out ← mapO (fun i => match r.1.find? (fun e => e.1 = i) with
    | some e => .ok e.2
    | none => .ub) (List.range (zipLength (ts.map List.length)))
  return (out, r.2)

/-- `unrolled_for_each(op, ts...)`, tuple_algorithms.hpp:203-209; the state includes the function object that is
returned.  `for_each` (212-218) and that of one tuple (tuple.hpp:516-522) are the same where they
compile. -/
def forEach (op : List α → σ → σ) (ts : List (List α)) (s : σ) : Outcome σ := do
  let r ← calls (invokeAt (fun xs s => ((), op xs s)) ts) (List.range (zipLength (ts.map List.length))) s
  return r.2

/-- `unrolled_enumerate(op, ts...)`, tuple_algorithms.hpp:228-239 (and `enumerate`): the index is a template argument. -/
def enumerate (op : Nat → List α → σ → σ) (ts : List (List α)) (s : σ) : Outcome σ := do
  let r ← calls (fun i => invokeAt (fun xs s => ((), op i xs s)) ts i) (List.range (zipLength (ts.map List.length))) s
  return r.2

/-- `unrolled_all_of(f, ts...)`, tuple_algorithms.hpp:259-264 (and `all_of`). -/
def allOf (f : List α → σ → Bool × σ) (ts : List (List α)) (s : σ) : Outcome (Bool × σ) :=
  andFoldL ((List.range (zipLength (ts.map List.length))).map (invokeAt f ts)) s

/-- `unrolled_any_of(f, ts...)`, tuple_algorithms.hpp:281-286 (and `any_of`). -/
def anyOf (f : List α → σ → Bool × σ) (ts : List (List α)) (s : σ) : Outcome (Bool × σ) :=
  orFoldL ((List.range (zipLength (ts.map List.length))).map (invokeAt f ts)) s

/-- `unrolled_none_of(f, ts...)`, tuple_algorithms.hpp:302-315 (and `none_of`). -/
def noneOf (f : List α → σ → Bool × σ) (ts : List (List α)) (s : σ) : Outcome (Bool × σ) := do
  let r ← anyOf f ts s
  return (!r.1, r.2)

/-- `operator==(one_of, rhs)`, tuple.hpp:524-531: `((args == rhs) || ...)`. -/
def oneOfEq (eq : α → γ → σ → Bool × σ) (t : List α) (rhs : γ) (s : σ) : Outcome (Bool × σ) :=
  orFoldR (t.map fun x s => .ok (eq x rhs s)) s

/-! ## Chunks -/

/-- `test_pair_t::value<I, J>`, tuple_algorithms.hpp:360-365: the projections of the types are the same. -/
def testPair [DecidableEq κ] (proj : α → κ) (t : List α) (i j : Nat) : Outcome Bool := do
  let x ← get t i
  let y ← get t j
  return decide (proj x = proj y)

/-- `count_chunks`, tuple_algorithms.hpp:367-377, for the pairs of indices given by `at`. -/
def countChunks (test : Nat → Outcome Bool) : List Nat → Nat → Outcome Nat
  | [], c => .ok c
  | i :: is, c => do
    let b ← test i
    countChunks test is (c + (if b then 0 else 1))

/-- `chunk`, tuple_algorithms.hpp:379-384. -/
structure Chunk where
  offset : Nat
  size : Nat
  deriving DecidableEq

/-- `++chunks[index].size`, tuple_algorithms.hpp:392, 397, 518 and 523. -/
def bump (cs : List Chunk) (index : Nat) : Outcome (List Chunk) := do
  let c ← arrGet cs index
  arrSet cs index ⟨c.offset, c.size + 1⟩

/-- `check_next_chunk<I>` for each index, tuple_algorithms.hpp:393-404, and the loop of `gather_by`, 519-524. -/
def chunkLoop (test : Nat → Outcome Bool) : List Nat → List Chunk → Nat → Outcome (List Chunk)
  | [], cs, _ => .ok cs
  | i :: is, cs, index => do
    let b ← test i
    if b then do
      let cs ← bump cs index
      chunkLoop test is cs index
    else do
      let c ← arrGet cs (index + 1)
      let cs ← arrSet cs (index + 1) ⟨i + 1, c.size⟩
      let cs ← bump cs (index + 1)
      chunkLoop test is cs (index + 1)

/-- `create_chunks`, tuple_algorithms.hpp:386-405 (and 513-526), for a tuple of size `n > 1`. -/
def createChunks (test : Nat → Outcome Bool) (n : Nat) : Outcome (List Chunk) := do
  let count ← countChunks test (List.range (n - 1)) 1
  let cs ← bump (List.replicate count ⟨0, 0⟩) 0
  chunkLoop test (List.range (n - 1)) cs 0

/-- `chunk_by<Proj>(t)`, tuple_algorithms.hpp:408-428 (`chunk`: with the type itself, 430-432). -/
def chunkBy [DecidableEq κ] (proj : α → κ) (t : List α) : Outcome (List (List α)) :=
  if t.length = 0 then .ok []
  else if t.length = 1 then .ok [t]
  else do
    let chunks ← createChunks (fun i => testPair proj t i (i + 1)) t.length
    mapO (fun i => do
      let c ← arrGet chunks i
      mapO (fun j => get t (c.offset + j)) (List.range c.size)) (List.range chunks.length)

/-! ## Sorting -/

/-- What `std::sort` may do to the array of names and indices with the comparison `p1.first < p2.first`
(tuple_algorithms.hpp:335-337): any permutation in which no later name is less than an earlier one.  `idx` is
the array of the indices afterwards. -/
def SortedIndices (lt : κ → κ → Prop) (name : α → κ) (t : List α) (idx : List Nat) : Prop :=
  ∃ a : List (κ × Nat), a.Perm (t.zipIdx.map fun e => (name e.1, e.2)) ∧ a.Pairwise (fun p q => ¬ lt q.1 p.1) ∧
    idx = a.map Prod.snd

/-- `sort<Proj>(t)`, tuple_algorithms.hpp:348-357, given the sorted indices. -/
def sortBy (idx : List Nat) (t : List α) : Outcome (List α) :=
  mapO (fun i => do
    let j ← arrGet idx i
    get t j) (List.range t.length)

/-- `gather_by<Proj>(t)`, tuple_algorithms.hpp:496-539, given the sorted indices; `std::count` of `false` in `tests`
is `countChunks` less one. -/
def gatherBy [DecidableEq κ] (proj : α → κ) (idx : List Nat) (t : List α) : Outcome (List (List α)) :=
  if t.length = 0 then .ok []
  else if t.length = 1 then .ok [t]
  else do
    let tests ← mapO (fun i => do
      let x ← arrGet idx i
      let y ← arrGet idx (i + 1)
      testPair proj t x y) (List.range (t.length - 1))
    let chunks ← createChunks (fun i => arrGet tests i) t.length
    mapO (fun i => do
      let c ← arrGet chunks i
      mapO (fun j => do
        let k ← arrGet idx (c.offset + j)
        get t k) (List.range c.size)) (List.range chunks.length)

/-! ## Sets -/

/-- `unique(t)`, tuple_algorithms.hpp:476-481: the first element of each chunk. -/
def unique [DecidableEq κ] (ty : α → κ) (t : List α) : Outcome (List α) := do
  let cs ← chunkBy ty t
  mapO (fun c => get c 0) cs

/-- `to_sorted_set(t)`, tuple_algorithms.hpp:483-485, given the sorted indices. -/
def toSortedSet [DecidableEq κ] (ty : α → κ) (idx : List Nat) (t : List α) : Outcome (List α) := do
  let s ← sortBy idx t
  unique ty s

/-- `mp_unique` (tuple_algorithms.hpp:489): the first occurrence of each type. -/
def mpUnique [DecidableEq κ] : List κ → List κ
  | [] => []
  | k :: ks => k :: (mpUnique ks).filter (· ≠ k)

/-- `mp_find` (tuple_algorithms.hpp:491): the index of the first occurrence, or the size. -/
def mpFind [DecidableEq κ] (ks : List κ) (k : κ) : Nat := ks.findIdx (· = k)

/-- `to_unsorted_set(t)`, tuple_algorithms.hpp:487-494. -/
def toUnsortedSet [DecidableEq κ] (ty : α → κ) (t : List α) : Outcome (List α) := do
  let u := mpUnique (t.map ty)
  mapO (fun i => do
    let k ← get u i
    get t (mpFind (t.map ty) k)) (List.range u.length)

/-! ## Cartesian product -/

/-- `cartesian_product(ts...)` and `cartesian_product_copy` of lvalues, tuple_algorithms.hpp:434-474.  The
elements of the former's results are references into the arguments; their lifetime is not modelled. -/
def cartesian : List (List α) → Outcome (List (List α))
  | [] => .ok [[]]
  | first :: rest => do
    let c ← cartesian rest
    let ps ← mapO (fun e => mapO (fun sub => tupleCat [[e], sub]) c) first
    tupleCat ps

/-- `prepend(e)` of `cartesian_product_copy` for an rvalue tuple, tuple_algorithms.hpp:443-448: `std::forward<E>(e)` is
expanded once for each of the subs, in an unspecified order; the first evaluation (of `n`, the one at position
`k n`) moves the value out, the others get the moved-from value. -/
def prependMove (moved : α → α) (k : Nat → Nat) (e : α) (c : List (List α)) : Outcome (List (List α)) :=
  mapO (fun s : List α × Nat => tupleCat [[if s.2 = k c.length then e else moved e], s.1]) c.zipIdx

/-- `cartesian_product_copy(ts...)` with rvalue tuples, tuple_algorithms.hpp:434-453. -/
def cartesianMove (moved : α → α) (k : Nat → Nat) : List (List α) → Outcome (List (List α))
  | [] => .ok [[]]
  | first :: rest => do
    let c ← cartesianMove moved k rest
    let ps ← mapO (fun e => prependMove moved k e c) first
    tupleCat ps

end Verif.Tuple
