import Verif.Tuple.Lemmas
import Mathlib.Tactic.Ring

/-! # Tuples: folds, comparison, zipping (C59, C60, C63, C64) -/

namespace Verif.Tuple

variable {α β γ κ σ τ : Type}

/-! ## C59 -/

/-- The effect of one call by the function object as it was passed. -/
def Call.first (call : Call τ α β γ σ) (op : τ) (a : α) (b : β) (s : σ) : γ × σ := ((call op a b s).1.1, (call op a b s).2)

/-- A call that also records its arguments. -/
def recording (call : Call τ α β γ σ) : Call τ α β γ (σ × List (τ × α × β)) := fun op a b s =>
  ((call op a b s.1).1, (call op a b s.1).2, s.2 ++ [(op, a, b)])

/-- Left-to-right: each call gets the previous result (at first the initial value) and the next element. -/
inductive LeftRun (f : β → α → σ → β × σ) : β → List α → σ → List (β × α) → β → σ → Prop
  | nil {b s} : LeftRun f b [] s [] b s
  | cons {b x xs s cs v s'} : LeftRun f (f b x s).1 xs (f b x s).2 cs v s' → LeftRun f b (x :: xs) s ((b, x) :: cs) v s'

theorem foldExprL_plusL (call : Call τ β α β σ) (op : τ) (b : β) (t : List α) (s : σ) :
    foldExprL (plusL call) ⟨op, b⟩ t s =
      (⟨op, (t.foldl (fun r x => call.first op r.1 x r.2) (b, s)).1⟩, (t.foldl (fun r x => call.first op r.1 x r.2) (b, s)).2) := by
  induction t generalizing b s with
  | nil => rfl
  | cons x xs ih => rw [foldExprL, List.foldl_cons]; simp only [plusL]; rw [ih]; rfl

theorem foldExprR_plusR (call : Call τ α β β σ) (op : τ) (b : β) (t : List α) (s : σ) :
    foldExprR (plusR call) t ⟨op, b⟩ s =
      (⟨op, (t.foldr (fun x r => call.first op x r.1 r.2) (b, s)).1⟩, (t.foldr (fun x r => call.first op x r.1 r.2) (b, s)).2) := by
  induction t with
  | nil => rfl
  | cons x xs ih => rw [foldExprR, List.foldr_cons, ih]; rfl

theorem foldExprL_plusJ (call : Call τ α α α σ) (op : τ) (x : α) (t : List α) (s : σ) :
    foldExprL (plusJ call) ⟨op, x⟩ (t.map (Helper.mk op)) s = foldExprL (plusL call) ⟨op, x⟩ t s := by
  induction t generalizing x s with
  | nil => rfl
  | cons y ys ih => rw [List.map_cons, foldExprL, foldExprL]; exact ih _ _

/-- **C59, fold_left.** The result is the left fold in element order; the calls are one per element, in order, each with
the previous result, and each by the function object in the state in which it was passed. -/
theorem C59_fold_left (call : Call τ β α β σ) (op : τ) (init : β) (t : List α) (s : σ) :
    foldLeft call op init t s = t.foldl (fun r x => call.first op r.1 x r.2) (init, s) ∧
    ∃ cs : List (β × α), (foldLeft (recording call) op init t (s, [])).2.2 = cs.map (fun c => (op, c.1, c.2)) ∧
      cs.map Prod.snd = t ∧
      LeftRun (call.first op) init t s cs (foldLeft call op init t s).1 (foldLeft call op init t s).2 := by
  unfold foldLeft
  simp only [foldExprL_plusL]
  refine ⟨trivial, ?_⟩
  have key : ∀ (t : List α) (b : β) (s : σ) (l : List (τ × β × α)), ∃ cs : List (β × α),
      (t.foldl (fun r x => (recording call).first op r.1 x r.2) (b, (s, l))).2.2 = l ++ cs.map (fun c => (op, c.1, c.2)) ∧
        cs.map Prod.snd = t ∧
        LeftRun (call.first op) b t s cs (t.foldl (fun r x => call.first op r.1 x r.2) (b, s)).1
          (t.foldl (fun r x => call.first op r.1 x r.2) (b, s)).2 := by
    intro t
    induction t with
    | nil => intro b s l; exact ⟨[], by simp, rfl, .nil⟩
    | cons x xs ih =>
      intro b s l
      obtain ⟨cs, h1, h2, h3⟩ := ih (call.first op b x s).1 (call.first op b x s).2 (l ++ [(op, b, x)])
      refine ⟨(b, x) :: cs, ?_, by simp [h2], .cons h3⟩
      rw [List.foldl_cons, show (recording call).first op b x (s, l) =
        ((call.first op b x s).1, ((call.first op b x s).2, l ++ [(op, b, x)])) from rfl, h1]
      simp
  obtain ⟨cs, h1, h2, h3⟩ := key t init s []
  exact ⟨cs, by simpa using h1, h2, h3⟩

/-- **C59, fold_right.** The result is the right fold; the calls are one per element, from the last to the first, each
with the previous result on the right: the left fold of the reversed tuple with the arguments exchanged. -/
theorem C59_fold_right (call : Call τ α β β σ) (op : τ) (init : β) (t : List α) (s : σ) :
    foldRight call op init t s = t.foldr (fun x r => call.first op x r.1 r.2) (init, s) ∧
    foldRight call op init t s = foldLeft (fun op b x => call op x b) op init t.reverse s ∧
    (foldRight (recording call) op init t (s, [])).2.2.map (fun c => (c.1, c.2.1)) = t.reverse.map fun x => (op, x) := by
  unfold foldRight foldLeft
  simp only [foldExprR_plusR, foldExprL_plusL]
  refine ⟨trivial, ?_, ?_⟩
  · rw [List.foldl_reverse]; rfl
  · have key : ∀ (t : List α) (l : List (τ × α × β)),
        (t.foldr (fun x r => (recording call).first op x r.1 r.2) (init, (s, l))).2.2.map (fun c => (c.1, c.2.1)) =
        l.map (fun c => (c.1, c.2.1)) ++ t.reverse.map fun x => (op, x) := by
      intro t l
      induction t with
      | nil => simp
      | cons x xs ih =>
        rw [List.foldr_cons]
        simp only [Call.first, recording] at ih ⊢
        rw [List.map_append, ih]; simp
    simpa using key t []

/-- **C59, join.** For a non-empty tuple, the left fold of the other elements with the first as initial value, also when
an initial value is supplied; that is returned, without a call, for an empty tuple only. -/
theorem C59_join (call : Call τ α α α σ) (op : τ) (init : α) (s : σ) :
    (∀ x xs, join call op (x :: xs) s = .ok (foldLeft call op x xs s) ∧
      joinInit init call op (x :: xs) s = .ok (foldLeft call op x xs s)) ∧
    joinInit init call op [] s = .ok (init, s) ∧ join call op [] s = .ub := by
  have h : ∀ x xs, join call op (x :: xs) s = .ok (foldLeft call op x xs s) := by
    intro x xs
    unfold join foldLeft
    simp only [List.map_cons, foldExprL_plusJ]
  refine ⟨fun x xs => ⟨h x xs, ?_⟩, rfl, rfl⟩
  unfold joinInit; rw [if_neg (by simp), h]

/-- The fold that keeps the function object: what the calls do to its members is seen by the later calls. -/
def keeping (call : Call τ β α β σ) (op : τ) (init : β) (t : List α) (s : σ) : (β × τ) × σ :=
  t.foldl (fun r x => call r.1.2 r.1.1 x r.2) ((init, op), s)

/-- A function object whose calls do not depend on what earlier calls did to its members gives the fold that keeps it. -/
theorem C59_own_state_partial (call : Call τ β α β σ) (op : τ) (init : β) (t : List α) (s : σ)
    (h : ∀ op b x s, (call op b x s).1.2 = op) :
    foldLeft call op init t s = ((keeping call op init t s).1.1, (keeping call op init t s).2) := by
  rw [(C59_fold_left call op init t s).1]
  unfold keeping
  induction t generalizing init s with
  | nil => rfl
  | cons x xs ih =>
    rw [List.foldl_cons, List.foldl_cons, ih]
    have h' : call op init x s = (((call.first op init x s).1, op), (call.first op init x s).2) := by
      conv_lhs => rw [← Prod.eta (call op init x s), ← Prod.eta (call op init x s).1, h op init x s]
      rfl
    simp only [h']

/-- A function object that numbers its calls (`[n = 0](auto acc, auto) mutable { return acc + n++; }`) adds its first
number every time, for every tuple: the members it changes are those of a temporary, and the fold is not the one that
keeps the function object. -/
theorem C59_own_state_violated (n init : Nat) (t : List α) (s : σ) :
    foldLeft (fun n acc _ s => ((acc + n, n + 1), s)) n init t s = (init + t.length * n, s) ∧
    (2 ≤ t.length → (keeping (fun n acc (_ : α) (s : σ) => ((acc + n, n + 1), s)) n init t s).1.1 > init + t.length * n) := by
  constructor
  · rw [(C59_fold_left _ _ _ _ _).1]
    induction t generalizing init with
    | nil => simp
    | cons x xs ih => rw [List.foldl_cons]; simp only [Call.first] at ih ⊢; rw [ih, List.length_cons]; congr 1; ring
  · have key : ∀ (t : List α) (n init : Nat), init + t.length * n ≤
        (keeping (fun n acc (_ : α) (s : σ) => ((acc + n, n + 1), s)) n init t s).1.1 := by
      intro t
      induction t with
      | nil => intro n init; simp [keeping]
      | cons x xs ih =>
        intro n init
        have h := ih (n + 1) (init + n)
        unfold keeping at h ⊢
        rw [List.foldl_cons]
        refine Nat.le_trans ?_ h
        rw [List.length_cons, Nat.mul_add, Nat.add_mul]; omega
    intro h2
    obtain _ | ⟨x, _ | ⟨y, xs⟩⟩ := t
    · simp at h2
    · simp at h2
    have h := key (y :: xs) (n + 1) (init + n)
    unfold keeping at h ⊢
    rw [List.foldl_cons]
    refine Nat.lt_of_lt_of_le ?_ h
    simp only [List.length_cons, Nat.mul_add, Nat.add_mul]; omega

example : foldLeft (fun (_ : Unit) b x (s : Nat) => ((b - x, ()), s + 1)) () (10 : Int) [1, 2, 3] 0 = (4, 3) ∧
    foldRight (fun (_ : Unit) x b (s : Nat) => ((x - b, ()), s + 1)) () (10 : Int) [1, 2, 3] 0 = (-8, 3) := by decide
example : foldLeft (fun n acc _ (s : Unit) => ((acc + n, n + 1), s)) 1 10 ["a", "b", "c"] () = (13, ()) ∧
    (keeping (fun n acc (_ : String) (s : Unit) => ((acc + n, n + 1), s)) 1 10 ["a", "b", "c"] ()).1.1 = 16 := by decide

/-- **C59, tail.** `tail` drops the first element (and is the empty tuple for an empty one). -/
theorem C59_tail (t : List α) : tail t = .ok (t.drop 1) := by
  unfold tail
  cases t with
  | nil => rfl
  | cons x xs =>
    rw [if_neg (by simp)]
    simp only [List.length_cons, Nat.add_sub_cancel, List.drop_succ_cons, List.drop_zero]
    exact mapO_range rfl fun i hi => by rw [get_eq (by simpa using hi)]; simp

/-! ## Short-circuiting folds -/

/-- Evaluating conditions in order until one is false. -/
inductive AllRun : List (σ → Outcome (Bool × σ)) → σ → Nat → Bool → σ → Prop
  | nil {s} : AllRun [] s 0 true s
  | stop {e es s s'} : e s = .ok (false, s') → AllRun (e :: es) s 1 false s'
  | next {e es s s' n b s''} : e s = .ok (true, s') → AllRun es s' n b s'' → AllRun (e :: es) s (n + 1) b s''

/-- Evaluating conditions in order until one is true. -/
inductive AnyRun : List (σ → Outcome (Bool × σ)) → σ → Nat → Bool → σ → Prop
  | nil {s} : AnyRun [] s 0 false s
  | stop {e es s s'} : e s = .ok (true, s') → AnyRun (e :: es) s 1 true s'
  | next {e es s s' n b s''} : e s = .ok (false, s') → AnyRun es s' n b s'' → AnyRun (e :: es) s (n + 1) b s''

theorem go_and (es : List (σ → Outcome (Bool × σ))) (acc : σ → Outcome (Bool × σ)) (s : σ) :
    andFoldL.go acc es s = (acc s >>= fun r => if r.1 then andFoldL es r.2 else .ok r) := by
  induction es generalizing acc s with
  | nil =>
    rw [andFoldL.go]
    cases acc s with
    | ok r => obtain ⟨b, s'⟩ := r; cases b <;> rfl
    | ub => rfl
    | panic => rfl
  | cons e es ih =>
    rw [andFoldL.go, ih]
    cases acc s with
    | ok r =>
      obtain ⟨b, s'⟩ := r
      cases b
      · rfl
      · simp only [Outcome.ok_bind, if_true]
        rw [andFoldL, ih]
    | ub => rfl
    | panic => rfl

theorem go_or (es : List (σ → Outcome (Bool × σ))) (acc : σ → Outcome (Bool × σ)) (s : σ) :
    orFoldL.go acc es s = (acc s >>= fun r => if r.1 then .ok r else orFoldL es r.2) := by
  induction es generalizing acc s with
  | nil =>
    rw [orFoldL.go]
    cases acc s with
    | ok r => obtain ⟨b, s'⟩ := r; cases b <;> rfl
    | ub => rfl
    | panic => rfl
  | cons e es ih =>
    rw [orFoldL.go, ih]
    cases acc s with
    | ok r =>
      obtain ⟨b, s'⟩ := r
      cases b
      · simp only [Outcome.ok_bind, Bool.false_eq_true, if_false]
        rw [orFoldL, ih]
      · rfl
    | ub => rfl
    | panic => rfl

theorem andFoldL_cons (e : σ → Outcome (Bool × σ)) (es : List (σ → Outcome (Bool × σ))) (s : σ) :
    andFoldL (e :: es) s = (e s >>= fun r => if r.1 then andFoldL es r.2 else .ok r) := go_and es e s

theorem orFoldL_cons (e : σ → Outcome (Bool × σ)) (es : List (σ → Outcome (Bool × σ))) (s : σ) :
    orFoldL (e :: es) s = (e s >>= fun r => if r.1 then .ok r else orFoldL es r.2) := go_or es e s

theorem orFoldR_eq (es : List (σ → Outcome (Bool × σ))) (s : σ) : orFoldR es s = orFoldL es s := by
  induction es generalizing s with
  | nil => rfl
  | cons e es ih =>
    rw [orFoldL_cons]
    cases es with
    | nil =>
      rw [orFoldR]
      cases e s with
      | ok r => obtain ⟨b, s'⟩ := r; cases b <;> rfl
      | ub => rfl
      | panic => rfl
    | cons d ds =>
      rw [orFoldR]
      · congr 1; funext r; rw [ih]; rfl
      · intro h; cases h

theorem andFoldL_run (es : List (σ → Outcome (Bool × σ))) (h : ∀ e ∈ es, ∀ s, ∃ r, e s = .ok r) (s : σ) :
    ∃ n b s', andFoldL es s = .ok (b, s') ∧ AllRun es s n b s' := by
  induction es generalizing s with
  | nil => exact ⟨0, true, s, rfl, .nil⟩
  | cons e es ih =>
    rw [andFoldL_cons]
    obtain ⟨⟨b, s1⟩, he⟩ := h e (by simp) s
    rw [he, Outcome.ok_bind]
    cases b with
    | false => exact ⟨1, false, s1, rfl, .stop he⟩
    | true =>
      obtain ⟨n, b, s', h1, h2⟩ := ih (fun e he => h e (by simp [he])) s1
      exact ⟨n + 1, b, s', by simpa using h1, .next he h2⟩

theorem orFoldL_run (es : List (σ → Outcome (Bool × σ))) (h : ∀ e ∈ es, ∀ s, ∃ r, e s = .ok r) (s : σ) :
    ∃ n b s', orFoldL es s = .ok (b, s') ∧ AnyRun es s n b s' := by
  induction es generalizing s with
  | nil => exact ⟨0, false, s, rfl, .nil⟩
  | cons e es ih =>
    rw [orFoldL_cons]
    obtain ⟨⟨b, s1⟩, he⟩ := h e (by simp) s
    rw [he, Outcome.ok_bind]
    cases b with
    | true => exact ⟨1, true, s1, rfl, .stop he⟩
    | false =>
      obtain ⟨n, b, s', h1, h2⟩ := ih (fun e he => h e (by simp [he])) s1
      exact ⟨n + 1, b, s', by simpa using h1, .next he h2⟩

/-! ## C60 -/

/-- The lexicographic comparison: the first elements that do not compare equal decide. -/
inductive Lex (cmpAt : Nat → α → β → Cmp) : Nat → List α → List β → Cmp → Prop
  | nil {i} : Lex cmpAt i [] [] .equal
  | differ {i x xs y ys} : cmpAt i x y ≠ .equal → Lex cmpAt i (x :: xs) (y :: ys) (cmpAt i x y)
  | same {i x xs y ys c} : cmpAt i x y = .equal → Lex cmpAt (i + 1) xs ys c → Lex cmpAt i (x :: xs) (y :: ys) c

theorem Lex.unique {cmpAt : Nat → α → β → Cmp} {i : Nat} {l : List α} {r : List β} {c d : Cmp} (h1 : Lex cmpAt i l r c)
    (h2 : Lex cmpAt i l r d) : c = d := by
  induction h1 with
  | nil => cases h2; rfl
  | differ hne =>
    cases h2 with
    | differ => rfl
    | same he _ => exact absurd he hne
  | same he _ ih =>
    cases h2 with
    | differ hne => exact absurd he hne
    | same _ h => exact ih h

theorem lex_exists (cmpAt : Nat → α → β → Cmp) (i : Nat) (l : List α) (r : List β) (h : l.length = r.length) :
    ∃ c, Lex cmpAt i l r c := by
  induction l generalizing i r with
  | nil => cases r with
    | nil => exact ⟨_, .nil⟩
    | cons => simp at h
  | cons x xs ih => cases r with
    | nil => simp at h
    | cons y ys =>
      by_cases he : cmpAt i x y = .equal
      · obtain ⟨c, hc⟩ := ih (i + 1) ys (by simpa using h)
        exact ⟨c, .same he hc⟩
      · exact ⟨_, .differ he⟩

theorem compare_run {cmpAt : Nat → α → β → Cmp} {l : List α} {r : List β} (hlen : l.length = r.length) (n k : Nat)
    (hk : k + n = l.length) (c0 c : Cmp) (hc0 : n = 0 → c = c0 ) (hl : Lex cmpAt k (l.drop k) (r.drop k) c) :
    ∃ b, orFoldL ((List.range' k n).map (compareAt cmpAt l r)) c0 = .ok (b, c) := by
  induction n generalizing k c0 with
  | zero => exact ⟨false, by rw [hc0 rfl]; rfl⟩
  | succ n ih =>
    rw [List.range'_succ, List.map_cons, orFoldL_cons]
    have hlk : k < l.length := by omega
    have hrk : k < r.length := by omega
    have hca : compareAt cmpAt l r k c0 = .ok (decide (cmpAt k l[k] r[k] ≠ .equal), cmpAt k l[k] r[k]) := by
      unfold compareAt
      rw [get_eq hlk, Outcome.ok_bind, get_eq hrk, Outcome.ok_bind]; rfl
    rw [hca, Outcome.ok_bind]
    rw [List.drop_eq_getElem_cons hlk, List.drop_eq_getElem_cons hrk] at hl
    cases hl with
    | differ hne =>
      exact ⟨true, by simp [hne]⟩
    | same he hl' =>
      simp only [he]
      obtain ⟨b, hb⟩ := ih (k + 1) (by omega) .equal (fun h0 => by
        rw [List.drop_eq_nil_of_le (by omega), List.drop_eq_nil_of_le (by omega)] at hl'
        cases hl'; rfl) hl'
      exact ⟨b, by simpa using hb⟩

/-- **C60, three-way.** `<=>` of tuples of the same size is the lexicographic comparison of their elements. -/
theorem C60_three_way (cmpAt : Nat → α → β → Cmp) (l : List α) (r : List β) (hlen : l.length = r.length) :
    ∃ c, opCmp cmpAt l r = .ok c ∧ Lex cmpAt 0 l r c := by
  obtain ⟨c, hc⟩ := lex_exists cmpAt 0 l r hlen
  refine ⟨c, ?_, hc⟩
  unfold opCmp
  by_cases h0 : l.length = 0
  · rw [if_pos h0]
    have : l = [] := List.eq_nil_of_length_eq_zero h0
    have : r = [] := List.eq_nil_of_length_eq_zero (by omega)
    subst l r
    cases hc; rfl
  · rw [if_neg h0, get_eq (by omega), Outcome.ok_bind, get_eq (by omega), Outcome.ok_bind]
    simp only
    rw [orFoldR_eq]
    obtain ⟨b, hb⟩ := compare_run hlen l.length 0 (by omega) (cmpAt 0 l[0] r[0]) c (fun h => absurd h h0) (by simpa using hc)
    rw [List.range_eq_range', hb]
    rfl

/-- **C60, equality.** `==` holds exactly if all elements compare equal; elements after the first difference are not
compared. -/
theorem C60_equality (eqAt : Nat → α → β → Bool) (l : List α) (r : List β) (hlen : l.length = r.length) :
    ∃ b n, opEq (fun i x y (s : Nat) => (eqAt i x y, s + 1)) l r 0 = .ok (b, n) ∧
      (b = true ↔ ∀ i (hi : i < l.length), eqAt i l[i] (r[i]'(hlen ▸ hi)) = true) ∧
      (∀ i, i + 1 < n → ∃ (hi : i < l.length), eqAt i l[i] (r[i]'(hlen ▸ hi)) = true) ∧ n ≤ l.length := by
  have key : ∀ n k c, k + n = l.length → ∃ b m, andFoldL ((List.range' k n).map fun i (s : Nat) => do
        let x ← get l i
        let y ← get r i
        return (eqAt i x y, s + 1)) c = .ok (b, c + m) ∧
      (b = true ↔ ∀ i (hi : i < l.length), k ≤ i → eqAt i l[i] (r[i]'(hlen ▸ hi)) = true) ∧
      (∀ i, k ≤ i → i + 1 < k + m → ∃ (hi : i < l.length), eqAt i l[i] (r[i]'(hlen ▸ hi)) = true) ∧ m ≤ n := by
    intro n
    induction n with
    | zero => intro k c hk; exact ⟨true, 0, rfl, by simp; omega, by intro i; omega, by omega⟩
    | succ n ih =>
      intro k c hk
      rw [List.range'_succ, List.map_cons, andFoldL_cons]
      have hlk : k < l.length := by omega
      have hrk : k < r.length := by omega
      rw [get_eq hlk, Outcome.ok_bind, get_eq hrk, Outcome.ok_bind, Outcome.pure_eq_ok, Outcome.ok_bind]
      by_cases he : eqAt k l[k] r[k] = true
      · obtain ⟨b, m, h1, h2, h3, h4⟩ := ih (k + 1) (c + 1) (by omega)
        refine ⟨b, m + 1, by simp only [he, if_true]; rw [h1, Nat.add_assoc, Nat.add_comm 1], ?_, ?_, by omega⟩
        · rw [h2]
          constructor
          · intro h i hi hki
            by_cases hik : i = k
            · subst hik; exact he
            · exact h i hi (by omega)
          · intro h i hi hki; exact h i hi (by omega)
        · intro i hki him
          by_cases hik : i = k
          · subst hik; exact ⟨hlk, he⟩
          · exact h3 i (by omega) (by omega)
      · have he' : eqAt k l[k] r[k] = false := by simpa using he
        refine ⟨false, 1, by simp [he'], ?_, by intro i; omega, by omega⟩
        constructor
        · intro h; cases h
        · intro h; exact absurd (h k hlk (Nat.le_refl _)) he
  obtain ⟨b, n, h1, h2, h3, h4⟩ := key l.length 0 0 (by omega)
  refine ⟨b, n, ?_, by simpa using h2, fun i hi => h3 i (by omega) (by omega), h4⟩
  unfold opEq
  rw [List.range_eq_range', h1, Nat.zero_add]

/-- A three-way comparison of a total order. -/
structure TotalCmp (cmp : α → α → Cmp) : Prop where
  equal : ∀ x y, cmp x y = .equal ↔ x = y
  flip : ∀ x y, cmp x y = .less ↔ cmp y x = .greater
  trans : ∀ x y z, cmp x y = .less → cmp y z = .less → cmp x z = .less
  total : ∀ x y, cmp x y ≠ .unordered

theorem lex_equal {cmpAt : Nat → α → α → Cmp} (h : ∀ i, TotalCmp (cmpAt i)) {i : Nat} {l r : List α} {c : Cmp}
    (hl : Lex cmpAt i l r c) : c = .equal ↔ l = r := by
  induction hl with
  | nil => simp
  | @differ i x xs y ys hne =>
    have : x ≠ y := fun e => hne ((h i).equal x y |>.mpr e)
    simp [hne, this]
  | @same i x xs y ys c he _ ih =>
    rw [ih]
    have : x = y := ((h i).equal x y).mp he
    simp [this]

theorem lex_flip {cmpAt : Nat → α → α → Cmp} (h : ∀ i, TotalCmp (cmpAt i)) {i : Nat} {l r : List α} :
    Lex cmpAt i l r .less ↔ Lex cmpAt i r l .greater := by
  constructor
  · intro hl
    generalize hc : Cmp.less = c at hl
    induction hl with
    | nil => cases hc
    | @differ i x xs y ys hne =>
      rw [← ((h i).flip x y).mp hc.symm]
      exact .differ (by rw [((h i).flip x y).mp hc.symm]; decide)
    | @same i x xs y ys c he _ ih =>
      exact .same (((h i).equal y x).mpr (((h i).equal x y).mp he).symm) (ih hc)
  · intro hl
    generalize hc : Cmp.greater = c at hl
    induction hl with
    | nil => cases hc
    | @differ i x xs y ys hne =>
      rw [← ((h i).flip y x).mpr hc.symm]
      exact .differ (by rw [((h i).flip y x).mpr hc.symm]; decide)
    | @same i x xs y ys c he _ ih =>
      exact .same (((h i).equal y x).mpr (((h i).equal x y).mp he).symm) (ih hc)

theorem lex_trans {cmpAt : Nat → α → α → Cmp} (h : ∀ i, TotalCmp (cmpAt i)) {i : Nat} {l m r : List α}
    (h1 : Lex cmpAt i l m .less) (h2 : Lex cmpAt i m r .less) : Lex cmpAt i l r .less := by
  generalize hc : Cmp.less = c at h1
  induction h1 generalizing r with
  | nil => cases hc
  | @differ i x xs y ys hne =>
    generalize hd : Cmp.less = d at h2
    cases h2 with
    | @differ _ _ _ z zs hne' =>
      have := (h i).trans x y z hc.symm hd.symm
      rw [← hc, ← this]; exact .differ (by rw [this]; decide)
    | @same _ _ _ z zs _ he _ =>
      have : y = z := ((h i).equal y z).mp he
      subst this
      exact .differ hne
  | @same i x xs y ys c he _ ih =>
    have : x = y := ((h i).equal x y).mp he
    subst this
    generalize hd : Cmp.less = d at h2
    cases h2 with
    | differ hne' => subst hc; rw [hd]; exact .differ hne'
    | same he' h' => exact .same he' (ih (hd ▸ h') hc)

theorem lex_not_unordered {cmpAt : Nat → α → α → Cmp} (h : ∀ i, TotalCmp (cmpAt i)) {i : Nat} {l r : List α} :
    ¬ Lex cmpAt i l r .unordered := by
  intro hl
  generalize hc : Cmp.unordered = c at hl
  induction hl with
  | nil => cases hc
  | @differ i x xs y ys _ => exact (h i).total x y hc.symm
  | same _ _ ih => exact ih hc

/-- **C60, order.** If every element type is totally ordered, tuples of one shape are: `<` (`<=>` is less) is
irreflexive and transitive, `<=>` is equal exactly for equal tuples, and otherwise exactly one of `l < r`, `r < l` holds. -/
theorem C60_total_order {cmpAt : Nat → α → α → Cmp} (h : ∀ i, TotalCmp (cmpAt i)) (l m r : List α) (hlm : l.length = m.length)
    (hmr : m.length = r.length) :
    opCmp cmpAt l l ≠ .ok .less ∧
    (opCmp cmpAt l m = .ok .less → opCmp cmpAt m r = .ok .less → opCmp cmpAt l r = .ok .less) ∧
    (opCmp cmpAt l m = .ok .equal ↔ l = m) ∧
    (opCmp cmpAt l m = .ok .less ↔ opCmp cmpAt m l = .ok .greater) ∧
    (opCmp cmpAt l m = .ok .less ∨ l = m ∨ opCmp cmpAt m l = .ok .less) := by
  have hiff : ∀ (a b : List α), a.length = b.length → ∀ c, opCmp cmpAt a b = .ok c ↔ Lex cmpAt 0 a b c := by
    intro a b hab c
    obtain ⟨d, h1, h2⟩ := C60_three_way cmpAt a b hab
    rw [h1]
    constructor
    · intro e; injection e with e; rw [← e]; exact h2
    · intro e; rw [e.unique h2]
  have heq : ∀ (a b : List α), a.length = b.length → (Lex cmpAt 0 a b .equal ↔ a = b) := by
    intro a b hab
    obtain ⟨d, h1⟩ := lex_exists cmpAt 0 a b hab
    rw [← lex_equal h h1]
    constructor
    · intro e; exact h1.unique e
    · intro e; rw [← e]; exact h1
  simp only [ne_eq, hiff l l rfl, hiff l m hlm, hiff m r hmr, hiff l r (hlm.trans hmr), hiff m l hlm.symm]
  refine ⟨?_, lex_trans h, heq l m hlm, lex_flip h, ?_⟩
  · intro hl
    have := hl.unique ((heq l l rfl).mpr rfl)
    cases this
  · obtain ⟨d, h1⟩ := lex_exists cmpAt 0 l m hlm
    cases d with
    | less => exact Or.inl h1
    | equal => exact Or.inr (Or.inl ((heq l m hlm).mp h1))
    | greater => exact Or.inr (Or.inr ((lex_flip h).mpr h1))
    | unordered =>
      exact absurd h1 (lex_not_unordered h)

example : TotalCmp (fun x y : Nat => if x < y then Cmp.less else if y < x then .greater else .equal) where
  equal := fun x y => by split <;> (try split) <;> simp <;> omega
  flip := fun x y => by split <;> (try split) <;> (try split) <;> simp <;> omega
  trans := fun x y z => by split <;> (try split) <;> (try split) <;> simp <;> omega
  total := fun x y => by split <;> (try split) <;> simp

/-! ## C63 -/

theorem zipLength_le {ns : List Nat} {n : Nat} (h : n ∈ ns) : zipLength ns ≤ n := by
  cases ns with
  | nil => cases h
  | cons m ms =>
    have key : ∀ (ms : List Nat) (m : Nat), ms.foldl min m ≤ m ∧ ∀ n ∈ ms, ms.foldl min m ≤ n := by
      intro ms
      induction ms with
      | nil => intro m; simp
      | cons a as ih =>
        intro m
        obtain ⟨h1, h2⟩ := ih (min m a)
        rw [List.foldl_cons]
        refine ⟨by omega, fun n hn => ?_⟩
        rcases List.mem_cons.mp hn with rfl | hn
        · omega
        · exact h2 n hn
    rcases List.mem_cons.mp h with rfl | h
    · exact (key ms _).1
    · exact (key ms m).2 n h

/-- **C63, length.** The zip length is the least of the sizes (zero without tuples). -/
theorem C63_zip_length (ns : List Nat) (h : ns ≠ []) : zipLength ns ∈ ns ∧ ∀ n ∈ ns, zipLength ns ≤ n := by
  refine ⟨?_, fun n => zipLength_le⟩
  cases ns with
  | nil => exact absurd rfl h
  | cons m ms =>
    show ms.foldl min m ∈ _
    clear h
    induction ms generalizing m with
    | nil => simp
    | cons a as ih =>
      rw [List.foldl_cons]
      have := ih (min m a)
      rcases List.mem_cons.mp this with h | h
      · by_cases hle : m ≤ a
        · rw [Nat.min_eq_left hle] at h ⊢; simp [h]
        · rw [Nat.min_eq_right (by omega)] at h ⊢; simp [h]
      · simp [h]

/-- The `i`-th elements of all tuples (specification: defined when they exist). -/
def Column (ts : List (List α)) (i : Nat) (xs : List α) : Prop := ts.map (fun t => t[i]?) = xs.map some

theorem column_eq {ts : List (List α)} {i : Nat} (h : i < zipLength (ts.map List.length)) :
    ∃ xs, column i ts = .ok xs ∧ Column ts i xs := by
  have hlt : ∀ t ∈ ts, i < t.length := fun t ht => Nat.lt_of_lt_of_le h (zipLength_le (List.mem_map_of_mem ht))
  clear h
  unfold column Column
  induction ts with
  | nil => exact ⟨[], rfl, rfl⟩
  | cons t ts ih =>
    obtain ⟨xs, h1, h2⟩ := ih (fun t ht => hlt t (by simp [ht]))
    have h := hlt t (by simp)
    refine ⟨t[i] :: xs, ?_, ?_⟩
    · rw [mapO, get_eq h, Outcome.ok_bind, h1]; rfl
    · simp [h2, h]

theorem Column.unique {ts : List (List α)} {i : Nat} {xs ys : List α} (h1 : Column ts i xs) (h2 : Column ts i ys) : xs = ys :=
  (List.map_inj_right (fun _ _ h => Option.some.inj h)).mp (h1.symm.trans h2)

/-- Calling an operation with the columns from `i` on, in order. -/
inductive ZipRun (op : Nat → List α → σ → β × σ) (ts : List (List α)) : Nat → Nat → σ → List β → σ → Prop
  | done {i s} : ZipRun op ts i 0 s [] s
  | step {i n xs s bs s'} : Column ts i xs → ZipRun op ts (i + 1) n (op i xs s).2 bs s' →
      ZipRun op ts i (n + 1) s ((op i xs s).1 :: bs) s'

theorem calls_run (op : Nat → List α → σ → β × σ) (ts : List (List α)) (n i : Nat) (h : i + n ≤ zipLength (ts.map List.length)) (s : σ) :
    ∃ bs s', calls (fun i => invokeAt (op i) ts i) (List.range' i n) s = .ok (bs, s') ∧ ZipRun op ts i n s bs s' := by
  induction n generalizing i s with
  | zero => exact ⟨[], s, rfl, .done⟩
  | succ n ih =>
    obtain ⟨xs, h1, h2⟩ := column_eq (ts := ts) (i := i) (by omega)
    obtain ⟨bs, s', h3, h4⟩ := ih (i + 1) (by omega) (op i xs s).2
    refine ⟨_, s', ?_, .step h2 h4⟩
    rw [List.range'_succ, calls]
    unfold invokeAt
    rw [h1, Outcome.ok_bind, Outcome.pure_eq_ok, Outcome.ok_bind]
    unfold invokeAt at h3
    rw [h3]
    rfl

theorem ZipRun.length {op : Nat → List α → σ → β × σ} {ts : List (List α)} {i n : Nat} {s s' : σ} {bs : List β}
    (h : ZipRun op ts i n s bs s') : bs.length = n := by
  induction h with
  | done => rfl
  | step _ _ ih => simp [ih]

/-- **C63, transform.** `transform(op, ts...)` calls `op` once per index below the least size, in order, with the elements
at that index of all tuples, and returns the results in order. -/
theorem C63_transform (op : List α → σ → β × σ) (ts : List (List α)) (s : σ) :
    ∃ bs s', transform op ts s = .ok (bs, s') ∧ ZipRun (fun _ => op) ts 0 (zipLength (ts.map List.length)) s bs s' ∧
      bs.length = zipLength (ts.map List.length) := by
  obtain ⟨bs, s', h1, h2⟩ := calls_run (fun _ => op) ts (zipLength (ts.map List.length)) 0 (by omega) s
  refine ⟨bs, s', by unfold transform; rw [List.range_eq_range']; exact h1, h2, h2.length⟩

/-- **C63, enumerate and for_each.** The operation is called once per index, in order, with the index and the elements at
it; the final state of the operation is returned. -/
theorem C63_enumerate (op : Nat → List α → σ → σ) (ts : List (List α)) (s : σ) :
    ∃ bs s', enumerate op ts s = .ok s' ∧
      ZipRun (fun i xs s => ((), op i xs s)) ts 0 (zipLength (ts.map List.length)) s bs s' := by
  obtain ⟨bs, s', h1, h2⟩ := calls_run (fun i xs s => ((), op i xs s)) ts (zipLength (ts.map List.length)) 0 (by omega) s
  refine ⟨bs, s', ?_, h2⟩
  unfold enumerate
  rw [List.range_eq_range', h1]; rfl

theorem C63_for_each (op : List α → σ → σ) (ts : List (List α)) (s : σ) :
    forEach op ts s = enumerate (fun _ => op) ts s ∧ ∃ s', forEach op ts s = .ok s' := by
  obtain ⟨bs, s', h1, _⟩ := C63_enumerate (fun _ => op) ts s
  exact ⟨rfl, s', h1⟩

/-- For a single tuple, and a pure operation, `transform` maps. -/
theorem C63_transform_single (f : α → β) (t : List α) (s : σ) :
    transform (fun xs s => (xs.map f, s)) [t] s = .ok (t.map fun x => [f x], s) := by
  unfold transform
  show calls _ (List.range t.length) s = _
  have key : ∀ (u pre : List α), t = pre ++ u → calls (invokeAt (fun xs s => (xs.map f, s)) [t])
      (List.range' pre.length u.length) s = .ok (u.map fun x => [f x], s) := by
    intro u
    induction u with
    | nil => intro pre _; rfl
    | cons x xs ih =>
      intro pre ht
      rw [List.length_cons, List.range'_succ, calls]
      have hg : get t pre.length = .ok x := by
        unfold get; rw [arrGet_ok, ht, List.getElem?_append_right (by omega)]; simp
      have hi : invokeAt (fun xs s => (xs.map f, s)) [t] pre.length s = .ok ([f x], s) := by
        unfold invokeAt column
        rw [mapO, hg]; rfl
      have := ih (pre ++ [x]) (by simp [ht])
      rw [List.length_append, List.length_singleton] at this
      rw [hi, Outcome.ok_bind, this]; rfl
  rw [List.range_eq_range']
  exact key t [] rfl

/-- The elements at an index below the zip length. -/
theorem columns (ts : List (List α)) : ∃ col : Nat → List α, ∀ i < zipLength (ts.map List.length),
    column i ts = .ok (col i) ∧ Column ts i (col i) := by
  refine ⟨fun i => match column i ts with | .ok xs => xs | _ => [], fun i hi => ?_⟩
  obtain ⟨xs, h1, h2⟩ := column_eq hi
  simp only [h1]
  exact ⟨trivial, h2⟩

theorem calls_pure {call : Nat → σ → Outcome (β × σ)} {g : Nat → β} {u : Nat → σ → σ} {is : List Nat}
    (h : ∀ i ∈ is, ∀ s, call i s = .ok (g i, u i s)) (s : σ) : calls call is s = .ok (is.map g, is.foldl (fun s i => u i s) s) := by
  induction is generalizing s with
  | nil => rfl
  | cons i is ih =>
    rw [calls, h i (by simp), Outcome.ok_bind, ih (fun j hj => h j (by simp [hj]))]; rfl

theorem foldl_log {γ : Type} (g : Nat → γ) (is : List Nat) (l : List γ) : is.foldl (fun l i => l ++ [g i]) l = l ++ is.map g := by
  induction is generalizing l with
  | nil => simp
  | cons i is ih => rw [List.foldl_cons, ih]; simp

/-- **C63, indexed transform.** With index functions the calls happen in an unspecified order: still one call per index, and
each result is in its place, so that for a pure function the result is that of `transform`. -/
theorem C63_transform_indexed (f : List α → β) (ts : List (List α)) (order : List Nat)
    (ho : order.Perm (List.range (zipLength (ts.map List.length)))) :
    ∃ col : Nat → List α, (∀ i < zipLength (ts.map List.length), Column ts i (col i)) ∧
      transformIndexed (fun xs (log : List (List α)) => (f xs, log ++ [xs])) ts order [] =
        .ok ((List.range (zipLength (ts.map List.length))).map (fun i => f (col i)), order.map col) ∧
      transform (fun xs (log : List (List α)) => (f xs, log ++ [xs])) ts [] =
        .ok ((List.range (zipLength (ts.map List.length))).map (fun i => f (col i)),
          (List.range (zipLength (ts.map List.length))).map col) := by
  obtain ⟨col, hcol⟩ := columns ts
  refine ⟨col, fun i hi => (hcol i hi).2, ?_, ?_⟩
  · unfold transformIndexed
    rw [calls_pure (g := fun i => (i, f (col i))) (u := fun i l => l ++ [col i]) (fun i hi s => ?_), foldl_log, Outcome.ok_bind]
    · simp only [List.nil_append]
      rw [mapO_ok (g := fun i => f (col i))]
      · rfl
      · intro i hi
        have hm : i ∈ order := ho.mem_iff.mpr hi
        have : (order.map fun i => (i, f (col i))).find? (fun e => e.1 = i) = some (i, f (col i)) := by
          clear ho
          induction order with
          | nil => cases hm
          | cons j js ih =>
            rw [List.map_cons, List.find?_cons]
            by_cases hj : j = i
            · subst hj; simp
            · simp only [hj, decide_false]
              exact ih (by rcases List.mem_cons.mp hm with h | h; exact absurd h.symm hj; exact h)
        rw [this]
    · have := hcol i (List.mem_range.mp (ho.mem_iff.mp hi))
      unfold invokeAt
      rw [this.1]; rfl
  · unfold transform
    rw [calls_pure (g := fun i => f (col i)) (u := fun i l => l ++ [col i]) (fun i hi s => ?_), foldl_log]
    · rfl
    · have := hcol i (List.mem_range.mp hi)
      unfold invokeAt
      rw [this.1]; rfl

example : transform (fun xs (s : Nat) => (xs.sum, s + 1)) [[1, 2, 3], [10, 20]] 0 = .ok ([11, 22], 2) := by decide
example : [1, 0].Perm (List.range (zipLength ([[1, 2, 3], [10, 20]].map List.length))) := by decide

/-! ## C64 -/

/-- Asking a predicate about the columns from `i` on, until it says `stop`. -/
inductive ZipAsk (stop : Bool) (f : List α → σ → Bool × σ) (ts : List (List α)) : Nat → Nat → σ → Bool → σ → Prop
  | done {i s} : ZipAsk stop f ts i 0 s (!stop) s
  | stop {i n xs s} : Column ts i xs → (f xs s).1 = stop → ZipAsk stop f ts i (n + 1) s stop (f xs s).2
  | next {i n xs s b s'} : Column ts i xs → (f xs s).1 = !stop → ZipAsk stop f ts (i + 1) n (f xs s).2 b s' →
      ZipAsk stop f ts i (n + 1) s b s'

theorem allOf_ask (f : List α → σ → Bool × σ) (ts : List (List α)) (n i : Nat) (h : i + n ≤ zipLength (ts.map List.length)) (s : σ) :
    ∃ b s', andFoldL ((List.range' i n).map (invokeAt f ts)) s = .ok (b, s') ∧ ZipAsk false f ts i n s b s' := by
  induction n generalizing i s with
  | zero => exact ⟨true, s, rfl, .done⟩
  | succ n ih =>
    obtain ⟨xs, h1, h2⟩ := column_eq (ts := ts) (i := i) (by omega)
    have hc : invokeAt f ts i s = .ok (f xs s) := by unfold invokeAt; rw [h1]; rfl
    rw [List.range'_succ, List.map_cons, andFoldL_cons, hc, Outcome.ok_bind]
    cases hb : (f xs s).1 with
    | false => exact ⟨_, _, by simp only [Bool.false_eq_true, if_false]; rw [← hb], .stop h2 hb⟩
    | true =>
      obtain ⟨b, s', h3, h4⟩ := ih (i + 1) (by omega) (f xs s).2
      exact ⟨b, s', by simpa using h3, .next h2 (by rw [hb]; rfl) h4⟩

theorem anyOf_ask (f : List α → σ → Bool × σ) (ts : List (List α)) (n i : Nat) (h : i + n ≤ zipLength (ts.map List.length)) (s : σ) :
    ∃ b s', orFoldL ((List.range' i n).map (invokeAt f ts)) s = .ok (b, s') ∧ ZipAsk true f ts i n s b s' := by
  induction n generalizing i s with
  | zero => exact ⟨false, s, rfl, .done⟩
  | succ n ih =>
    obtain ⟨xs, h1, h2⟩ := column_eq (ts := ts) (i := i) (by omega)
    have hc : invokeAt f ts i s = .ok (f xs s) := by unfold invokeAt; rw [h1]; rfl
    rw [List.range'_succ, List.map_cons, orFoldL_cons, hc, Outcome.ok_bind]
    cases hb : (f xs s).1 with
    | true => exact ⟨_, _, by simp only [if_true]; rw [← hb], .stop h2 hb⟩
    | false =>
      obtain ⟨b, s', h3, h4⟩ := ih (i + 1) (by omega) (f xs s).2
      exact ⟨b, s', by simpa using h3, .next h2 (by rw [hb]; rfl) h4⟩

/-- **C64.** The predicate is asked about the elements at each index in order, up to the first index that decides:
a false one for `all_of`, a true one for `any_of`. -/
theorem C64_short_circuit (f : List α → σ → Bool × σ) (ts : List (List α)) (s : σ) :
    (∃ b s', allOf f ts s = .ok (b, s') ∧ ZipAsk false f ts 0 (zipLength (ts.map List.length)) s b s') ∧
    (∃ b s', anyOf f ts s = .ok (b, s') ∧ ZipAsk true f ts 0 (zipLength (ts.map List.length)) s b s' ∧
      noneOf f ts s = .ok (!b, s')) := by
  refine ⟨?_, ?_⟩
  · obtain ⟨b, s', h1, h2⟩ := allOf_ask f ts _ 0 (Nat.le_of_eq (Nat.zero_add _)) s
    exact ⟨b, s', by unfold allOf; rw [List.range_eq_range', h1], h2⟩
  · obtain ⟨b, s', h1, h2⟩ := anyOf_ask f ts _ 0 (Nat.le_of_eq (Nat.zero_add _)) s
    have h3 : anyOf f ts s = .ok (b, s') := by unfold anyOf; rw [List.range_eq_range', h1]
    exact ⟨b, s', h3, h2, by unfold noneOf; rw [h3]; rfl⟩

theorem ask_pure {stop : Bool} {p : List α → Bool} {ts : List (List α)} {i n : Nat} {b : Bool} {s s' : σ}
    (h : ZipAsk stop (fun xs (s : σ) => (p xs, s)) ts i n s b s') (hn : i + n ≤ zipLength (ts.map List.length)) :
    (b = stop ↔ ∃ j xs, i ≤ j ∧ j < i + n ∧ Column ts j xs ∧ p xs = stop) := by
  induction h with
  | @done i s =>
    constructor
    · intro h; cases stop <;> cases h
    · rintro ⟨j, xs, h1, h2, _⟩; omega
  | @stop i n xs s hc hp => exact ⟨fun _ => ⟨i, xs, by omega, by omega, hc, hp⟩, fun _ => rfl⟩
  | @next i n xs s b s' hc hp _ ih =>
    rw [ih (by omega)]
    constructor
    · rintro ⟨j, ys, h1, h2, h3⟩; exact ⟨j, ys, by omega, by omega, h3⟩
    · rintro ⟨j, ys, h1, h2, h3, h4⟩
      by_cases hj : j = i
      · subst hj
        rw [h3.unique hc] at h4
        simp only at hp
        rw [h4] at hp
        cases stop <;> cases hp
      · exact ⟨j, ys, by omega, by omega, h3, h4⟩

/-- **C64, quantifiers.** For a pure predicate `all_of` is the conjunction, `any_of` the disjunction over the indices below
the least size, and `none_of` the negation of `any_of`. -/
theorem C64_quantifiers (p : List α → Bool) (ts : List (List α)) :
    (∃ b, allOf (fun xs s => (p xs, s)) ts () = .ok (b, ()) ∧
      (b = true ↔ ∀ j xs, j < zipLength (ts.map List.length) → Column ts j xs → p xs = true)) ∧
    (∃ b, anyOf (fun xs s => (p xs, s)) ts () = .ok (b, ()) ∧ noneOf (fun xs s => (p xs, s)) ts () = .ok (!b, ()) ∧
      (b = true ↔ ∃ j xs, j < zipLength (ts.map List.length) ∧ Column ts j xs ∧ p xs = true)) := by
  obtain ⟨⟨b, u, h1, h2⟩, ⟨c, v, h3, h4, h5⟩⟩ := C64_short_circuit (fun xs s => (p xs, s)) ts ()
  refine ⟨⟨b, h1, ?_⟩, ⟨c, h3, h5, ?_⟩⟩
  · have := ask_pure h2 (Nat.le_of_eq (Nat.zero_add _))
    constructor
    · intro hb j xs hj hc
      cases hp : p xs with
      | true => rfl
      | false =>
        have := this.mpr ⟨j, xs, by omega, by omega, hc, hp⟩
        rw [this] at hb; cases hb
    · intro h
      cases b with
      | true => rfl
      | false =>
        obtain ⟨j, xs, _, hj, hc, hp⟩ := this.mp rfl
        rw [h j xs (by omega) hc] at hp; cases hp
  · rw [ask_pure h4 (Nat.le_of_eq (Nat.zero_add _))]
    constructor
    · rintro ⟨j, xs, _, h⟩; exact ⟨j, xs, by omega, h.2⟩
    · rintro ⟨j, xs, h⟩; exact ⟨j, xs, by omega, by omega, h.2⟩

/-- **C64, De Morgan.** `any_of` is the negation of `all_of` of the negated predicate, with the same calls. -/
theorem C64_de_morgan (f : List α → σ → Bool × σ) (ts : List (List α)) (s : σ) :
    ∃ b s', allOf (fun xs s => (!(f xs s).1, (f xs s).2)) ts s = .ok (b, s') ∧ anyOf f ts s = .ok (!b, s') ∧
      noneOf f ts s = .ok (b, s') := by
  obtain ⟨⟨b, s1, h1, h2⟩, _⟩ := C64_short_circuit (fun xs s => (!(f xs s).1, (f xs s).2)) ts s
  obtain ⟨_, ⟨c, s2, h3, h4, h5⟩⟩ := C64_short_circuit f ts s
  have key : ∀ {i n s b c s1 s2}, ZipAsk false (fun xs s => (!(f xs s).1, (f xs s).2)) ts i n s b s1 → ZipAsk true f ts i n s c s2 →
      c = !b ∧ s1 = s2 := by
    intro i n s b c s1 s2 h
    induction h generalizing c s2 with
    | done => intro h; cases h; exact ⟨rfl, rfl⟩
    | @stop i n xs s hc hp =>
      intro h
      simp only [Bool.not_eq_eq_eq_not, Bool.not_false] at hp
      cases h with
      | @stop _ _ ys _ hc' hp' => rw [hc.unique hc']; exact ⟨rfl, rfl⟩
      | @next _ _ ys _ _ _ hc' hp' h' => rw [hc'.unique hc, hp] at hp'; cases hp'
    | @next i n xs s b s' hc hp _ ih =>
      intro h
      simp only [Bool.not_eq_eq_eq_not, Bool.not_not, Bool.not_false, Bool.not_true] at hp
      cases h with
      | @stop _ _ ys _ hc' hp' => rw [hc'.unique hc, hp] at hp'; cases hp'
      | @next _ _ ys _ _ _ hc' hp' h' => rw [hc'.unique hc] at h'; exact ih h'
  obtain ⟨e1, e2⟩ := key h2 h4
  refine ⟨b, s1, h1, by rw [h3, e1, e2], by rw [h5, e1, e2]; simp⟩

/-- **C64, one_of.** Comparing a `one_of` asks its values in order up to the first that is equal, and tells whether there is
one. -/
theorem C64_one_of (eq : α → γ → Bool) (t : List α) (rhs : γ) :
    ∃ b n, oneOfEq (fun x y (n : Nat) => (eq x y, n + 1)) t rhs 0 = .ok (b, n) ∧ (b = true ↔ ∃ x ∈ t, eq x rhs = true) ∧
      ∀ i (hi : i < t.length), i + 1 < n → eq t[i] rhs = false := by
  have key : ∀ (t : List α) (c : Nat), ∃ b m, orFoldL (t.map fun x s => .ok (eq x rhs, s + 1)) c = .ok (b, c + m) ∧
      (b = true ↔ ∃ x ∈ t, eq x rhs = true) ∧ ∀ i (hi : i < t.length), i + 1 < m → eq t[i] rhs = false := by
    intro t
    induction t with
    | nil => intro c; exact ⟨false, 0, rfl, by simp, by simp⟩
    | cons x xs ih =>
      intro c
      rw [List.map_cons, orFoldL_cons, Outcome.ok_bind]
      cases he : eq x rhs with
      | true => exact ⟨true, 1, rfl, by simp [he], by intro i _ h; omega⟩
      | false =>
        obtain ⟨b, m, h1, h2, h3⟩ := ih (c + 1)
        refine ⟨b, m + 1, ?_, by simp [he, h2], ?_⟩
        · simp only [Bool.false_eq_true, if_false]
          rw [h1, Nat.add_assoc, Nat.add_comm 1]
        · intro i hi him
          cases i with
          | zero => exact he
          | succ i => exact h3 i (by simpa using hi) (by omega)
  obtain ⟨b, n, h1, h2, h3⟩ := key t 0
  exact ⟨b, n, by unfold oneOfEq; rw [orFoldR_eq, h1, Nat.zero_add], h2, h3⟩

example : allOf (fun xs (n : Nat) => (decide (xs.sum < 20), n + 1)) [[1, 12, 3], [9, 8, 7, 6]] 0 = .ok (false, 2) ∧
    anyOf (fun xs (n : Nat) => (decide (xs.sum < 20), n + 1)) [[1, 12, 3], [9, 8, 7, 6]] 0 = .ok (true, 1) := by decide

end Verif.Tuple
