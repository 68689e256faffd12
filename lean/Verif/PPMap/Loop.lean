import Verif.PPMap.Step

/-! # How often `STDX_EVAL` and the macros around it scan the text -/

namespace Verif.PPMap

/-- What can be mapped: one argument, which macro replacement leaves alone and which does not begin with three pairs of parentheses. -/
structure Plain (user : Nat → Option Macro) (x : List Tok) : Prop where
  isArg : IsArg x
  inert : ∀ t ∈ x, Inert (table user) t
  groups : ¬ ∃ a b c y, Balanced a ∧ Balanced b ∧ Balanced c ∧ x = .lp :: (a ++ .rp :: .lp :: (b ++ .rp :: .lp :: (c ++ .rp :: y)))

theorem head_lp {y : List Tok} (h : y.head? = some .lp) : ∃ t, y = .lp :: t := by
  cases y with
  | nil => simp at h
  | cons t y => simp at h; exact ⟨y, by rw [h]⟩

theorem Plain.peek {user : Nat → Option Macro} {x : List Tok} (h : Plain user x) : ∃ E, Peek user x E := by
  by_cases h1 : x.head? = some .lp
  · obtain ⟨t, rfl⟩ := head_lp h1
    obtain ⟨a, y, rfl, ha, hy⟩ := h.isArg.paren
    by_cases h2 : y.head? = some .lp
    · obtain ⟨t, rfl⟩ := head_lp h2
      obtain ⟨b, z, rfl, hb, hz⟩ := hy.paren
      by_cases h3 : z.head? = some .lp
      · obtain ⟨t, rfl⟩ := head_lp h3
        obtain ⟨c, w, rfl, hc, hw⟩ := hz.paren
        exact absurd ⟨a, b, c, w, ha, hb, hc, rfl⟩ h.groups
      · exact ⟨_, .two h3 ha hb hz h.inert⟩
    · exact ⟨_, .one h2 ha hy h.inert⟩
  · exact ⟨_, .none h1 h.isArg h.inert⟩

/-- The state of the map: what is done, and what is to do. -/
inductive St where
  | run (b : Bool) (out : List Tok) (xs : List (List Tok))
  | fin (out : List Tok)

/-- What follows the arguments to do: first something that stops the map, such as `()()()` (pp_map.hpp:37), and then something more. -/
structure Tail (user : Nat → Option Macro) (tl : List (List Tok)) : Prop where
  stops : ∃ p v vs, tl = p :: v :: vs ∧ ∀ b, Leads user b p .mapEnd
  balanced : ∀ x ∈ tl, Balanced x
  inert : ∀ x ∈ tl, ∀ t ∈ x, Inert (table user) t

/-- The ends after the arguments of the map, pp_map.hpp:37. -/
def ends : List (List Tok) := [sent, sent, sent, [.other 0]]

/-- The arguments to do, and what follows. -/
def after (tl xs : List (List Tok)) : List Tok := join (xs ++ tl)

/-- The text of a state. -/
def text (f : Nat) (tl : List (List Tok)) : St → List Tok
  | .run _ out [] => out ++ I .mapEnd :: .lp :: I (.user f) :: .comma :: (after tl [] ++ [.rp])
  | .run b out (x :: xs) => out ++ I (mp b) :: .lp :: I (.user f) :: .comma :: (after tl (x :: xs) ++ [.rp])
  | .fin out => out

/-- The state after one scan. -/
def adv (F : List Tok → List Tok) : St → St
  | .run _ out [] => .fin out
  | .run b out (x :: xs) => .run (!b) (out ++ .comma :: F x) xs
  | .fin out => .fin out

def advs (F : List Tok → List Tok) : Nat → St → St
  | 0, s => s
  | k + 1, s => advs F k (adv F s)

theorem advs_add (F : List Tok → List Tok) (j k : Nat) (s : St) : advs F (j + k) s = advs F k (advs F j s) := by
  induction j generalizing s with
  | zero => simp [advs]
  | succ j ih => rw [Nat.add_right_comm]; simp [advs, ih]

theorem advs_succ' (F : List Tok → List Tok) (k : Nat) (s : St) : advs F (k + 1) s = adv F (advs F k s) := by
  rw [advs_add]; rfl

theorem advs_two (F : List Tok → List Tok) (k : Nat) (s : St) : advs F (k + 2) s = adv F (adv F (advs F k s)) := by
  rw [← advs_succ', ← advs_succ']

/-- The state is as the theorems below need it. -/
def Valid (user : Nat → Option Macro) (f : Nat) (F : List Tok → List Tok) : St → Prop
  | .run _ out xs => (∀ t ∈ out, Inert (table user) t) ∧ Balanced out ∧
      (∀ x ∈ xs, (IsArg x ∧ ∀ t ∈ x, Inert (table user) t) ∧ Applies user f F x) ∧ ∀ x ∈ xs.tail, Plain user x
  | .fin out => (∀ t ∈ out, Inert (table user) t) ∧ Balanced out

theorem Valid.adv {user : Nat → Option Macro} {f : Nat} {F : List Tok → List Tok} {s : St} (h : Valid user f F s) :
    Valid user f F (adv F s) := by
  match s with
  | .run _ out [] => exact ⟨h.1, h.2.1⟩
  | .run b out (x :: xs) =>
    obtain ⟨h1, h2, h3, h4⟩ := h
    have hx := (h3 x (by simp)).2
    refine ⟨?_, h2.append (Balanced.cons (by simp) (by simp) hx.balanced), fun y hy => h3 y (by simp [hy]),
      fun y hy => h4 y (List.mem_of_mem_tail hy)⟩
    intro t ht
    simp only [List.mem_append, List.mem_cons] at ht
    rcases ht with ht | rfl | ht
    · exact h1 t ht
    · trivial
    · exact hx.inert t ht
  | .fin out => exact h

theorem Valid.advs {user : Nat → Option Macro} {f : Nat} {F : List Tok → List Tok} {s : St} (h : Valid user f F s) (k : Nat) :
    Valid user f F (advs F k s) := by
  induction k generalizing s with
  | zero => exact h
  | succ k ih => exact ih h.adv

theorem after_cons {tl : List (List Tok)} (hne : tl ≠ []) (x : List Tok) (xs : List (List Tok)) : after tl (x :: xs) = x ++ .comma :: after tl xs := by
  unfold after
  rw [List.cons_append, join_cons (by simp [hne])]

theorem join_balanced {xs : List (List Tok)} (h : ∀ x ∈ xs, Balanced x) : Balanced (join xs) := by
  induction xs with
  | nil => exact Balanced.nil
  | cons x xs ih =>
    cases xs with
    | nil => exact h x (by simp)
    | cons y ys =>
      rw [join_cons (by simp)]
      exact (h x (by simp)).append (Balanced.cons (by simp) (by simp) (ih fun y hy => h y (List.mem_cons_of_mem _ hy)))

theorem join_inert {M : Name → Option Macro} {xs : List (List Tok)} (h : ∀ x ∈ xs, ∀ t ∈ x, Inert M t) : ∀ t ∈ join xs, Inert M t := by
  induction xs with
  | nil => simp [join]
  | cons x xs ih =>
    cases xs with
    | nil => exact h x (by simp)
    | cons y ys =>
      rw [join_cons (by simp)]
      intro t ht
      simp only [List.mem_append, List.mem_cons] at ht
      rcases ht with ht | rfl | ht
      · exact h x (by simp) t ht
      · trivial
      · exact ih (fun y hy => h y (List.mem_cons_of_mem _ hy)) t ht

theorem Tail.after_balanced {user : Nat → Option Macro} {tl xs : List (List Tok)} (ht : Tail user tl) (h : ∀ x ∈ xs, Balanced x) :
    Balanced (after tl xs) :=
  join_balanced fun x hx => (List.mem_append.1 hx).elim (h x) (ht.balanced x)

theorem Tail.after_inert {user : Nat → Option Macro} {tl xs : List (List Tok)} (ht : Tail user tl)
    (h : ∀ x ∈ xs, ∀ t ∈ x, Inert (table user) t) : ∀ t ∈ after tl xs, Inert (table user) t :=
  join_inert fun x hx => (List.mem_append.1 hx).elim (h x) (ht.inert x)

theorem Tail.ne {user : Nat → Option Macro} {tl : List (List Tok)} (ht : Tail user tl) : tl ≠ [] := by
  obtain ⟨p, v, vs, rfl, _⟩ := ht.stops; simp

section
variable {user : Nat → Option Macro} {outer : List Name} {r : List Item} {o : List Tok} {f : Nat} {F : List Tok → List Tok} {tl : List (List Tok)}

local notation "𝕄" => table user

theorem Valid.balanced {s : St} (ht : Tail user tl) (h : Valid user f F s) : Balanced (text f tl s) := by
  have key : ∀ (n : Name) (out v : List Tok), Balanced out → Balanced v → Balanced (out ++ I n :: .lp :: I (.user f) :: .comma :: (v ++ [.rp])) := by
    intro n out v h1 h2
    have := (Balanced.cons (t := I (.user f)) (by simp) (by simp) (Balanced.cons (t := .comma) (by simp) (by simp) h2)).paren
    exact h1.append (Balanced.cons (by simp) (by simp) (by simpa using this))
  match s with
  | .run _ out [] => exact key _ _ _ h.2.1 (ht.after_balanced (by simp))
  | .run b out (x :: xs) => exact key _ _ _ h.2.1 (ht.after_balanced fun y hy => (h.2.2.1 y hy).1.1.balanced)
  | .fin out => exact h.2

/-- One scan is one step. -/
theorem pass {s : St} (ht : Tail user tl) (hf : Callee user f) (h : Valid user f F s) (ho : Free 0 outer) (hr : Free 0 (open_ r)) (hs : Scan 𝕄 outer r o) :
    Scan 𝕄 outer (T (text f tl s) ++ r) (text f tl (adv F s) ++ o) := by
  match s with
  | .run _ out [] =>
    simp only [text, adv, T, List.map_append, List.append_assoc]
    exact Scan.inerts h.1 (by simpa using end_scan hf (ht.after_balanced (xs := []) (by simp)) (ht.after_inert (xs := []) (by simp)) ho hr hs)
  | .run b out [x] =>
    have hx := h.2.2.1 x (by simp)
    obtain ⟨p, v, vs, rfl, hp⟩ := ht.stops
    have st := step_scan (b := b) (v := join (v :: vs)) hf hx.2 hx.1.1 hx.1.2 (hp (!b))
      (join_balanced fun y hy => ht.balanced y (List.mem_cons_of_mem _ hy)) (join_inert fun y hy => ht.inert y (List.mem_cons_of_mem _ hy)) ho hr hs
    simp only [text, adv, T, List.map_append, List.append_assoc]
    refine Scan.inerts h.1 ?_
    rw [after_cons ht.ne, after, List.nil_append, join_cons (by simp)]
    simpa using st
  | .run b out (x :: y :: ys) =>
    have hx := h.2.2.1 x (by simp)
    have hy := h.2.2.2 y (by simp)
    obtain ⟨E, hE⟩ := hy.peek
    have st := step_scan (b := b) (v := after tl ys) hf hx.2 hx.1.1 hx.1.2 (hE.leads (!b))
      (ht.after_balanced fun z hz => (h.2.2.1 z (by simp [hz])).1.1.balanced) (ht.after_inert fun z hz => (h.2.2.1 z (by simp [hz])).1.2) ho hr hs
    simp only [text, adv, T, List.map_append, List.append_assoc]
    refine Scan.inerts h.1 ?_
    rw [after_cons ht.ne, after_cons ht.ne]
    simpa using st
  | .fin out => exact Scan.inerts h.1 hs

/-- The macro `e` scans the text of its argument `Q` times, and that is after the argument has been replaced. -/
def Passes (user : Nat → Option Macro) (f : Nat) (F : List Tok → List Tok) (tl : List (List Tok)) (e : Name) (Q : Nat) : Prop :=
  ∀ outer r o a s, Free (rank e) outer → Free (rank e) (open_ r) → Balanced a → Valid user f F s →
    Scan (table user) (open_ r ++ outer) (T a) (text f tl s) → Scan (table user) outer r o →
    Scan (table user) outer (T (I e :: .lp :: (a ++ [.rp])) ++ r) (text f tl (advs F Q s) ++ o)

theorem passes_zero (ht : Tail user tl) (hf : Callee user f) : Passes user f F tl .eval0 1 := by
  intro outer r o a s ho hr ha hv hsc hs
  refine Scan.callVa (n := .eval0) (rest := r) (a := a) (a' := text f tl s) (t := text f tl s) rfl (ho _ (by simp)) ?_ (by simp [skip]) ha hsc
    (by simp [subst]) ?_
  · simpa [open_, open_append, op] using hr _ (by simp)
  · exact pass ht hf hv (ho.le (by simp)) (by simpa [open_] using (hr.le (by simp [rank] : 0 ≤ rank .eval0)).cons (by simp [rank])) (Scan.done hs)

theorem paren_balanced {a : List Tok} (n : Name) (h : Balanced a) : Balanced (I n :: .lp :: (a ++ [.rp])) :=
  Balanced.cons (by simp) (by simp) h.paren

theorem passes_thrice (ht : Tail user tl) (hf : Callee user f) {e e' : Name} {Q : Nat} (hM : 𝕄 e' = some (thrice e)) (hrank : rank e' = rank e + 1)
    (h : Passes user f F tl e Q) : Passes user f F tl e' (1 + 3 * Q) := by
  intro outer r o a s ho hr ha hv hsc hs
  have ho' : Free (rank e) outer := ho.le (by omega)
  have hr' : Free (rank e) (open_ (.done e' :: r)) := by simpa [open_] using (hr.le (by omega)).cons (by omega : rank e < rank e')
  have hor : Free (rank e) (open_ (.done e' :: r) ++ outer) := hr'.append ho'
  have hnil : Free (rank e) (open_ []) := by intro n _; simp [open_]
  refine Scan.callVa (n := e') (rest := r) (a := a) (a' := text f tl s)
    (t := I e :: .lp :: ((I e :: .lp :: ((I e :: .lp :: (text f tl s ++ [.rp])) ++ [.rp])) ++ [.rp])) hM (ho _ (by simp)) ?_ (by simp [skip]) ha hsc
    (by simp [subst, i, l, PPMap.r]) ?_
  · simpa [open_, open_append, op] using hr _ (by simp)
  · have p1 := pass (outer := open_ ([] : List Item) ++ (open_ (.done e' :: r) ++ outer)) (r := []) (o := []) ht hf hv
      (by simpa [open_] using hor.le (Nat.zero_le _)) (by intro n _; simp [open_]) Scan.nil
    have p2 := h (open_ (.done e' :: r) ++ outer) [] [] (text f tl s) (adv F s) hor hnil (hv.balanced ht) hv.adv (by simpa using p1) Scan.nil
    have p3 := h (open_ (.done e' :: r) ++ outer) [] [] (I e :: .lp :: (text f tl s ++ [.rp])) _ hor hnil (paren_balanced e (hv.balanced ht))
      (hv.adv.advs Q) (by simpa [open_] using p2) Scan.nil
    have p4 := h outer (.done e' :: r) o (I e :: .lp :: ((I e :: .lp :: (text f tl s ++ [.rp])) ++ [.rp])) _ ho' hr'
      (paren_balanced e (paren_balanced e (hv.balanced ht))) ((hv.adv.advs Q).advs Q) (by simpa using p3) (Scan.done hs)
    have e1 : advs F (1 + 3 * Q) s = advs F Q (advs F Q (advs F Q (adv F s))) := by
      rw [show 1 + 3 * Q = 1 + (Q + (Q + Q)) by omega, advs_add, advs_add, advs_add]; rfl
    rw [e1]
    exact p4

theorem passes_once (ht : Tail user tl) (hf : Callee user f) {e e' : Name} {Q : Nat} (hM : 𝕄 e' = some (.function 0 true false [i e, l, .va, PPMap.r]))
    (hrank : rank e' = rank e + 1) (h : Passes user f F tl e Q) : Passes user f F tl e' (1 + Q) := by
  intro outer r o a s ho hr ha hv hsc hs
  have ho' : Free (rank e) outer := ho.le (by omega)
  have hr' : Free (rank e) (open_ (.done e' :: r)) := by simpa [open_] using (hr.le (by omega)).cons (by omega : rank e < rank e')
  have hor : Free (rank e) (open_ (.done e' :: r) ++ outer) := hr'.append ho'
  refine Scan.callVa (n := e') (rest := r) (a := a) (a' := text f tl s) (t := I e :: .lp :: (text f tl s ++ [.rp])) hM (ho _ (by simp)) ?_
    (by simp [skip]) ha hsc (by simp [subst, i, l, PPMap.r]) ?_
  · simpa [open_, open_append, op] using hr _ (by simp)
  · have p1 := pass (outer := open_ (.done e' :: r) ++ outer) (r := []) (o := []) ht hf hv (hor.le (Nat.zero_le _))
      (by intro n _; simp [open_]) Scan.nil
    have p2 := h outer (.done e' :: r) o (text f tl s) (adv F s) ho' hr' (hv.balanced ht) hv.adv (by simpa using p1) (Scan.done hs)
    rw [advs_add]
    exact p2

/-- `STDX_EVAL`, pp_map.hpp:5-11. -/
theorem passes_eval (ht : Tail user tl) (hf : Callee user f) : Passes user f F tl .eval 365 := by
  have h0 := passes_zero (F := F) ht hf
  have h1 : Passes user f F tl .eval1 4 := by simpa using passes_thrice ht hf rfl rfl h0
  have h2 : Passes user f F tl .eval2 13 := by simpa using passes_thrice ht hf rfl rfl h1
  have h3 : Passes user f F tl .eval3 40 := by simpa using passes_thrice ht hf rfl rfl h2
  have h4 : Passes user f F tl .eval4 121 := by simpa using passes_thrice ht hf rfl rfl h3
  have h5 : Passes user f F tl .eval5 364 := by simpa using passes_thrice ht hf rfl rfl h4
  simpa using passes_once ht hf rfl rfl h5

/-- What is done can be looked at apart. -/
def St.with_ (pre : List Tok) : St → St
  | .run b out xs => .run b (pre ++ out) xs
  | .fin out => .fin (pre ++ out)

theorem adv_with (pre : List Tok) (s : St) : adv F (s.with_ pre) = (adv F s).with_ pre := by
  match s with
  | .run _ out [] => rfl
  | .run b out (x :: xs) => simp [St.with_, adv]
  | .fin out => rfl

theorem advs_with (pre : List Tok) (k : Nat) (s : St) : advs F k (s.with_ pre) = (advs F k s).with_ pre := by
  induction k generalizing s with
  | zero => rfl
  | succ k ih => simp [advs, adv_with, ih]

theorem text_with (pre : List Tok) (s : St) : text f tl (s.with_ pre) = pre ++ text f tl s := by
  match s with
  | .run _ out [] => simp [St.with_, text]
  | .run b out (x :: xs) => simp [St.with_, text]
  | .fin out => rfl

/-- `STDX_MAP(f, a)`, pp_map.hpp:32-37, where the arguments `a` become `x, xs...` by macro replacement. -/
theorem map_scan_of {Q : Nat} {zs : List (List Tok)} (hQ : Passes user f F (zs ++ ends) .eval Q) (hf : Callee user f) {a x : List Tok} {xs : List (List Tok)} (ha : Balanced a) (ht : Tail user (zs ++ ends))
    (hsc : Scan 𝕄 (open_ r ++ outer) (T a) (join (x :: (xs ++ zs)))) (hne : join (x :: (xs ++ zs)) ≠ [])
    (hx : ∀ y ∈ x :: xs, (IsArg y ∧ ∀ t ∈ y, Inert 𝕄 t) ∧ Applies user f F y) (hpl : ∀ y ∈ xs, Plain user y) (ho : Free 10 outer) (hr : Free 10 (open_ r)) (hs : Scan 𝕄 outer r o) :
    Scan 𝕄 outer (T (I .map :: .lp :: I (.user f) :: .comma :: (a ++ [.rp])) ++ r) (text f (zs ++ ends) (advs F (Q + 2) (.run false (F x) xs)) ++ o) := by
  have i0 : ∀ k, Inert 𝕄 (.other k) := fun _ => trivial
  obtain ⟨vs, c1, c2, c3⟩ := collect_all (ha 0) r []
  have hc : collect 0 (T [I (.user f)] ++ .tok .comma :: (T a ++ .tok .rp :: r)) [] = some ([I (.user f)] :: vs, r) := by
    rw [(isArg_name _).next, c1]; rfl
  have v0 : Valid user f F (.run true [] (x :: xs)) := ⟨by simp, Balanced.nil, hx, hpl⟩
  have e0 : text f (zs ++ ends) (.run true [] (x :: xs)) = I .mapA :: .lp :: I (.user f) :: .comma :: (after (zs ++ ends) (x :: xs) ++ [.rp]) := rfl
  have e1 : after (zs ++ ends) (x :: xs) = join (x :: (xs ++ zs)) ++ .comma :: join ends := by
    rw [after, ← List.append_assoc, List.cons_append]
    have : ∀ (x : List Tok) (xs : List (List Tok)), join (x :: xs ++ ends) = join (x :: xs) ++ .comma :: join ends := by
      intro x xs
      induction xs generalizing x with
      | nil => exact join_cons (by simp [ends])
      | cons y ys ih => rw [List.cons_append, join_cons (a := x) (as := y :: ys ++ ends) (by simp), ih, join_cons (a := x) (by simp)]; simp
    exact this x (xs ++ zs)
  refine Scan.call (n := .map) (k := 1) (args := [I (.user f)] :: vs) (as := [[I (.user f)]]) (as' := [[I (.user f)]])
    (va := a) (va' := join (x :: (xs ++ zs))) (rest := r)
    (t := I .drop1 :: .lp :: ((.other 0 :: I .eval :: .lp :: (text f (zs ++ ends) (.run true [] (x :: xs)) ++ [.rp])) ++ [.rp]))
    (r' := T [I (.user f)] ++ .tok .comma :: (T a ++ .tok .rp :: r)) rfl (ho _ (by simp [rank])) ?_ (by simp [skip]) hc ?_
    (.cons (callee_scan hf ((hr.append ho) _ (by simp [rank])) (by simp [open_]) noCall_nil Scan.nil) .nil) hsc ?_ ?_
  · simpa [open_, open_append, op] using hr _ (by simp [rank])
  · simp only [List.nil_append] at c3
    simp [bind, c3]
  · rw [e0, e1]
    simp [hne, subst, i, l, PPMap.k, PPMap.r, zero, sentinel, ends, join, sent]
  have hr1 : Free 9 (open_ (.done .map :: r)) := by simpa [open_] using (hr.le (by omega : 9 ≤ 10)).cons (by simp [rank])
  have hr2 : Free 8 (open_ (.done .drop1 :: .done .map :: r)) := by
    have := (hr1.le (by omega : 8 ≤ 9)).cons (n := .drop1) (by simp [rank])
    simpa [open_] using this
  have hr3 : Free 0 (open_ (.done .drop0 :: .done .drop1 :: .done .map :: r)) := by
    have := (hr2.le (by omega : 0 ≤ 8)).cons (n := .drop0) (by simp [rank])
    simpa [open_] using this
  have ho1 : Free 9 (open_ (.done .map :: r) ++ outer) := hr1.append (ho.le (by omega))
  have v1 : Valid user f F (.run false (F x) xs) :=
    ⟨(hx x (by simp)).2.inert, (hx x (by simp)).2.balanced, fun y hy => hx y (by simp [hy]),
      fun y hy => hpl y (List.mem_of_mem_tail hy)⟩
  have v2 := v1.advs Q
  -- the argument of STDX_DROP1
  have d1 : Scan 𝕄 (open_ (.done .map :: r) ++ outer) (T (.other 0 :: I .eval :: .lp :: (text f (zs ++ ends) (.run true [] (x :: xs)) ++ [.rp])))
      (.other 0 :: .comma :: text f (zs ++ ends) (advs F Q (.run false (F x) xs))) := by
    have p1 := pass (outer := open_ ([] : List Item) ++ (open_ (.done .map :: r) ++ outer)) (r := []) (o := []) ht hf v0
      (by simpa [open_] using ho1.le (Nat.zero_le _)) (by intro n _; simp [open_]) Scan.nil
    have p2 := hQ (open_ (.done .map :: r) ++ outer) [] [] (text f (zs ++ ends) (.run true [] (x :: xs))) _ (ho1.le (by simp [rank]))
      (by intro n _; simp [open_]) (v0.balanced ht) v0.adv (by simpa using p1) Scan.nil
    have e2 : adv F (.run true [] (x :: xs)) = (St.run false (F x) xs).with_ [.comma] := by simp [adv, St.with_]
    rw [e2, advs_with, text_with] at p2
    exact Scan.inert (i0 0) (by simpa using p2)
  have b1 : Balanced (text f (zs ++ ends) (advs F Q (.run false (F x) xs))) := v2.balanced ht
  refine Scan.callVa (n := .drop1) (rest := .done .map :: r) (a := .other 0 :: I .eval :: .lp :: (text f (zs ++ ends) (.run true [] (x :: xs)) ++ [.rp]))
    (a' := .other 0 :: .comma :: text f (zs ++ ends) (advs F Q (.run false (F x) xs)))
    (t := I .drop0 :: .lp :: .other 0 :: .comma :: (text f (zs ++ ends) (advs F Q (.run false (F x) xs)) ++ [.rp])) rfl (ho _ (by simp [rank])) ?_
    (by simp [skip]) (Balanced.cons (by simp) (by simp) (paren_balanced _ (v0.balanced ht))) d1 (by simp [subst, i, l, PPMap.r]) ?_
  · simpa [open_, open_append, op] using hr _ (by simp [rank])
  obtain ⟨ws, w1, w2, w3⟩ := collect_all (b1 0) (.done .drop1 :: .done .map :: r) []
  have hc0 : collect 0 (T [.other 0] ++ .tok .comma :: (T (text f (zs ++ ends) (advs F Q (.run false (F x) xs))) ++ .tok .rp :: .done .drop1 :: .done .map :: r)) [] =
      some ([.other 0] :: ws, .done .drop1 :: .done .map :: r) := by
    rw [IsArg.next ⟨balanced_iff.2 rfl, rfl⟩, w1]; rfl
  have q1 := pass (outer := open_ (.done .drop1 :: .done .map :: r) ++ outer) (r := []) (o := []) ht hf v2
    ((hr2.le (Nat.zero_le _)).append (ho.le (Nat.zero_le _))) (by intro n _; simp [open_]) Scan.nil
  refine Scan.call (n := .drop0) (k := 1) (args := [.other 0] :: ws) (as := [[.other 0]]) (as' := [[.other 0]])
    (va := text f (zs ++ ends) (advs F Q (.run false (F x) xs))) (va' := text f (zs ++ ends) (adv F (advs F Q (.run false (F x) xs))))
    (rest := .done .drop1 :: .done .map :: r) (t := text f (zs ++ ends) (adv F (advs F Q (.run false (F x) xs))))
    (r' := T [.other 0] ++ .tok .comma :: (T (text f (zs ++ ends) (advs F Q (.run false (F x) xs))) ++ .tok .rp :: .done .drop1 :: .done .map :: r)) rfl
    (ho _ (by simp [rank])) ?_ (by simp [skip]) hc0 ?_ (.cons (Scan.inert (i0 0) Scan.nil) .nil) (by simpa using q1) (by simp [subst]) ?_
  · simpa [open_, open_append, op] using hr _ (by simp [rank])
  · simp only [List.nil_append] at w3
    simp [bind, w3]
  have q2 := pass (outer := outer) (r := .done .drop0 :: .done .drop1 :: .done .map :: r) (o := o) ht hf v2.adv (ho.le (Nat.zero_le _)) hr3
    (Scan.done (Scan.done (Scan.done hs)))
  rw [advs_two]
  exact q2

end

/-- Where the map is after `k` scans. -/
theorem advs_run (F : List Tok → List Tok) : ∀ (k : Nat) (b : Bool) (out : List Tok) (xs : List (List Tok)),
    (xs.length < k → advs F k (.run b out xs) = .fin (out ++ xs.flatMap fun x => .comma :: F x)) ∧
    (k ≤ xs.length → ∃ b', advs F k (.run b out xs) = .run b' (out ++ (xs.take k).flatMap fun x => .comma :: F x) (xs.drop k)) := by
  intro k
  induction k with
  | zero => intro b out xs; exact ⟨by omega, fun _ => ⟨b, by simp [advs]⟩⟩
  | succ k ih =>
    intro b out xs
    cases xs with
    | nil =>
      refine ⟨fun _ => ?_, by simp⟩
      have : ∀ k out, advs F k (.fin out) = .fin out := by
        intro k out
        induction k with
        | zero => rfl
        | succ k ih => simpa [advs, adv] using ih
      simp [advs, adv, this]
    | cons x xs =>
      obtain ⟨h1, h2⟩ := ih (!b) (out ++ .comma :: F x) xs
      refine ⟨fun hk => ?_, fun hk => ?_⟩
      · simp only [advs, adv]
        rw [h1 (by simpa using hk)]
        simp
      · obtain ⟨b', hb⟩ := h2 (by simpa using hk)
        exact ⟨b', by simp only [advs, adv]; rw [hb]; simp⟩

theorem join_flatMap (x : List Tok) (xs : List (List Tok)) : join (x :: xs) = x ++ xs.flatMap fun y => .comma :: y := by
  induction xs generalizing x with
  | nil => simp [join]
  | cons y ys ih => rw [join_cons (by simp), ih]; simp

end Verif.PPMap
