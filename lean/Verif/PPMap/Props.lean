import Verif.PPMap.Loop

/-! # C99: `STDX_MAP` applies a macro or function to each of its arguments

`Scan (table user) outer inp out` says that macro replacement of `inp` ends with `out` (there is only one such `out`, `Scan.unique`), where
`user` is the program's own macros and `outer` the macros whose replacement is under way around the text. -/

namespace Verif.PPMap

/-- `STDX_MAP(f, a)` -/
def mapCall (f : Nat) (a : List Tok) : List Tok := I .map :: .lp :: I (.user f) :: .comma :: (a ++ [.rp])

/-- The names of the library's macros in the text that is left when the map does not come to its end. -/
def leftover : List Name := [.mapA, .mapB, .mapEnd]

section
variable {user : Nat → Option Macro} {outer : List Name} {r : List Item} {o : List Tok} {f : Nat} {F : List Tok → List Tok}

theorem ends_tail : Tail user ends := by
  refine ⟨⟨sent, sent, [sent, [.other 0]], rfl, fun b => sent_leads b⟩, ?_, ?_⟩
  · intro x hx
    simp only [ends, List.mem_cons, List.not_mem_nil, or_false] at hx
    rcases hx with rfl | rfl | rfl | rfl <;> exact balanced_iff.2 rfl
  · intro x hx
    simp only [ends, List.mem_cons, List.not_mem_nil, or_false] at hx
    rcases hx with rfl | rfl | rfl | rfl <;> simp [sent, Inert]

/-- What the arguments have to be: one argument each, which macro replacement leaves alone; and that those after the first do not begin
with three groups in parentheses. -/
structure Args (user : Nat → Option Macro) (f : Nat) (F : List Tok → List Tok) (xs : List (List Tok)) : Prop where
  each : ∀ x ∈ xs, (IsArg x ∧ ∀ t ∈ x, Inert (table user) t) ∧ Applies user f F x
  groups : ∀ x ∈ xs.tail, Plain user x

/-- C99, up to 367 arguments: `STDX_MAP(f, a)`, with arguments `a` that macro replacement makes `x1, …, xn`, becomes `F x1, …, F xn`, `F x`
being what becomes of `f(x)`; in order, each once, and nothing else; and what follows is not touched. -/
theorem C99_map_partial (hf : Callee user f) {a : List Tok} {xs : List (List Tok)} (ha : Balanced a)
    (hsc : Scan (table user) (open_ r ++ outer) (T a) (join xs)) (hne : join xs ≠ []) (hx : Args user f F xs) (hlen : xs.length ≤ 367)
    (ho : Free 10 outer) (hr : Free 10 (open_ r)) (hs : Scan (table user) outer r o) :
    Scan (table user) outer (T (mapCall f a) ++ r) (join (xs.map F) ++ o) := by
  cases xs with
  | nil => simp [join] at hne
  | cons x xs =>
    have h := map_scan_of (zs := []) (passes_eval (by simpa using ends_tail) hf) hf ha (by simpa using ends_tail) (by simpa using hsc)
      (by simpa using hne) hx.each hx.groups ho hr hs
    rw [(advs_run F _ false (F x) xs).1 (by simp at hlen; omega)] at h
    rw [List.map_cons, join_flatMap, List.flatMap_map]
    exact h

/-- C99 fails for more arguments than that: the first 368 are mapped and the text of the library's macros is left behind them. -/
theorem C99_many_violated (hf : Callee user f) {a : List Tok} {xs : List (List Tok)} (ha : Balanced a)
    (hsc : Scan (table user) (open_ r ++ outer) (T a) (join xs)) (hx : Args user f F xs) (hlen : 368 ≤ xs.length)
    (ho : Free 10 outer) (hr : Free 10 (open_ r)) (hs : Scan (table user) outer r o) :
    ∃ n ∈ leftover, ∃ rest, Scan (table user) outer (T (mapCall f a) ++ r) (join ((xs.take 368).map F) ++ I n :: rest) := by
  cases xs with
  | nil => simp at hlen
  | cons x xs =>
    have hne : join (x :: xs) ≠ [] := by
      cases xs with
      | nil => simp at hlen
      | cons y ys => rw [join_cons (by simp)]; simp
    have h := map_scan_of (zs := []) (passes_eval (by simpa using ends_tail) hf) hf ha (by simpa using ends_tail) (by simpa using hsc)
      (by simpa using hne) hx.each hx.groups ho hr hs
    obtain ⟨b', hb⟩ := (advs_run F (365 + 2) false (F x) xs).2 (by simp at hlen; omega)
    rw [hb] at h
    have e : join (((x :: xs).take 368).map F) = F x ++ (xs.take 367).flatMap fun x => .comma :: F x := by
      rw [List.take_succ_cons, List.map_cons, join_flatMap, List.flatMap_map]
    rw [e]
    cases hd : xs.drop (365 + 2) with
    | nil =>
      rw [hd] at h
      exact ⟨.mapEnd, by simp [leftover], .lp :: I (.user f) :: .comma :: (after ([] ++ ends) [] ++ .rp :: o), by simpa [text, mapCall] using h⟩
    | cons y ys =>
      rw [hd] at h
      refine ⟨mp b', by cases b' <;> simp [leftover, mp], .lp :: I (.user f) :: .comma :: (after ([] ++ ends) (y :: ys) ++ .rp :: o), ?_⟩
      simpa [text, mapCall] using h

/-- C99 fails after an argument `(a)(b)()`: that argument and all that follow it are dropped. -/
theorem C99_stop_violated (hf : Callee user f) {t a b : List Tok} {xs zs : List (List Tok)} (hta : Balanced t)
    (hsc : Scan (table user) (open_ r ++ outer) (T t) (join (xs ++ stop a b :: zs))) (hx : Args user f F xs) (hne : xs ≠ [])
    (ha : Balanced a) (hb : Balanced b) (hai : ∀ t ∈ a, Inert (table user) t) (hbi : ∀ t ∈ b, Inert (table user) t)
    (hz : ∀ z ∈ zs, Balanced z ∧ ∀ t ∈ z, Inert (table user) t) (hlen : xs.length ≤ 367)
    (ho : Free 10 outer) (hr : Free 10 (open_ r)) (hs : Scan (table user) outer r o) :
    Scan (table user) outer (T (mapCall f t) ++ r) (join (xs.map F) ++ o) := by
  cases xs with
  | nil => exact absurd rfl hne
  | cons x xs =>
    have hst := stop_left (user := user) ha hb hai hbi
    have htl : Tail user (stop a b :: zs ++ ends) := by
      refine ⟨?_, ?_, ?_⟩
      · cases zs with
        | nil => exact ⟨stop a b, sent, [sent, sent, [.other 0]], rfl, stop_leads ha hb hai hbi⟩
        | cons z zs => exact ⟨stop a b, z, zs ++ ends, rfl, stop_leads ha hb hai hbi⟩
      · intro x hx
        simp only [List.cons_append, List.mem_cons, List.mem_append] at hx
        rcases hx with rfl | hx | hx
        · exact hst.isArg.balanced
        · exact (hz x hx).1
        · exact (ends_tail (user := user)).balanced x hx
      · intro x hx
        simp only [List.cons_append, List.mem_cons, List.mem_append] at hx
        rcases hx with rfl | hx | hx
        · exact hst.inert
        · exact (hz x hx).2
        · exact (ends_tail (user := user)).inert x hx
    have hj : join (x :: (xs ++ stop a b :: zs)) ≠ [] := by rw [join_cons (by simp)]; simp
    have h := map_scan_of (zs := stop a b :: zs) (passes_eval htl hf) hf hta htl hsc hj hx.each hx.groups ho hr hs
    rw [(advs_run F _ false (F x) xs).1 (by simp at hlen; omega)] at h
    rw [List.map_cons, join_flatMap, List.flatMap_map]
    exact h

/-- C99, no arguments: `STDX_MAP(f)`, and `STDX_MAP(f, a)` where nothing is left of `a`, become nothing. -/
theorem C99_none (hf : Callee user f) {a : List Tok} (ha : Balanced a) (hsc : Scan (table user) (open_ r ++ outer) (T a) [])
    (ho : Free 10 outer) (hr : Free 10 (open_ r)) (hs : Scan (table user) outer r o) :
    Scan (table user) outer (T [I .map, .lp, I (.user f), .rp] ++ r) o ∧ Scan (table user) outer (T (mapCall f a) ++ r) o := by
  have hcal := callee_scan (o := []) hf ((hr.append ho) _ (by simp [rank])) (by simp [open_]) noCall_nil Scan.nil
  constructor
  · refine Scan.call (n := .map) (k := 1) (args := [[I (.user f)]]) (as := [[I (.user f)]]) (as' := [[I (.user f)]]) (va := []) (va' := [])
      (rest := r) (t := []) (r' := T [I (.user f)] ++ .tok .rp :: r) rfl (ho _ (by simp [rank])) ?_ (by simp [skip]) ((isArg_name _).last r)
      (by simp [bind, join]) (.cons hcal .nil) Scan.nil rfl (Scan.done hs)
    simpa [open_] using hr _ (by simp [rank])
  · obtain ⟨vs, c1, c2, c3⟩ := collect_all (ha 0) r []
    refine Scan.call (n := .map) (k := 1) (args := [I (.user f)] :: vs) (as := [[I (.user f)]]) (as' := [[I (.user f)]]) (va := a) (va' := [])
      (rest := r) (t := []) (r' := T [I (.user f)] ++ .tok .comma :: (T a ++ .tok .rp :: r)) rfl (ho _ (by simp [rank])) ?_ (by simp [skip, mapCall]) ?_
      ?_ (.cons hcal .nil) hsc rfl (Scan.done hs)
    · simpa [open_, open_append, op] using hr _ (by simp [rank])
    · rw [(isArg_name _).next, c1]; rfl
    · simp only [List.nil_append] at c3
      simp [bind, c3]

/-- A name that is not a macro: `f(x)` stays as it is. -/
theorem applies_function (hf : user f = none) {x : List Tok} (hx : Balanced x) (hxi : ∀ t ∈ x, Inert (table user) t) :
    Applies user f (fun x => I (.user f) :: .lp :: (x ++ [.rp])) x := by
  have hi : ∀ t ∈ I (.user f) :: .lp :: (x ++ [.rp]), Inert (table user) t := by
    intro t ht
    simp only [List.mem_cons, List.mem_append, List.not_mem_nil, or_false] at ht
    rcases ht with rfl | rfl | ht | rfl
    · simp [Inert, table, hf]
    · trivial
    · exact hxi t ht
    · trivial
  exact ⟨fun outer r o _ _ hs => Scan.inerts hi hs, hi, paren_balanced _ hx⟩

/-- A macro of one parameter: `f(x)` becomes its replacement list with `x` for the parameter. -/
theorem applies_macro {b : List Body} (hf : user f = some (.function 1 false false b)) {x : List Tok} (hx : IsArg x)
    (hxi : ∀ t ∈ x, Inert (table user) t) (hb : Balanced (subst [x] [] b)) (hbi : ∀ t ∈ subst [x] [] b, Inert (table user) t) :
    Applies user f (fun x => subst [x] [] b) x := by
  refine ⟨?_, hbi, hb⟩
  intro outer r o ho hr hs
  refine Scan.call (n := .user f) (k := 1) (args := [x]) (as := [x]) (as' := [x]) (va := []) (va' := []) (rest := r) (t := subst [x] [] b)
    (r' := T x ++ .tok .rp :: r) (by simpa [table] using hf) (ho f) ?_ (by simp [skip]) (hx.last r) (by simp [bind])
    (.cons (scan_inert hxi) .nil) Scan.nil rfl (Scan.inerts hbi (Scan.done hs))
  simpa [open_, open_append, op] using hr f

theorem join_scan {xs : List (List Tok)} (h : ∀ x ∈ xs, ∀ t ∈ x, Inert (table user) t) : Scan (table user) outer (T (join xs)) (join xs) :=
  scan_inert (join_inert h)

theorem free_nil (k : Nat) : Free k [] := by intro n _; simp

/-- C99 for a function `f`: `STDX_MAP(f, x1, …, xn)` is `f(x1), …, f(xn)` and nothing else. -/
theorem C99_function_partial (hf : user f = none) {xs : List (List Tok)} (hx : ∀ x ∈ xs, Plain user x) (hne : join xs ≠ [])
    (hlen : xs.length ≤ 367) (out : List Tok) :
    Scan (table user) [] (T (mapCall f (join xs))) out ↔ out = join (xs.map fun x => I (.user f) :: .lp :: (x ++ [.rp])) := by
  have h := C99_map_partial (F := fun x => I (.user f) :: .lp :: (x ++ [.rp])) (outer := []) (r := []) (o := []) (.inl hf)
    (join_balanced fun x h => (hx x h).isArg.balanced) (join_scan fun x h => (hx x h).inert) hne
    ⟨fun x h => ⟨⟨(hx x h).isArg, (hx x h).inert⟩, applies_function hf (hx x h).isArg.balanced (hx x h).inert⟩,
      fun x h => hx x (List.mem_of_mem_tail h)⟩ hlen (free_nil _) (by simpa [open_] using free_nil 10) Scan.nil
  simp only [List.append_nil] at h
  exact ⟨fun h' => h'.unique h, fun e => e ▸ h⟩

/-- C99 for a map of a map: `STDX_MAP(f, STDX_MAP(g, x1, …, xn))` is `F (G x1), …, F (G xn)`. -/
theorem C99_compose_partial {g : Nat} {G : List Tok → List Tok} (hf : Callee user f) (hg : Callee user g) {xs : List (List Tok)}
    (hx : Args user g G xs) (hgx : Args user f F (xs.map G)) (hne : join xs ≠ []) (hneG : join (xs.map G) ≠ []) (hlen : xs.length ≤ 367) :
    Scan (table user) [] (T (mapCall f (mapCall g (join xs)))) (join (xs.map (F ∘ G))) := by
  have hb : Balanced (join xs) := join_balanced fun x h => (hx.each x h).1.1.balanced
  have hi := join_scan (user := user) (outer := []) fun x h => (hx.each x h).1.2
  have h1 := C99_map_partial (outer := []) (r := []) (o := []) hg hb hi hne hx hlen (free_nil _) (by simpa [open_] using free_nil 10) Scan.nil
  have h2 := C99_map_partial (outer := []) (r := []) (o := []) (a := mapCall g (join xs)) hf
    (by
      have := (Balanced.cons (t := I (.user g)) (by simp) (by simp) (Balanced.cons (t := .comma) (by simp) (by simp) hb)).paren
      exact Balanced.cons (by simp) (by simp) (by simpa using this))
    (by simpa [open_] using h1) hneG hgx (by simpa using hlen) (free_nil _) (by simpa [open_] using free_nil 10) Scan.nil
  simpa using h2

end

/-! ## Cases that meet the hypotheses -/

/-- Any number of different numbers, as in `STDX_MAP(f, 1, 2, …)`. -/
theorem plain_other (user : Nat → Option Macro) (k : Nat) : Plain user [.other k] :=
  ⟨⟨balanced_iff.2 rfl, rfl⟩, by simp [Inert], by rintro ⟨a, b, c, y, _, _, _, h⟩; simp at h⟩

/-- `(x, y)` is one argument. -/
theorem plain_pair (user : Nat → Option Macro) (j k : Nat) : Plain user [.lp, .other j, .comma, .other k, .rp] :=
  ⟨⟨balanced_iff.2 rfl, rfl⟩, by simp [Inert], by
    rintro ⟨a, b, c, y, ha, _, _, h⟩
    simp only [List.cons.injEq, true_and] at h
    have h1 : depth 0 ([Tok.other j, .comma, .other k, .rp]) = depth 0 (a ++ .rp :: .lp :: (b ++ .rp :: .lp :: (c ++ .rp :: y))) := by rw [h]
    rcases a with _ | ⟨t1, a⟩
    · simp at h
    rcases a with _ | ⟨t2, a⟩
    · simp at h
    rcases a with _ | ⟨t3, a⟩
    · simp at h
    rcases a with _ | ⟨t4, a⟩
    · simp at h
    · have := congrArg List.length h
      simp at this⟩

/-- 367 arguments, each of them `(k, 7)`. -/
example : ∀ out, Scan (table fun _ => none) [] (T (mapCall 5 (join ((List.range 367).map fun k => [.lp, .other k, .comma, .other 7, .rp])))) out ↔
    out = join ((List.range 367).map fun k => [I (.user 5), .lp, .lp, .other k, .comma, .other 7, .rp, .rp]) := by
  intro out
  have h := C99_function_partial (user := fun _ => none) (f := 5) rfl
    (xs := (List.range 367).map fun k => [.lp, .other k, .comma, .other 7, .rp])
    (by intro x hx; obtain ⟨k, _, rfl⟩ := List.mem_map.1 hx; exact plain_pair _ _ _)
    (by rw [List.range_succ_eq_map, List.map_cons, join_flatMap]; simp) (by simp) out
  rw [List.map_map] at h
  exact h

/-- A macro: `#define g(x) (x, 1)`, with three arguments. -/
example : Scan (table fun n => if n = 3 then some (.function 1 false false [l, .param 0, k, .tok (.other 1), r]) else none) []
    (T (mapCall 3 (join [[.other 10], [.other 11], [.other 12]])))
    (join [[.lp, .other 10, .comma, .other 1, .rp], [.lp, .other 11, .comma, .other 1, .rp], [.lp, .other 12, .comma, .other 1, .rp]]) := by
  have h := C99_map_partial (user := fun n => if n = 3 then some (.function 1 false false [l, .param 0, k, .tok (.other 1), r]) else none)
    (f := 3) (F := fun x => subst [x] [] [l, .param 0, k, .tok (.other 1), r]) (outer := []) (r := []) (o := [])
    (xs := [[.other 10], [.other 11], [.other 12]]) (a := join [[.other 10], [.other 11], [.other 12]])
    (.inr ⟨1, false, false, _, rfl⟩) (balanced_iff.2 rfl) (scan_inert (by simp [join, Inert])) (by simp [join])
    ⟨?_, by intro x hx; simp at hx; rcases hx with rfl | rfl <;> exact plain_other _ _⟩ (by simp) (free_nil _)
    (by simpa [open_] using free_nil 10) Scan.nil
  · simpa [join, subst, l, k, PPMap.r] using h
  · intro x hx
    have : ∃ k, x = [.other k] := by simp at hx; rcases hx with rfl | rfl | rfl <;> exact ⟨_, rfl⟩
    obtain ⟨k, rfl⟩ := this
    exact ⟨⟨(plain_other (fun _ => none) k).isArg, by simp [Inert]⟩, applies_macro rfl (plain_other (fun _ => none) k).isArg (by simp [Inert])
      (balanced_iff.2 rfl) (by simp [subst, l, PPMap.k, PPMap.r, Inert])⟩

/-- 400 arguments. -/
example : ∃ n ∈ leftover, ∃ rest, Scan (table fun _ => none) [] (T (mapCall 5 (join (List.replicate 400 [.other 1]))))
    (join (List.replicate 368 [I (.user 5), .lp, .other 1, .rp]) ++ I n :: rest) := by
  have hp : ∀ x ∈ List.replicate 400 [Tok.other 1], Plain (fun _ => none) x := by
    intro x hx; rw [List.eq_of_mem_replicate hx]; exact plain_other _ _
  have h := C99_many_violated (user := fun _ => none) (f := 5) (F := fun x => I (.user 5) :: .lp :: (x ++ [.rp])) (outer := []) (r := []) (o := [])
    (xs := List.replicate 400 [Tok.other 1]) (.inl rfl) (join_balanced fun x h => (hp x h).isArg.balanced) (join_scan fun x h => (hp x h).inert)
    ⟨fun x h => ⟨⟨(hp x h).isArg, (hp x h).inert⟩, applies_function rfl (hp x h).isArg.balanced (hp x h).inert⟩,
      fun x h => hp x (List.mem_of_mem_tail h)⟩ (by rw [List.length_replicate]; omega) (free_nil _)
    (by simpa [open_] using free_nil 10) Scan.nil
  rw [List.take_replicate, List.map_replicate, show min 368 400 = 368 by omega] at h
  simpa only [open_, List.append_nil, List.cons_append, List.nil_append] using h

/-- `STDX_MAP(f, 1, (2)(3)(), 4)` is `f(1)`. -/
example : Scan (table fun _ => none) [] (T (mapCall 5 (join [[.other 1], stop [.other 2] [.other 3], [.other 4]])))
    [I (.user 5), .lp, .other 1, .rp] := by
  have h := C99_stop_violated (user := fun _ => none) (f := 5) (F := fun x => I (.user 5) :: .lp :: (x ++ [.rp])) (outer := []) (r := []) (o := [])
    (xs := [[.other 1]]) (zs := [[.other 4]]) (a := [.other 2]) (b := [.other 3])
    (t := join [[.other 1], stop [.other 2] [.other 3], [.other 4]]) (.inl rfl) (balanced_iff.2 rfl)
    (scan_inert (by simp [join, stop, Inert])) ⟨?_, by simp⟩ (by simp) (balanced_iff.2 rfl) (balanced_iff.2 rfl) (by simp [Inert])
    (by simp [Inert]) (by intro z hz; simp at hz; subst hz; exact ⟨balanced_iff.2 rfl, by simp [Inert]⟩) (by simp) (free_nil _)
    (by simpa [open_] using free_nil 10) Scan.nil
  · simpa [join] using h
  · intro x hx
    simp at hx
    subst hx
    exact ⟨⟨(plain_other (fun _ => none) 1).isArg, by simp [Inert]⟩, applies_function rfl (balanced_iff.2 rfl) (by simp [Inert])⟩

end Verif.PPMap
