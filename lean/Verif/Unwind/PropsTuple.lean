import Verif.Unwind.Props
import Verif.Tuple.Props
import Verif.Util.Props

/-!
# C139, tuples, `for_each_n_args` and `resize_and_overwrite`: functions that throw
-/

namespace Verif.Unwind

open Tuple (Column)

variable {E W X Y A R α β τ σ : Type}

/-! ## Steps -/

/-- A call whose result is appended to those before it. -/
def collect (f : W → W × Except E R) : Act E W (List R) := fun rs w =>
  match f w with
  | (w, .ok r) => (w, .ok (rs ++ [r]))
  | (w, .error e) => (w, .error e)

/-- A question, asked unless the answer before it was `stop`. -/
def ask (stop : Bool) (f : W → W × Except E Bool) : Act E W Bool := fun b w => if b = stop then (w, .ok b) else f w

/-- `n` is the length of the shortest tuple, of at least one, and `col i` are their elements at `i`. -/
structure Cols (ts : List (List α)) (n : Nat) (col : Nat → List α) : Prop where
  exact : n ∈ ts.map List.length
  least : ∀ t ∈ ts, n ≤ t.length
  col : ∀ i < n, Column ts i (col i)

theorem Cols.zip {ts : List (List α)} {n : Nat} {col : Nat → List α} (h : Cols ts n col) : Tuple.zipLength (ts.map List.length) = n := by
  have hne : ts.map List.length ≠ [] := List.ne_nil_of_mem h.exact
  obtain ⟨h1, h2⟩ := Tuple.C63_zip_length _ hne
  obtain ⟨t, ht, e⟩ := List.mem_map.mp h1
  have := h.least t ht
  have := h2 n h.exact
  omega

theorem Cols.invoke {ts : List (List α)} {n : Nat} {col : Nat → List α} (h : Cols ts n col) (op : Fn E W (List α) R) {i : Nat} (hi : i < n)
    (w : W) : invokeAt op ts i w = Res.of (op (col i) w).1 (op (col i) w).2 := by
  obtain ⟨xs, h1, h2⟩ := Tuple.column_eq (ts := ts) (i := i) (by rw [h.zip]; exact hi)
  unfold invokeAt
  rw [h1, h2.unique (h.col i hi)]
  exact call_eq _ _ _

theorem calls_runs {f : Nat → W → Res E W R} {g : Nat → W → W × Except E R} :
    ∀ (is : List Nat) (rs : List R) (w w' : W) (r : Except E (List R)), (∀ i ∈ is, ∀ w, f i w = Res.of (g i w).1 (g i w).2) →
      Runs (is.map fun i => collect (g i)) rs w w' r →
      (calls f is w).andThen (fun w qs => .ok w (rs ++ qs)) = Res.of w' r := by
  intro is
  induction is with
  | nil =>
    intro rs w w' r _ h
    cases h
    simp [calls, andThen_ok, of_ok]
  | cons i is ih =>
    intro rs w w' r hf h
    rw [List.map_cons] at h
    unfold calls
    rw [hf i (by simp)]
    cases h with
    | next h hr =>
      unfold collect at h
      cases hg : g i w with
      | mk w1 y =>
        rw [hg] at h
        cases y with
        | ok y =>
          cases h
          have := ih _ _ _ _ (fun j hj => hf j (by simp [hj])) hr
          rw [← this, of_ok, andThen_ok]
          generalize calls f is _ = c
          cases c <;> simp [Res.andThen]
        | error e => cases h
    | stop h =>
      unfold collect at h
      cases hg : g i w with
      | mk w1 y =>
        rw [hg] at h
        cases y with
        | ok y => cases h
        | error e => cases h; rfl

theorem calls_collect {f : Nat → W → Res E W R} {g : Nat → W → W × Except E R} {is : List Nat} {w w' : W} {r : Except E (List R)}
    (hf : ∀ i ∈ is, ∀ w, f i w = Res.of (g i w).1 (g i w).2) (h : Runs (is.map fun i => collect (g i)) [] w w' r) :
    calls f is w = Res.of w' r := by
  have := calls_runs is [] w w' r hf h
  rw [← this]
  cases calls f is w <;> rfl

/-- Steps without results, seen as steps that collect them. -/
theorem runs_units {g : Nat → W → W × Except E Unit} : ∀ (is : List Nat) (rs : List Unit) {w w' : W} {r : Except E Unit},
    Runs (is.map fun i => (fun _ w => g i w : Act E W Unit)) () w w' r →
      ∃ q, Runs (is.map fun i => collect (g i)) rs w w' q ∧ q.map (fun _ => ()) = r := by
  intro is
  induction is with
  | nil => intro rs w w' r h; cases h; exact ⟨_, .done _ _, rfl⟩
  | cons i is ih =>
    intro rs w w' r h
    rw [List.map_cons] at h
    cases h with
    | next h hr =>
      obtain ⟨q, h1, h2⟩ := ih (rs ++ [()]) hr
      exact ⟨q, .next (by simp only at h; simp only [collect, h]) h1, h2⟩
    | stop h => exact ⟨_, .stop (by simp only at h; simp only [collect, h]), rfl⟩

/-! ## Theorems -/

/-- **C139, tuple `transform`**: calls in index order; the results are lost with an exception. -/
theorem C139_tuple_transform {ts : List (List α)} {n : Nat} {col : Nat → List α} (hc : Cols ts n col) (op : Fn E W (List α) R)
    {w w' : W} {r : Except E (List R)} (hr : Runs ((List.range n).map fun i => collect (op (col i))) [] w w' r) :
    tupleTransform op ts w = Res.of w' r := by
  unfold tupleTransform
  rw [hc.zip]
  exact calls_collect (fun i hi w => hc.invoke op (List.mem_range.mp hi) w) hr

/-- **C139, tuple `for_each` and `enumerate`.** -/
theorem C139_tuple_for_each {ts : List (List α)} {n : Nat} {col : Nat → List α} (hc : Cols ts n col) (op : Fn E W (List α) Unit)
    {w w' : W} {r : Except E Unit} (hr : Runs ((List.range n).map fun i => just op (col i)) () w w' r) :
    tupleForEach op ts w = Res.of w' r := by
  unfold tupleForEach
  rw [hc.zip]
  obtain ⟨q, h1, h2⟩ := runs_units (g := fun i => op (col i)) _ [] hr
  rw [calls_collect (fun i hi w => hc.invoke op (List.mem_range.mp hi) w) h1, ← h2]
  exact of_andThen _ _ _

/-- **C139, tuple `enumerate`.** -/
theorem C139_tuple_enumerate {ts : List (List α)} {n : Nat} {col : Nat → List α} (hc : Cols ts n col) (op : Fn E W (Nat × List α) Unit)
    {w w' : W} {r : Except E Unit} (hr : Runs ((List.range n).map fun i => just op (i, col i)) () w w' r) :
    tupleEnumerate op ts w = Res.of w' r := by
  unfold tupleEnumerate
  rw [hc.zip]
  obtain ⟨q, h1, h2⟩ := runs_units (g := fun i => op (i, col i)) _ [] hr
  rw [calls_collect (fun i hi w => hc.invoke (fun xs => op (i, xs)) (List.mem_range.mp hi) w) h1, ← h2]
  exact of_andThen _ _ _

theorem runs_collected {g : Nat → W → W × Except E R} : ∀ (is : List Nat) (rs qs : List (Nat × R)) {w w' : W},
    Runs (is.map fun i => collect (fun w => ((g i w).1, (g i w).2.map fun r => (i, r)))) rs w w' (.ok qs) →
      qs.map (·.1) = rs.map (·.1) ++ is := by
  intro is
  induction is with
  | nil => intro rs qs w w' h; cases h; simp
  | cons i is ih =>
    intro rs qs w w' h
    rw [List.map_cons] at h
    cases h with
    | next h hr =>
      have h2 := ih _ _ hr
      unfold collect at h
      cases hg : (g i w).2 with
      | ok y =>
        simp only [hg, map_ok] at h
        cases h
        rw [h2]; simp
      | error e => simp only [hg, map_error] at h; cases h

/-- **C139, tuple `transform` with index functions**: calls in some order of the indices (not specified), until one throws; if none does, each
result is at its index. -/
theorem C139_tuple_transform_indexed {ts : List (List α)} {n : Nat} {col : Nat → List α} (hc : Cols ts n col) (op : Fn E W (List α) R)
    {order : List Nat} (ho : order.Perm (List.range n)) {w w' : W} {r : Except E (List (Nat × R))}
    (hr : Runs (order.map fun i => collect fun w => ((op (col i) w).1, (op (col i) w).2.map fun r => (i, r))) [] w w' r) :
    (∀ e, r = .error e → tupleTransformIndexed op ts order w = .threw w' e) ∧
    ∀ rs, r = .ok rs → ∃ out, tupleTransformIndexed op ts order w = .ok w' out ∧ out.length = n ∧
      ∀ i x, (i, x) ∈ rs ↔ out[i]? = some x := by
  have hcalls : calls (fun i w => (invokeAt op ts i w).andThen fun w r => .ok w (i, r)) order w = Res.of w' r := by
    refine calls_collect (fun i hi w => ?_) hr
    rw [hc.invoke op (List.mem_range.mp (ho.mem_iff.mp hi))]
    exact of_andThen _ _ _
  unfold tupleTransformIndexed
  rw [hcalls]
  constructor
  · rintro e rfl; rfl
  · rintro rs rfl
    have hk := runs_collected order [] rs hr
    simp only [List.map_nil, List.nil_append] at hk
    have hnd : (rs.map (·.1)).Nodup := by rw [hk]; exact ho.nodup_iff.mpr List.nodup_range
    have hfind : ∀ i x, (i, x) ∈ rs → rs.find? (fun e => e.1 = i) = some (i, x) := by
      intro i x hm
      clear hk hr hcalls
      induction rs with
      | nil => cases hm
      | cons p ps ih =>
        rw [List.map_cons, List.nodup_cons] at hnd
        rw [List.find?_cons]
        rcases List.mem_cons.mp hm with rfl | hm
        · simp
        · have : p.1 ≠ i := fun h => hnd.1 (h ▸ List.mem_map_of_mem (f := (·.1)) hm)
          simp only [this, decide_false]
          exact ih hnd.2 hm
    have hex : ∀ i < n, ∃ x, (i, x) ∈ rs := by
      intro i hi
      have : i ∈ rs.map (·.1) := by rw [hk]; exact ho.mem_iff.mpr (List.mem_range.mpr hi)
      obtain ⟨⟨j, x⟩, hm, rfl⟩ := List.mem_map.mp this
      exact ⟨x, hm⟩
    have hlt : ∀ i x, (i, x) ∈ rs → i < n := by
      intro i x hm
      have : i ∈ rs.map (·.1) := List.mem_map_of_mem (f := (·.1)) hm
      rw [hk] at this
      exact List.mem_range.mp (ho.mem_iff.mp this)
    obtain ⟨out, hl, hout⟩ : ∃ out : List R, out.length = n ∧ ∀ i x, (i, x) ∈ rs ↔ out[i]? = some x := by
      have hopt : ∀ i, ∃ o : Option R, i < n → ∃ x, o = some x ∧ (i, x) ∈ rs := by
        intro i
        by_cases hi : i < n
        · obtain ⟨x, hx⟩ := hex i hi
          exact ⟨some x, fun _ => ⟨x, rfl, hx⟩⟩
        · exact ⟨none, fun h => absurd h hi⟩
      have key : ∀ m ≤ n, ∃ out : List R, out.length = m ∧ ∀ i x, i < m → ((i, x) ∈ rs ↔ out[i]? = some x) := by
        intro m
        induction m with
        | zero => intro _; exact ⟨[], rfl, fun i x h => absurd h (by omega)⟩
        | succ m ih =>
          intro hm
          obtain ⟨out, h1, h2⟩ := ih (by omega)
          obtain ⟨x, hx⟩ := hex m (by omega)
          refine ⟨out ++ [x], by simp [h1], fun i y hi => ?_⟩
          by_cases him : i < m
          · rw [List.getElem?_append_left (by omega)]; exact h2 i y him
          · obtain rfl : i = m := by omega
            rw [← h1, List.getElem?_concat_length]
            constructor
            · intro hy
              rw [h1] at hy
              have a := hfind _ _ hy
              rw [hfind _ _ hx] at a
              exact congrArg (fun o => o.map (·.2)) a
            · intro hy
              cases hy
              rw [h1]; exact hx
      obtain ⟨out, h1, h2⟩ := key n (Nat.le_refl _)
      refine ⟨out, h1, fun i x => ⟨fun h => (h2 i x (hlt i x h)).mp h, fun h => ?_⟩⟩
      have hi : i < out.length := by
        rcases Nat.lt_or_ge i out.length with h' | h'
        · exact h'
        · rw [List.getElem?_eq_none h'] at h; cases h
      exact (h2 i x (by omega)).mpr h
    refine ⟨out, ?_, hl, hout⟩
    rw [of_ok, andThen_ok, hc.zip, Tuple.mapO_range hl.symm (fun i hi => by
      rw [hfind i out[i] ((hout i _).mpr (List.getElem?_eq_getElem hi))])]
    rfl

theorem shortFold_threw {stop : Bool} {w0 w' : W} {x : E} : ∀ (es : List (W → Res E W Bool)) (acc : W → Res E W Bool),
    acc w0 = .threw w' x → shortFold stop acc es w0 = .threw w' x := by
  intro es
  induction es with
  | nil => intro a h; exact h
  | cons e es ih => intro a h; rw [shortFold]; exact ih _ (by rw [h]; rfl)

theorem shortFold_runs {stop : Bool} {f : Nat → W → Res E W Bool} {g : Nat → W → W × Except E Bool} :
    ∀ (is : List Nat) (acc : W → Res E W Bool) (b : Bool) (w0 w w' : W) (r : Except E Bool),
      (∀ i ∈ is, ∀ w, f i w = Res.of (g i w).1 (g i w).2) → acc w0 = .ok w b →
      Runs (is.map fun i => ask stop (g i)) b w w' r → shortFold stop acc (is.map f) w0 = Res.of w' r := by
  intro is
  induction is with
  | nil =>
    intro acc b w0 w w' r _ ha h
    cases h
    exact ha
  | cons i is ih =>
    intro acc b w0 w w' r hf ha h
    rw [List.map_cons] at h
    rw [List.map_cons, shortFold]
    cases h with
    | next h hr =>
      refine ih _ _ _ _ _ _ (fun j hj => hf j (by simp [hj])) ?_ hr
      rw [ha, andThen_ok]
      unfold ask at h
      split at h
      · cases h; rw [if_pos (by assumption)]
      · rw [if_neg (by assumption), hf i (by simp), h]; rfl
    | stop h =>
      unfold ask at h
      split at h
      · cases h
      · refine shortFold_threw _ _ ?_
        rw [ha, andThen_ok, if_neg (by assumption), hf i (by simp), h]; rfl

theorem ask_all {ts : List (List α)} {n : Nat} {col : Nat → List α} (hc : Cols ts n col) (f : Fn E W (List α) Bool) (stop : Bool)
    {w w' : W} {r : Except E Bool} (hr : Runs ((List.range n).map fun i => ask stop (f (col i))) (!stop) w w' r) :
    (match (List.range (Tuple.zipLength (ts.map List.length))).map (invokeAt f ts) with
      | [] => .ok w (!stop)
      | e :: es => shortFold stop e es w) = Res.of w' r := by
  rw [hc.zip]
  cases n with
  | zero => cases hr; rfl
  | succ n =>
    rw [List.range_succ_eq_map, List.map_cons] at hr ⊢
    simp only
    have hne : ¬ ((!stop) = stop) := by cases stop <;> decide
    cases hr with
    | next h hr =>
      refine shortFold_runs _ _ _ _ _ _ _ (fun i hi w => hc.invoke f ?_ w) ?_ hr
      · obtain ⟨j, hj, rfl⟩ := List.mem_map.mp hi
        have := List.mem_range.mp hj
        omega
      · unfold ask at h
        rw [if_neg hne] at h
        rw [hc.invoke f (by omega), h]; rfl
    | stop h =>
      refine shortFold_threw _ _ ?_
      unfold ask at h
      rw [if_neg hne] at h
      rw [hc.invoke f (by omega), h]; rfl

/-- **C139, tuple `all_of`**: the predicate is asked in index order until it says no or throws. -/
theorem C139_tuple_all_of {ts : List (List α)} {n : Nat} {col : Nat → List α} (hc : Cols ts n col) (f : Fn E W (List α) Bool)
    {w w' : W} {r : Except E Bool} (hr : Runs ((List.range n).map fun i => ask false (f (col i))) true w w' r) :
    tupleAllOf f ts w = Res.of w' r := ask_all hc f false hr

/-- **C139, tuple `any_of` and `none_of`**: the predicate is asked in index order until it says yes or throws. -/
theorem C139_tuple_any_of {ts : List (List α)} {n : Nat} {col : Nat → List α} (hc : Cols ts n col) (f : Fn E W (List α) Bool)
    {w w' : W} {r : Except E Bool} (hr : Runs ((List.range n).map fun i => ask true (f (col i))) false w w' r) :
    tupleAnyOf f ts w = Res.of w' r ∧ tupleNoneOf f ts w = Res.of w' (r.map fun b => !b) := by
  have h : tupleAnyOf f ts w = Res.of w' r := ask_all hc f true hr
  refine ⟨h, ?_⟩
  unfold tupleNoneOf
  rw [h]
  exact of_andThen _ _ _

/-- **C139, tuple `fold_left`.** -/
theorem C139_tuple_fold_left (op : Fn E W (β × α) β) {xs : List α} {init : β} {w w' : W} {r : Except E β}
    (hr : Runs (xs.map fun x b w => op (b, x) w) init w w' r) : tupleFoldLeft op init xs w = Res.of w' r := by
  induction xs generalizing init w with
  | nil => cases hr; rfl
  | cons x xs ih =>
    rw [List.map_cons] at hr
    rw [tupleFoldLeft, call_eq]
    cases hr with
    | next h hr => rw [show op (init, x) w = _ from h]; exact ih hr
    | stop h => rw [show op (init, x) w = _ from h]; rfl

/-- **C139, tuple `fold_right`**: from the last element. -/
theorem C139_tuple_fold_right (op : Fn E W (α × β) β) {xs : List α} {init : β} {w w' : W} {r : Except E β}
    (hr : Runs (xs.reverse.map fun x b w => op (x, b) w) init w w' r) : tupleFoldRight op init xs w = Res.of w' r := by
  induction xs generalizing w' r with
  | nil => cases hr; rfl
  | cons x xs ih =>
    rw [List.reverse_cons, List.map_append, List.map_singleton] at hr
    rw [tupleFoldRight]
    rcases runs_append hr with ⟨b, w1, h1, h2⟩ | ⟨e, rfl, h1⟩
    · rw [ih h1, of_ok, andThen_ok, call_eq]
      cases h2 with
      | next h hd => cases hd; rw [show op (x, b) w1 = _ from h]
      | stop h => rw [show op (x, b) w1 = _ from h]
    · rw [ih h1]; rfl

/-! ## `for_each_n_args` -/

theorem execRows_runs (f : Fn E W (List α) Unit) (batch : Nat) (bs : List (List α)) (hb : ∀ b ∈ bs, b.length = batch) (t : List α)
    (pre : List (List α)) (ht : t = pre.flatten ++ bs.flatten) (hpre : ∀ b ∈ pre, b.length = batch) {w w' : W} {r : Except E Unit}
    (hr : Runs (bs.map (just f)) () w w' r) :
    execRows f t batch (List.range' pre.length bs.length) w = Res.of w' r := by
  induction bs generalizing pre w with
  | nil => cases hr; rfl
  | cons b bs ih =>
    rw [List.map_cons] at hr
    rw [List.length_cons, List.range'_succ, execRows]
    have hl : pre.flatten.length = pre.length * batch := by
      clear ht ih
      induction pre with
      | nil => simp
      | cons p ps ihp =>
        rw [List.flatten_cons, List.length_append, ihp fun q hq => hpre q (by simp [hq]), hpre p (by simp), List.length_cons, Nat.succ_mul]
        omega
    have hs := Tuple.slice_eq (G := Tuple.get t) t pre.flatten b bs.flatten (by rw [ht, List.flatten_cons]) (fun i x h => arrGet_ok.mpr h)
    rw [hl, hb b (by simp)] at hs
    rw [hs]
    simp only [need]
    rw [call_eq]
    cases hr with
    | next h hr =>
      rw [show f b w = _ from h, of_ok, andThen_ok]
      have := ih (fun c hc => hb c (by simp [hc])) (pre ++ [b]) (by rw [ht]; simp) (by
        intro c hc
        rcases List.mem_append.mp hc with hc | hc
        · exact hpre c hc
        · rw [List.mem_singleton.mp hc]; exact hb b (by simp)) hr
      rw [List.length_append, List.length_singleton] at this
      exact this
    | stop h => rw [show f b w = _ from h]; rfl

/-- **C139, `for_each_n_args`**: one call for each batch in order, until one throws. -/
theorem C139_for_each_n_args (n arity : Nat) (f : Fn E W (List α) Unit) (bs : List (List α)) {w w' : W} {r : Except E Unit}
    (hpos : (if n = 0 then arity else n) ≠ 0) (hb : ∀ b ∈ bs, b.length = if n = 0 then arity else n)
    (hr : Runs (bs.map (just f)) () w w' r) : forEachNArgs n arity f bs.flatten w = Res.of w' r := by
  unfold forEachNArgs
  generalize (if n = 0 then arity else n) = batch at *
  simp only
  have hl : bs.flatten.length = bs.length * batch := by
    clear hr
    induction bs with
    | nil => simp
    | cons p ps ihp =>
      rw [List.flatten_cons, List.length_append, ihp fun q hq => hb q (by simp [hq]), hb p (by simp), List.length_cons, Nat.succ_mul]
      omega
  rw [if_neg hpos, if_pos (by rw [hl]; exact Nat.mul_mod_left _ _), hl, Nat.mul_div_cancel _ (by omega), List.range_eq_range']
  exact execRows_runs f batch bs hb _ [] (by simp) (by simp) hr

/-! ## `resize_and_overwrite` -/

/-- **C139, `resize_and_overwrite`**: the function is called once, with the capacity; if it throws, the vector is as it left it — with the
size it had, unless the function changed that — and otherwise the size is the result. -/
theorem C139_resize_and_overwrite (f : Fn E (Buf.Buf α × σ) Nat Nat) (v v' : Buf.Buf α) (s s' : σ) :
    (∀ e, f v.storage.length (v, s) = ((v', s'), .error e) → resizeAndOverwrite f (v, s) = .threw (v', s') e) ∧
    ∀ n, f v.storage.length (v, s) = ((v', s'), .ok n) →
      ∃ v2, resizeAndOverwrite f (v, s) = .ok (v2, s') () ∧ v2.size = n ∧ ∀ i : Nat, v2.storage[i]? = v'.storage[i]? := by
  unfold resizeAndOverwrite
  rw [call_eq]
  constructor
  · intro e h; rw [h]; rfl
  · intro n h; rw [h]; exact ⟨⟨v'.storage, n⟩, rfl, rfl, fun _ => rfl⟩

/-! ## Examples -/

/-- Notes the arguments and throws if their sum is 22. -/
private def f22 : Fn String (List (List Nat)) (List Nat) Nat := fun xs w =>
  (w ++ [xs], if xs.sum = 22 then .error "22" else .ok xs.sum)
private def g22 : Fn String (List (List Nat)) (List Nat) Unit := fun xs w => ((f22 xs w).1, (f22 xs w).2.map fun _ => ())
private def p22 : Fn String (List (List Nat)) (List Nat) Bool := fun xs w => ((f22 xs w).1, (f22 xs w).2.map fun x => decide (x < 20))

private def tss : List (List Nat) := [[1, 2, 3, 9], [10, 20, 30]]

example : Cols tss 3 (fun i => [i + 1, 10 * (i + 1)]) := ⟨by decide, by decide, by unfold Column; decide⟩
example : tupleTransform f22 tss [] = .threw [[1, 10], [2, 20]] "22" := by decide
example : tupleForEach g22 tss [] = .threw [[1, 10], [2, 20]] "22" := by decide
example : tupleTransformIndexed f22 tss [2, 1, 0] [] = .threw [[3, 30], [2, 20]] "22" := by decide
example : tupleTransformIndexed f22 [[1, 2], [10, 30]] [1, 0] [] = .ok [[2, 30], [1, 10]] [11, 32] := by decide
example : tupleAllOf p22 tss [] = .threw [[1, 10], [2, 20]] "22" := by decide
example : tupleAnyOf p22 tss [] = .ok [[1, 10]] true := by decide
example : tupleNoneOf p22 [[2], [20]] [] = .threw [[2, 20]] "22" := by decide
example : tupleFoldLeft (fun (x : Nat × Nat) w => f22 [x.1, x.2] w) 0 [10, 12, 5] [] = .threw [[0, 10], [10, 12]] "22" := by decide
example : tupleFoldRight (fun (x : Nat × Nat) w => f22 [x.1, x.2] w) 0 [10, 12, 5] [] =
  .ok [[5, 0], [12, 5], [10, 17]] 27 := by decide
example : tupleFoldRight (fun (x : Nat × Nat) w => f22 [x.1, x.2] w) 0 [10, 17, 5] [] = .threw [[5, 0], [17, 5]] "22" := by decide
example : forEachNArgs 2 0 g22 [1, 10, 2, 20, 3, 30] [] = .threw [[1, 10], [2, 20]] "22" := by decide
example : Runs ([[1, 10], [2, 20], [3, 30]].map (just g22)) () [] [[1, 10], [2, 20]] (.error "22") :=
  .next (w1 := [[1, 10]]) (x1 := ()) rfl (.stop rfl)
example : resizeAndOverwrite (σ := Unit) (fun n w => ((⟨w.1.storage.set 0 n, w.1.size⟩, w.2), .error "full")) (⟨[1, 2, 3], 2⟩, ()) =
  .threw (⟨[3, 2, 3], 2⟩, ()) "full" := by decide

end Verif.Unwind
