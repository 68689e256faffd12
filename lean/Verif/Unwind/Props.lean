import Verif.Unwind.Spec
import Verif.Algorithm.Props

/-!
# C139, iterator algorithms: functions that throw

Each theorem gives the steps of an algorithm; whatever the functions do and whichever call throws, the steps are taken in order until
one throws, and the caller gets that exception.
-/

namespace Verif.Unwind

open Algorithm (World ITy incs shift Fits)

variable {E W X Y A R α β τ σ : Type}

theorem map_error (f : A → R) (e : E) : (Except.error e : Except E A).map f = .error e := rfl
theorem map_ok (f : A → R) (a : A) : (Except.ok a : Except E A).map f = .ok (f a) := rfl
theorem of_ok (w : W) (r : R) : Res.of w (.ok r : Except E R) = .ok w r := rfl
theorem of_error (w : W) (e : E) : (Res.of w (.error e : Except E R)) = .threw w e := rfl
theorem andThen_ok (w : W) (a : A) (k : W → A → Res E W R) : (Res.ok w a).andThen k = k w a := rfl
theorem andThen_threw (w : W) (e : E) (k : W → A → Res E W R) : (Res.threw w e).andThen k = .threw w e := rfl

theorem call_eq (f : Fn E W A R) (a : A) (w : W) : call f a w = Res.of (f a w).1 (f a w).2 := by
  unfold call
  cases h : f a w with
  | mk w1 r => cases r <;> rfl

/-! ## Loops -/

/-- The body of a loop does what the steps say, where `emb k` is the loop's state before step `k`, and keeps an invariant. -/
def Does (Inv : W → Prop) (body : X → List Nat → W → Res E W X) (its : List Nat) (emb : Nat → Y → X)
    (act : Nat → Act E W Y) (n : Nat) : Prop :=
  ∀ k y w, k < n → Inv w → Inv (act k y w).1 ∧
    body (emb k y) (shift its k) w = Res.of (act k y w).1 ((act k y w).2.map (emb (k + 1)))

theorem whileRange_runs {Inv : W → Prop} {body : X → List Nat → W → Res E W X} {first : Nat} {rest : List Nat}
    {emb : Nat → Y → X} {act : Nat → Act E W Y} {n : Nat} (hb : Does Inv body (first :: rest) emb act n) :
    ∀ (m k fuel : Nat) (y : Y) (w w' : W) (r : Except E Y), k + m = n → m ≤ fuel → Inv w →
      Runs ((List.range' k m).map act) y w w' r →
      whileRange body (first + n) fuel (emb k y) (first + k) (shift rest k) w =
        Res.of w' (r.map fun y => (emb n y, shift (first :: rest) n)) := by
  intro m
  induction m with
  | zero =>
    intro k fuel y w w' r hk _ hi hr
    obtain rfl : k = n := hk
    cases hr
    unfold whileRange
    rw [if_pos rfl]; rfl
  | succ m ih =>
    intro k fuel y w w' r hk hf hi hr
    obtain ⟨fuel, rfl⟩ : ∃ j, fuel = j + 1 := ⟨fuel - 1, by omega⟩
    rw [List.range'_succ, List.map_cons] at hr
    obtain ⟨hi', e⟩ := hb k y w (by omega) hi
    rw [Algorithm.shift_cons] at e
    unfold whileRange
    rw [if_neg (by omega)]
    simp only [e]
    cases hr with
    | next h hr =>
      rw [h] at hi' ⊢
      rw [map_ok, of_ok, andThen_ok]
      have := ih (k + 1) fuel _ _ _ _ (by omega) (by omega) hi' hr
      rw [Algorithm.incs_shift, Nat.add_assoc]
      exact this
    | stop h => rw [h]; rfl

theorem whileCount_runs {Inv : W → Prop} {t : ITy} {go : Int → Bool} {body : X → List Nat → W → Res E W X} {its : List Nat}
    {emb : Nat → Y → X} {act : Nat → Act E W Y} {n : Nat} (hb : Does Inv body its emb act n) :
    ∀ (m k fuel : Nat) (i : Int) (y : Y) (w w' : W) (r : Except E Y), Algorithm.Counts t go m i → k + m = n → m ≤ fuel → Inv w →
      Runs ((List.range' k m).map act) y w w' r →
      whileCount t go body fuel (emb k y) i (shift its k) w = Res.of w' (r.map fun y => (emb n y, shift its n)) := by
  intro m
  induction m with
  | zero =>
    intro k fuel i y w w' r hc hk _ hi hr
    obtain rfl : k = n := hk
    cases hr
    cases hc with
    | stop h1 h2 =>
      unfold whileCount
      rw [h1]
      simp [need, h2]; rfl
  | succ m ih =>
    intro k fuel i y w w' r hc hk hf hi hr
    obtain ⟨fuel, rfl⟩ : ∃ j, fuel = j + 1 := ⟨fuel - 1, by omega⟩
    rw [List.range'_succ, List.map_cons] at hr
    obtain ⟨hi', e⟩ := hb k y w (by omega) hi
    cases hc with
    | more h1 h2 h3 =>
      unfold whileCount
      rw [h1]
      simp only [need, h2, if_true, e]
      cases hr with
      | next h hr =>
        rw [h] at hi' ⊢
        rw [map_ok, of_ok, andThen_ok, Algorithm.incs_shift]
        exact ih (k + 1) fuel _ _ _ _ _ h3 (by omega) (by omega) hi' hr
      | stop h => rw [h]; rfl

/-! ## Steps -/

/-- The function does not change the number of elements in memory, whether it returns or throws. -/
def Keeps (f : Fn E (World α σ) A R) : Prop := ∀ a w, (f a w).1.1.length = w.1.length

/-- Step `k` of `transform`: the call, and if it returns, the element `d + k` is written. -/
def callAndStore (op : Fn E (World α σ) (List Nat) α) (its : List Nat) (d k : Nat) : Act E (World α σ) Unit := fun _ w =>
  match op (shift its k) w with
  | (w, .ok v) => ((w.1.set (d + k) v, w.2), .ok ())
  | (w, .error e) => (w, .error e)

/-- Step `k` of `transform_reduce`: the call of `top`, and if it returns, that of `rop`. -/
def callAndReduce (rop : Fn E W (β × τ) β) (top : Fn E W A τ) (a : A) : Act E W β := fun init w =>
  match top a w with
  | (w, .ok y) => rop (init, y) w
  | (w, .error e) => (w, .error e)

theorem derefs_of {its : List Nat} {w : World α σ} (h : ∀ p ∈ its, p < w.1.length) (k : Res E (World α σ) R) :
    derefs its w k = k := if_pos (by simpa using h)

theorem does_transform {op : Fn E (World α σ) (List Nat) α} (hop : Keeps op) {its : List Nat} {d n L : Nat}
    (hin : n = 0 ∨ Fits L n (d :: its)) :
    Does (fun w => w.1.length = L) (transformBody op) its (fun k (_ : Unit) => d + k) (callAndStore op its d) n := by
  intro k y w hk hw
  have hf : Fits L n (d :: its) := hin.resolve_left (by omega)
  have hd : d + k < L := Algorithm.fits_lt hf hk (d + k) (by simp [Algorithm.shift_cons])
  have hl := hop (shift its k) w
  rw [hw] at hl
  unfold transformBody callAndStore
  rw [derefs_of fun p hp => by rw [hw]; exact Algorithm.fits_lt hf hk p (by rw [Algorithm.shift_cons]; simp [hp]), call_eq]
  cases h : op (shift its k) w with
  | mk w1 r =>
    rw [h] at hl
    cases r with
    | ok v =>
      simp only [of_ok, andThen_ok, List.length_set, hl, true_and]
      rw [arrSet_of_lt (by simp only at hl; omega)]; rfl
    | error e => exact ⟨hl, rfl⟩

theorem does_forEach {op : Fn E (World α σ) (List Nat) Unit} (hop : Keeps op) {its : List Nat} {n L : Nat}
    (hin : n = 0 ∨ Fits L n its) :
    Does (fun w => w.1.length = L) (forEachBody op) its (fun _ (_ : Unit) => ()) (fun k => just op (shift its k)) n := by
  intro k y w hk hw
  have hf : Fits L n its := hin.resolve_left (by omega)
  have hl := hop (shift its k) w
  rw [hw] at hl
  refine ⟨hl, ?_⟩
  unfold forEachBody just
  rw [derefs_of fun p hp => by rw [hw]; exact Algorithm.fits_lt hf hk p hp, call_eq]
  cases (op (shift its k) w).2 <;> rfl

theorem does_reduce {rop : Fn E (World α σ) (β × τ) β} {top : Fn E (World α σ) (List Nat) τ} (hr : Keeps rop) (ht : Keeps top)
    {its : List Nat} {n L : Nat} (hin : n = 0 ∨ Fits L n its) :
    Does (fun w => w.1.length = L) (reduceBody rop top) its (fun _ (b : β) => b) (fun k => callAndReduce rop top (shift its k)) n := by
  intro k b w hk hw
  have hf : Fits L n its := hin.resolve_left (by omega)
  have hl := ht (shift its k) w
  rw [hw] at hl
  unfold reduceBody
  simp only [callAndReduce]
  rw [derefs_of fun p hp => by rw [hw]; exact Algorithm.fits_lt hf hk p hp, call_eq]
  cases h : top (shift its k) w with
  | mk w1 r =>
    rw [h] at hl
    cases r with
    | ok v =>
      show (rop (b, v) w1).1.1.length = L ∧ call rop (b, v) w1 = Res.of (rop (b, v) w1).1 ((rop (b, v) w1).2.map fun b => b)
      refine ⟨by rw [hr]; exact hl, ?_⟩
      rw [call_eq]
      cases (rop (b, v) w1).2 <;> rfl
    | error e => exact ⟨hl, rfl⟩

theorem of_andThen (w : W) (r : Except E A) (g : A → R) :
    (Res.of w r).andThen (fun w a => .ok w (g a)) = Res.of w (r.map g) := by cases r <;> rfl

theorem runs_inv {Inv : W → Prop} {acts : List (Act E W X)} {x : X} {w w' : W} {r : Except E X}
    (ha : ∀ a ∈ acts, ∀ x w, Inv w → Inv (a x w).1) (h : Runs acts x w w' r) : Inv w → Inv w' := by
  induction h with
  | done => exact id
  | next h _ ih =>
    intro hi
    refine ih (fun a h => ha a (by simp [h])) ?_
    have e := congrArg Prod.fst h
    simp only at e
    rw [← e]
    exact ha _ List.mem_cons_self _ _ hi
  | stop h =>
    intro hi
    have e := congrArg Prod.fst h
    simp only at e
    rw [← e]
    exact ha _ List.mem_cons_self _ _ hi

/-! ## Theorems -/

/-- **C139, `transform`.** One call for each position in order, its result written before the next; the first call that throws ends
it: no element is written for it or after it, and nothing else is called. -/
theorem C139_transform {op : Fn E (World α σ) (List Nat) α} (hop : Keeps op) {first n d : Nat} {rest : List Nat} {w w' : World α σ}
    {r : Except E Unit} (hin : n = 0 ∨ Fits w.1.length n (d :: first :: rest))
    (hr : Runs ((List.range n).map (callAndStore op (first :: rest) d)) () w w' r) :
    transform op first (first + n) d rest w = Res.of w' (r.map fun _ => (d + n, shift (first :: rest) n)) := by
  have := whileRange_runs (does_transform hop hin) n 0 (w.1.length + 1) () w w' r (by omega)
    (Algorithm.fuel_enough (hin.imp_right fun h p hp => h p (by simp at hp ⊢; tauto))) rfl
    (by rw [← List.range_eq_range']; exact hr)
  rw [Algorithm.shift_zero] at this
  exact this

/-- **C139, `transform_n`.** -/
theorem C139_transform_n {t : ITy} {op : Fn E (World α σ) (List Nat) α} (hop : Keeps op) {first d : Nat} {n : Int} (hn : t.Dec n)
    {rest : List Nat} {w w' : World α σ} {r : Except E Unit} (hin : n ≤ 0 ∨ Fits w.1.length n.toNat (d :: first :: rest))
    (hr : Runs ((List.range n.toNat).map (callAndStore op (first :: rest) d)) () w w' r) :
    transformN t op first n d rest w = Res.of w' (r.map fun _ => (d + n.toNat, shift (first :: rest) n.toNat)) := by
  have hin : n.toNat = 0 ∨ Fits w.1.length n.toNat (d :: first :: rest) := hin.imp_left (by omega)
  have := whileCount_runs (does_transform hop hin) n.toNat 0 (w.1.length + 1) n () w w' r (Algorithm.counts_pos hn) (by omega)
    (Algorithm.fuel_enough (hin.imp_right fun h p hp => h p (by simp at hp ⊢; tauto))) rfl
    (by rw [← List.range_eq_range']; exact hr)
  rw [Algorithm.shift_zero] at this
  exact this

/-- **C139, `for_each`.** -/
theorem C139_for_each {op : Fn E (World α σ) (List Nat) Unit} (hop : Keeps op) {first n : Nat} {rest : List Nat} {w w' : World α σ}
    {r : Except E Unit} (hin : n = 0 ∨ Fits w.1.length n (first :: rest))
    (hr : Runs ((List.range n).map fun k => just op (shift (first :: rest) k)) () w w' r) :
    forEach op first (first + n) rest w = Res.of w' (r.map fun _ => shift rest n) := by
  have := whileRange_runs (does_forEach hop hin) n 0 (w.1.length + 1) () w w' r (by omega) (Algorithm.fuel_enough hin) rfl
    (by rw [← List.range_eq_range']; exact hr)
  rw [Algorithm.shift_zero] at this
  unfold forEach
  rw [show first + 0 = first from rfl] at this
  rw [this, of_andThen]
  cases r <;> rfl

/-- **C139, `for_each_n`.** -/
theorem C139_for_each_n {t : ITy} {op : Fn E (World α σ) (List Nat) Unit} (hop : Keeps op) {first : Nat} {n : Int} (hn : t.Dec n)
    {rest : List Nat} {w w' : World α σ} {r : Except E Unit} (hin : n ≤ 0 ∨ Fits w.1.length n.toNat (first :: rest))
    (hr : Runs ((List.range n.toNat).map fun k => just op (shift (first :: rest) k)) () w w' r) :
    forEachN t op first n rest w = Res.of w' (r.map fun _ => shift (first :: rest) n.toNat) := by
  have hin : n.toNat = 0 ∨ Fits w.1.length n.toNat (first :: rest) := hin.imp_left (by omega)
  have := whileCount_runs (does_forEach hop hin) n.toNat 0 (w.1.length + 1) n () w w' r (Algorithm.counts_pos hn) (by omega)
    (Algorithm.fuel_enough hin) rfl (by rw [← List.range_eq_range']; exact hr)
  rw [Algorithm.shift_zero] at this
  unfold forEachN
  rw [this, of_andThen]
  cases r <;> rfl

/-- **C139, `transform_reduce`.** For each position in order `top` and then `rop` is called; the first of these calls that throws ends
it. -/
theorem C139_transform_reduce {rop : Fn E (World α σ) (β × τ) β} {top : Fn E (World α σ) (List Nat) τ} (hrop : Keeps rop)
    (htop : Keeps top) {init : β} {first n : Nat} {rest : List Nat} {w w' : World α σ} {r : Except E β}
    (hin : n = 0 ∨ Fits w.1.length n (first :: rest))
    (hr : Runs ((List.range n).map fun k => callAndReduce rop top (shift (first :: rest) k)) init w w' r) :
    transformReduce rop top init first (first + n) rest w = Res.of w' r := by
  have := whileRange_runs (does_reduce hrop htop hin) n 0 (w.1.length + 1) init w w' r (by omega) (Algorithm.fuel_enough hin) rfl
    (by rw [← List.range_eq_range']; exact hr)
  rw [Algorithm.shift_zero] at this
  unfold transformReduce
  rw [show first + 0 = first from rfl] at this
  rw [this, of_andThen]
  cases r <;> rfl

/-- **C139, `transform_reduce_n`.** -/
theorem C139_transform_reduce_n {t : ITy} {rop : Fn E (World α σ) (β × τ) β} {top : Fn E (World α σ) (List Nat) τ}
    (hrop : Keeps rop) (htop : Keeps top) {init : β} {first : Nat} {n : Int} (hn : t.Dec n) (h0 : 0 ≤ n) {rest : List Nat}
    {w w' : World α σ} {r : Except E β} (hin : n = 0 ∨ Fits w.1.length n.toNat (first :: rest))
    (hr : Runs ((List.range n.toNat).map fun k => callAndReduce rop top (shift (first :: rest) k)) init w w' r) :
    transformReduceN t rop top init first n rest w = Res.of w' r := by
  have hin : n.toNat = 0 ∨ Fits w.1.length n.toNat (first :: rest) := hin.imp_left (by omega)
  have := whileCount_runs (does_reduce hrop htop hin) n.toNat 0 (w.1.length + 1) n init w w' r (Algorithm.counts_ne hn h0) (by omega)
    (Algorithm.fuel_enough hin) rfl (by rw [← List.range_eq_range']; exact hr)
  rw [Algorithm.shift_zero] at this
  unfold transformReduceN
  rw [this, of_andThen]
  cases r <;> rfl

/-! ## All but the last -/

theorem butlastLoop_runs {op : Fn E (World α σ) (List Nat) Unit} {Inv : World α σ → Prop} {its : List Nat} {n : Nat}
    (hb : Does Inv (forEachBody op) its (fun _ (_ : Unit) => ()) (fun k => just op (shift its k)) n) {last : Nat} :
    ∀ (m k fuel : Nat) (w w' : World α σ) (r : Except E Unit), k + m = n → m ≤ last → m ≤ fuel → Inv w →
      Runs ((List.range' k m).map fun k => just op (shift its k)) () w w' r →
      butlastLoop op last fuel (last - m) (shift its k) w = Res.of w' (r.map fun _ => shift its n) := by
  intro m
  induction m with
  | zero =>
    intro k fuel w w' r hk _ _ hi hr
    obtain rfl : k = n := hk
    cases hr
    unfold butlastLoop
    rw [if_pos (by omega)]; rfl
  | succ m ih =>
    intro k fuel w w' r hk hl hf hi hr
    obtain ⟨fuel, rfl⟩ : ∃ j, fuel = j + 1 := ⟨fuel - 1, by omega⟩
    rw [List.range'_succ, List.map_cons] at hr
    obtain ⟨hi', e⟩ := hb k () w (by omega) hi
    simp only at hi' e
    unfold butlastLoop
    rw [if_neg (by omega)]
    simp only [e]
    cases hr with
    | next h hr =>
      rw [h] at hi' ⊢
      rw [map_ok, of_ok, andThen_ok, Algorithm.incs_shift, show last - (m + 1) + 1 = last - m by omega]
      exact ih (k + 1) fuel _ _ _ (by omega) (by omega) (by omega) hi' hr
    | stop h => rw [h]; rfl

theorem advance_eq {len last : Nat} (hl : last ≤ len) : ∀ (n first : Nat), first ≤ last →
    Algorithm.advance len last n first = .ok (last - (last - first - n)) := by
  intro n
  induction n with
  | zero => intro first h; simp [Algorithm.advance]; omega
  | succ n ih =>
    intro first h
    unfold Algorithm.advance
    by_cases e : first = last
    · rw [if_pos e]; congr 1; omega
    · rw [if_neg e, if_pos (by omega), ih _ (by omega)]; congr 1; omega

/-- **C139, `for_each_butlastn`** of at least `n` iterators or fewer: one call for each position but the last `n`. -/
theorem C139_for_each_butlastn (c : Algorithm.Cat) {op : Fn E (World α σ) (List Nat) Unit} (hop : Keeps op) {first m n : Nat}
    {rest : List Nat} {w w' : World α σ} {r : Except E Unit} (hm : first + m ≤ w.1.length) (hlen : w.1.length < 2 ^ 63)
    (hn : n < 2 ^ 63) (hin : m - n = 0 ∨ Fits w.1.length (m - n) rest)
    (hr : Runs ((List.range (m - n)).map fun k => just op (shift (first :: rest) k)) () w w' r) :
    forEachButlastn c op first (first + m) n rest w = Res.of w' (r.map fun _ => shift (first :: rest) (m - n)) := by
  have hin' : m - n = 0 ∨ Fits w.1.length (m - n) (first :: rest) := hin.imp_right fun h p hp => by
    rcases List.mem_cons.mp hp with rfl | hp
    · omega
    · exact h p hp
  cases c with
  | forward =>
    have hb := butlastLoop_runs (does_forEach hop hin') (last := first + m) (m - n) 0 (w.1.length + 1) w w' r (by omega) (by omega)
      (Algorithm.fuel_enough hin') rfl (by rw [← List.range_eq_range']; exact hr)
    simp only [forEachButlastn, Int.toNat_natCast]
    rw [advance_eq hm n first (by omega)]
    rw [Algorithm.shift_zero] at hb
    rw [Nat.add_sub_cancel_left]
    exact hb
  | random =>
    have e1 : Algorithm.toPtrdiff n = n := by
      unfold Algorithm.toPtrdiff
      omega
    have e2 : Algorithm.subPtrdiff (((first + m : Nat) : Int) - (first : Int)) n = .ok ((m : Int) - n) := by
      have e : ((first + m : Nat) : Int) - (first : Int) - (n : Int) = (m : Int) - n := by omega
      have h1 : -2 ^ 63 ≤ (m : Int) - n ∧ (m : Int) - n < 2 ^ 63 := by omega
      unfold Algorithm.subPtrdiff
      rw [e]
      exact if_pos h1
    simp only [forEachButlastn]
    rw [e1, e2]
    have e3 : ((m : Int) - n).toNat = m - n := by omega
    have hd : Algorithm.ptrdiff.Dec ((m : Int) - n) := by
      unfold Algorithm.ITy.Dec Algorithm.ITy.Rep Algorithm.ptrdiff
      simp only [if_true]
      omega
    have := C139_for_each_n (t := Algorithm.ptrdiff) hop hd (first := first) (rest := rest) (w := w) (w' := w') (r := r)
      (by rw [e3]; exact hin'.imp_left (by omega)) (by rw [e3]; exact hr)
    rw [e3] at this
    exact this

/-- **C139, `initial_medial_final`.** `iop` for the first position, `mop` for those between, `fop` for the last; the first call that
throws ends it. -/
theorem C139_initial_medial_final (c : Algorithm.Cat) {iop mop fop : Fn E (World α σ) (List Nat) Unit} (hi : Keeps iop)
    (hm : Keeps mop) {first m : Nat} {w w' : World α σ} {r : Except E Unit} (hlen : first + m ≤ w.1.length)
    (h63 : w.1.length < 2 ^ 63)
    (hr : Runs ((List.range m).map fun k => just (if k = 0 then iop else if k + 1 = m then fop else mop) [first + k]) () w w' r) :
    initialMedialFinal c iop mop fop first (first + m) w = Res.of w' r := by
  cases m with
  | zero =>
    cases hr
    unfold initialMedialFinal
    rw [if_neg (by simp)]; rfl
  | succ m =>
    unfold initialMedialFinal
    rw [if_pos (by omega)]
    simp only [forEachBody]
    rw [derefs_of (by simp; omega), call_eq]
    rw [List.range_succ_eq_map, List.map_cons, List.map_map] at hr
    cases hr with
    | stop h =>
      simp only [just, if_true, Nat.add_zero] at h
      rw [h]; rfl
    | next h hr =>
      simp only [just, if_true, Nat.add_zero] at h
      rename_i u w1
      have hl1 := hi [first] w
      rw [h] at hl1 ⊢
      rw [of_ok, andThen_ok]
      cases u
      simp only at hl1
      cases m with
      | zero =>
        have hr : Runs [] () w1 w' r := hr
        have := C139_for_each_butlastn c hm (first := first + 1) (m := 0) (n := 1) (rest := []) (w := w1) (by omega) (by omega)
          (by omega) (.inl rfl) (.done () w1)
        cases hr
        rw [show first + 1 + 0 = first + (0 + 1) from rfl] at this
        rw [show ((1 : Nat) : Int) = 1 from rfl] at this
        rw [this]
        simp [map_ok, of_ok, andThen_ok, shift]
      | succ m =>
        rw [List.range_succ, List.map_append, List.map_singleton] at hr
        have hmid : ((List.range m).map ((fun k => just (if k = 0 then iop else if k + 1 = m + 1 + 1 then fop else mop) [first + k]) ∘
            Nat.succ)) = (List.range m).map fun k => just mop (shift [first + 1] k) := by
          apply List.map_congr_left
          intro k hk
          rw [List.mem_range] at hk
          simp only [Function.comp, Nat.succ_eq_add_one, shift, List.map_cons, List.map_nil]
          rw [if_neg (by omega), if_neg (by omega), show first + 1 + k = first + (k + 1) by omega]
        rw [hmid] at hr
        have key : ∀ {w2 : World α σ} {r2 : Except E Unit}, Runs ((List.range m).map fun k => just mop (shift [first + 1] k)) () w1 w2 r2 →
            forEachButlastn c mop (first + 1) (first + (m + 1 + 1)) 1 [] w1 = Res.of w2 (r2.map fun _ => [first + 1 + m]) := by
          intro w2 r2 h2
          have := C139_for_each_butlastn c hm (first := first + 1) (m := m + 1) (n := 1) (rest := []) (w := w1) (by omega) (by omega)
            (by omega) (.inr (by intro p hp; simp at hp)) (by simpa using h2)
          rw [show first + 1 + (m + 1) = first + (m + 1 + 1) by omega] at this
          rw [show ((1 : Nat) : Int) = 1 from rfl] at this
          rw [this]; rfl
        rcases runs_append hr with ⟨u, w2, h1, h2⟩ | ⟨e, rfl, h1⟩
        · rw [key h1, map_ok, of_ok, andThen_ok]
          simp only
          rw [if_pos (by omega), call_eq]
          have hl2 : first + 1 + m < w2.1.length := by
            have := runs_inv (Inv := fun w => w.1.length = w1.1.length) (by
              intro a ha x w hw
              obtain ⟨k, _, rfl⟩ := List.mem_map.mp ha
              show (mop _ w).1.1.length = _
              rw [hm, hw]) h1 rfl
            omega
          rw [derefs_of (by simpa using hl2)]
          simp only [Function.comp, Nat.succ_eq_add_one, just] at h2
          rw [if_neg (by omega), if_pos trivial, show first + (m + 1) = first + 1 + m by omega] at h2
          cases h2 with
          | next h hd =>
            cases hd
            rw [show fop [first + 1 + m] w2 = _ from h]
          | stop h => rw [show fop [first + 1 + m] w2 = _ from h]
        · rw [key h1]; rfl

/-! ## Examples -/

/-- Doubles the sum of the elements it is given, notes the positions, and throws at an element 3. -/
private def dbl : Fn String (World Nat (List Nat)) (List Nat) Nat := fun its w =>
  ((w.1, w.2 ++ its), if its.any (fun p => w.1[p]? = some 3) then .error "three" else .ok (2 * (its.map fun p => w.1.getD p 0).sum))
private def note : Fn String (World Nat (List Nat)) (List Nat) Unit := fun its w => ((dbl its w).1, (dbl its w).2.map fun _ => ())
private def add : Fn String (World Nat (List Nat)) (Nat × Nat) Nat := fun x w => ((w.1, w.2 ++ [100 + x.2]), .ok (x.1 + x.2))

private theorem dbl_keeps : Keeps dbl := fun _ _ => rfl
private theorem note_keeps : Keeps note := fun _ _ => rfl
private theorem add_keeps : Keeps add := fun _ _ => rfl

private def mem0 : World Nat (List Nat) := ([1, 2, 3, 4, 0, 0, 0, 0], [])

example : Fits mem0.1.length 4 [4, 0] := by unfold Fits; decide
example : transform dbl 0 4 4 [] mem0 = .threw ([1, 2, 3, 4, 2, 4, 0, 0], [0, 1, 2]) "three" := by decide
example : ∃ w' r, Runs ((List.range 4).map (callAndStore dbl [0] 4)) () mem0 w' r ∧
    transform dbl 0 4 4 [] mem0 = Res.of w' (r.map fun _ => (8, [4])) := by
  obtain ⟨w', r, h⟩ := runs_total ((List.range 4).map (callAndStore dbl [0] 4)) () mem0
  exact ⟨w', r, h, C139_transform dbl_keeps (n := 4) (.inr (by unfold Fits; decide)) h⟩
example : transformN Algorithm.ptrdiff dbl 0 2 4 [] mem0 = .ok ([1, 2, 3, 4, 2, 4, 0, 0], [0, 1]) (6, [2]) := by decide
example : forEach note 0 4 [4] mem0 = .threw (mem0.1, [0, 4, 1, 5, 2, 6]) "three" := by decide
example : forEachN Algorithm.ptrdiff note 0 4 [] mem0 = .threw (mem0.1, [0, 1, 2]) "three" := by decide
example : transformReduce add dbl 7 0 4 [] mem0 = .threw (mem0.1, [0, 102, 1, 104, 2]) "three" := by decide
example : transformReduceN Algorithm.ptrdiff add dbl 7 0 2 [] mem0 = .ok (mem0.1, [0, 102, 1, 104]) 13 := by decide
example : forEachButlastn .forward note 0 4 1 [] mem0 = .threw (mem0.1, [0, 1, 2]) "three" := by decide
example : forEachButlastn .random note 0 4 2 [] mem0 = .ok (mem0.1, [0, 1]) [2] := by decide
example : initialMedialFinal .forward note note note 0 4 mem0 = .threw (mem0.1, [0, 1, 2]) "three" := by decide
example : initialMedialFinal .random note note note 0 3 mem0 = .threw (mem0.1, [0, 1, 2]) "three" := by decide

end Verif.Unwind
