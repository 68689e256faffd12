import Verif.Byterator.Const
import Verif.Byterator.Props

/-!
# Properties of byterators that are const, or whose elements are (C168)
-/

namespace Verif.Byterator

open Verif.Endian

variable {m m' : Mem} {p p' : Int} {e : Endian} {v : Nat}

/-! ## Specification -/

/-- The expressions that change elements. -/
def Writes : Expr → Prop
  | .setStar _ | .setIndex _ _ | .setPlus _ _ | .write _ _ => True
  | _ => False

/-- The expressions that move the byterator. -/
def Moves : Expr → Prop
  | .read _ | .write _ _ | .addAssign _ => True
  | _ => False

/-! ## Lemmas -/

theorem bind_ok {α β : Type} {x : Outcome α} {f : α → Outcome β} {b : β} (h : (x >>= f) = .ok b) : ∃ a, x = .ok a ∧ f a = .ok b := by
  cases x with
  | ok a => exact ⟨a, rfl, h⟩
  | ub => cases h
  | panic => cases h

theorem does_mem {x : Expr} (hx : ¬ Writes x) (h : does e m p x = .ok (v, m', p')) : m' = m := by
  cases x with
  | setStar _ | setIndex _ _ | setPlus _ _ | write _ _ => exact absurd trivial hx
  | star | index _ | peek _ | read _ | addAssign _ => obtain ⟨a, -, h⟩ := bind_ok h; cases h; rfl
  | plus n => obtain ⟨a, -, h⟩ := bind_ok h; obtain ⟨b, -, h⟩ := bind_ok h; cases h; rfl

theorem does_pos {x : Expr} (hx : ¬ Moves x) (h : does e m p x = .ok (v, m', p')) : p' = p := by
  cases x with
  | read _ | write _ _ | addAssign _ => exact absurd trivial hx
  | star | setStar _ | index _ | setIndex _ _ | peek _ => obtain ⟨a, -, h⟩ := bind_ok h; cases h; rfl
  | plus _ | setPlus _ _ => obtain ⟨a, -, h⟩ := bind_ok h; obtain ⟨b, -, h⟩ := bind_ok h; cases h; rfl

theorem accepts_elem {self : Bool} {x : Expr} (h : accepts self true x = true) : ¬ Writes x := by
  cases x <;> simp_all [accepts, Writes, starConst, indexConst, plusConst]

theorem accepts_self {elem : Bool} {x : Expr} (h : accepts true elem x = true) : ¬ Moves x := by
  cases x <;> simp_all [accepts, Moves]

theorem go_keeps (P : Mem → Int → Prop) {xs : List Expr} (hs : ∀ x ∈ xs, ∀ m p v m' p', P m p → does e m p x = .ok (v, m', p') → P m' p') :
    ∀ {m p}, P m p → runConst.go e m p xs = .done v m' p' → P m' p' := by
  induction xs with
  | nil => intro m p hP h; simp only [runConst.go] at h; cases h; exact hP
  | cons x xs ih =>
    intro m p hP h
    cases xs with
    | nil =>
      simp only [runConst.go] at h
      rcases hd : does e m p x with ⟨v1, m1, p1⟩ | _ | _ <;> rw [hd] at h <;> cases h
      exact hs x (by simp) _ _ _ _ _ hP hd
    | cons y ys =>
      simp only [runConst.go] at h
      rcases hd : does e m p x with ⟨v1, m1, p1⟩ | _ | _ <;> rw [hd] at h
      · exact ih (fun z hz => hs z (List.mem_cons_of_mem _ hz)) (hs x (by simp) _ _ _ _ _ hP hd) h
      · cases h
      · cases h

/-! ## The properties -/

/-- **C168, const elements are not changed**, by any program that compiles. -/
theorem C168_const_elements {self : Bool} {xs : List Expr} (h : runConst self true e m p xs = .done v m' p') : m' = m := by
  unfold runConst at h
  split at h
  · rename_i ha
    refine go_keeps (fun m1 _ => m1 = m) (fun x hx m1 p1 v1 m2 p2 h1 h2 => ?_) rfl h
    exact (does_mem (accepts_elem (List.all_eq_true.mp ha x hx)) h2).trans h1
  · cases h

/-- **C168, const byterators stay where they are**, in any program that compiles. -/
theorem C168_const_byterator {elem : Bool} {xs : List Expr} (h : runConst true elem e m p xs = .done v m' p') : p' = p := by
  unfold runConst at h
  split at h
  · rename_i ha
    refine go_keeps (fun _ p1 => p1 = p) (fun x hx m1 p1 v1 m2 p2 h1 h2 => ?_) rfl h
    exact (does_pos (accepts_self (List.all_eq_true.mp ha x hx)) h2).trans h1
  · cases h

/-- **C168, what is accepted, all but `peek` and assignment to `i[n]` of const byterators**: all that does not change what is const, with the same effect as if
nothing were const; the rest is rejected. -/
theorem C168_accepted_partial (self elem : Bool) (x : Expr) (h1 : self = true → ∀ n, x ≠ .peek n) (h2 : self = true → ∀ n b, x ≠ .setIndex n b) :
    ((self = true → ¬ Moves x) ∧ (elem = true → ¬ Writes x) → evalConst self elem e m p x = evalConst false false e m p x) ∧
      (¬ ((self = true → ¬ Moves x) ∧ (elem = true → ¬ Writes x)) → evalConst self elem e m p x = .rejected) := by
  cases self <;> cases elem <;> cases x <;> simp_all [evalConst, accepts, Moves, Writes, starConst, indexConst, plusConst]

/-- **C168, nothing is rejected if nothing is const.** -/
theorem C168_nothing_const (x : Expr) : evalConst false false e m p x ≠ .rejected := by
  have ha : accepts false false x = true := by cases x <;> rfl
  rw [evalConst, if_pos ha]
  rcases does e m p x with ⟨_, _, _⟩ | _ | _ <;> simp [Effect.of]

/-- **C168, what the expressions do**: `*i` is `i[0]`; `i[n]` and `*(i + n)`, assigned to, change just that byte; `+=` moves. -/
theorem C168_effects {n : Int} (h0 : 0 ≤ p + n) (h1 : p + n < m.bytes.length) (b : BitVec 8) :
    (∃ x : BitVec 8, m.bytes[(p + n).toNat]? = some x ∧ evalConst false false e m p (.index n) = .done x.toNat m p) ∧
      evalConst false false e m p (.setIndex n b) = .done b.toNat ⟨m.base, m.bytes.set (p + n).toNat b⟩ p ∧
      evalConst false false e m p (.setPlus n b) = .done b.toNat ⟨m.base, m.bytes.set (p + n).toNat b⟩ p ∧
      evalConst false false e m (p + n) .star = (match evalConst false false e m p (.index n) with
        | .done x m' _ => .done x m' (p + n)
        | r => r) ∧
      evalConst false false e m (p + n) (.setStar b) = .done b.toNat ⟨m.base, m.bytes.set (p + n).toNat b⟩ (p + n) ∧
      evalConst false false e m p (.addAssign n) = .done 0 m (p + n) := by
  have hq : plus m p n = .ok (p + n) := by simp [plus, addAssign, ptrAdd, h0, Int.le_of_lt h1]
  have hq' : Byterator.addAssign m p n = .ok (p + n) := hq
  have hi : Byterator.index m p n = deref m (p + n) := rfl
  have hs : does e m p (.setIndex n b) = (do let m' ← assign m (p + n) b; return (b.toNat, m', p)) := rfl
  generalize p + n = q at *
  obtain ⟨k, rfl⟩ := Int.eq_ofNat_of_zero_le h0
  have hlt : k < m.bytes.length := by omega
  have hd : deref m (k : Int) = .ok m.bytes[k] := arrGet_ok.mpr (List.getElem?_eq_getElem hlt)
  have ha : assign m (k : Int) b = .ok ⟨m.base, m.bytes.set k b⟩ := by
    show (do let bs ← arrSet m.bytes k b; return { m with bytes := bs } : Outcome Mem) = _
    rw [arrSet_of_lt hlt]
    rfl
  refine ⟨⟨m.bytes[k], List.getElem?_eq_getElem hlt, ?_⟩, ?_, ?_, ?_, ?_, ?_⟩
  · simp [evalConst, accepts, does, hi, hd, Effect.of]
  · simp [evalConst, accepts, indexConst, hs, ha, Effect.of]
  · simp [evalConst, accepts, plusConst, starConst, does, hq, ha, Effect.of]
  · simp [evalConst, accepts, does, hi, hd, Effect.of]
  · simp [evalConst, accepts, starConst, does, ha, Effect.of]
  · simp [evalConst, accepts, does, hq', Effect.of]

/-- **C168, `read`** gives what `peek` does and then moves by the size. -/
theorem C168_read {n : Nat} (h0 : 0 ≤ p) (h1 : p + n ≤ m.bytes.length) (elem : Bool) :
    ∃ x, evalConst false elem e m p (.peek n) = .done x m p ∧ evalConst false elem e m p (.read n) = .done x m (p + n) := by
  refine ⟨(ofMem e n ((m.bytes.drop p.toNat).take n)).toNat, ?_, ?_⟩
  · simp [evalConst, accepts, does, Byterator.peek, load, h0, h1, Effect.of]
  · have h2 : 0 ≤ p + n := by omega
    simp [evalConst, accepts, does, Byterator.read, Byterator.peek, load, ptrAdd, h0, h1, h2, Effect.of]

/-- **C168, `i[n]` and `*(i + n)`** read the same byte, whatever is const. -/
theorem C168_index (self elem : Bool) (n : Int) : evalConst self elem e m p (.index n) = evalConst self elem e m p (.plus n) := by
  simp only [evalConst, accepts, does, if_true]
  rcases hi : index m p n with b | _ | _
  · obtain ⟨q, h1, h2⟩ := ((C37_byterator_index m p n).1 b).mp hi
    rw [h1]
    simp [h2]
  · cases hq : plus m p n with
    | ok q =>
      have hn : ∀ b, deref m q ≠ .ok b := fun b h => by
        have := ((C37_byterator_index m p n).1 b).mpr ⟨q, hq, h⟩
        rw [hi] at this; cases this
      rcases hd : deref m q with b | _ | _
      · exact absurd hd (hn b)
      · simp [hd, Effect.of]
      · simp [hd, Effect.of]
    | ub => simp [Effect.of]
    | panic => simp [Effect.of]
  · cases hq : plus m p n with
    | ok q =>
      have hn : ∀ b, deref m q ≠ .ok b := fun b h => by
        have := ((C37_byterator_index m p n).1 b).mpr ⟨q, hq, h⟩
        rw [hi] at this; cases this
      rcases hd : deref m q with b | _ | _
      · exact absurd hd (hn b)
      · simp [hd, Effect.of]
      · simp [hd, Effect.of]
    | ub => simp [Effect.of]
    | panic => simp [Effect.of]

/-- **C168, disproved of `i[n]` of a const byterator**: it cannot be assigned to, although `*(i + n)` can, and changes just that byte. -/
theorem C168_assign_violated {n : Int} (h0 : 0 ≤ p + n) (h1 : p + n < m.bytes.length) (b : BitVec 8) :
    evalConst true false e m p (.setIndex n b) = .rejected ∧
      evalConst true false e m p (.setPlus n b) = .done b.toNat ⟨m.base, m.bytes.set (p + n).toNat b⟩ p := by
  refine ⟨rfl, ?_⟩
  have hq : plus m p n = .ok (p + n) := by simp [plus, addAssign, ptrAdd, h0, Int.le_of_lt h1]
  obtain ⟨k, hk⟩ := Int.eq_ofNat_of_zero_le h0
  rw [hk] at h1 hq ⊢
  have ha : assign m (k : Int) b = .ok ⟨m.base, m.bytes.set k b⟩ := by
    show (do let bs ← arrSet m.bytes k b; return { m with bytes := bs } : Outcome Mem) = _
    rw [arrSet_of_lt (by omega)]
    rfl
  simp only [evalConst, accepts, plusConst, starConst, Bool.not_false, if_true, does, hq]
  show Effect.of (do let m' ← assign m (k : Int) b; return (b.toNat, m', p)) = _
  rw [ha]
  rfl

/-- **C168, disproved of `peek`**: a const byterator cannot peek, although peeking would change nothing, and the bytes can be read one by one. -/
theorem C168_peek_violated (elem : Bool) {n : Nat} (h0 : 0 ≤ p) (h1 : p + n ≤ m.bytes.length) :
    evalConst true elem e m p (.peek n) = .rejected ∧ (∃ x, evalConst false elem e m p (.peek n) = .done x m p) ∧
      ∀ k : Nat, k < n → ∃ x : BitVec 8, m.bytes[p.toNat + k]? = some x ∧ evalConst true elem e m p (.index k) = .done x.toNat m p := by
  refine ⟨rfl, ⟨(ofMem e n ((m.bytes.drop p.toNat).take n)).toNat, ?_⟩, fun k hk => ?_⟩
  · simp [evalConst, accepts, does, Byterator.peek, load, h0, h1, Effect.of]
  · obtain ⟨q, rfl⟩ := Int.eq_ofNat_of_zero_le h0
    have hlt : q + k < m.bytes.length := by omega
    refine ⟨m.bytes[q + k], by simp [hlt], ?_⟩
    have hi : Byterator.index m q k = .ok m.bytes[q + k] := by
      show arrGet m.bytes (q + k) = _
      exact arrGet_ok.mpr (List.getElem?_eq_getElem hlt)
    simp [evalConst, accepts, does, hi, Effect.of]

/-! ## Examples -/

def bytes4 : Mem := ⟨1000, [1#8, 2#8, 3#8, 4#8]⟩

/-- Two bytes are read, then one more by an index. -/
example : runConst false true .little bytes4 0 [.read 2, .index 1] = .done 4 bytes4 2 := by decide
example : runConst true false .little bytes4 1 [.setStar 9#8, .setPlus 2 7#8, .index 2] = .done 7 ⟨1000, [1#8, 9#8, 3#8, 7#8]⟩ 1 := by decide
example : bytes4 = bytes4 := C168_const_elements (self := false) (e := .little) (p := 0) (v := 4) (p' := 2) (xs := [.read 2, .index 1]) (by decide)
example : (1 : Int) = 1 := C168_const_byterator (elem := false) (e := .little) (m := bytes4) (m' := ⟨1000, [1#8, 9#8, 3#8, 7#8]⟩) (v := 7)
  (xs := [.setStar 9#8, .setPlus 2 7#8, .index 2]) (by decide)
example := (C168_accepted_partial (m := bytes4) (p := 1) (e := .big) true false (.setStar 5#8) (by simp) (by simp)).1 (by simp [Moves])
example := (C168_accepted_partial (m := bytes4) (p := 1) (e := .big) false true (.write 1 5#8) (by simp) (by simp)).2 (by simp [Writes])
example := C168_effects (m := bytes4) (p := 1) (n := -1) (e := .big) (by decide) (by decide) 5#8
example := C168_read (m := bytes4) (p := 1) (n := 2) (e := .big) (by decide) (by decide) true
example := C168_assign_violated (m := bytes4) (p := 1) (n := 2) (e := .big) (by decide) (by decide) 5#8
example := C168_peek_violated (m := bytes4) (p := 1) (n := 2) (e := .big) true (by decide) (by decide)

end Verif.Byterator
