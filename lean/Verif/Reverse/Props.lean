import Verif.Reverse.Model
import Verif.Buf.Lemmas

/-!
# Reverse traversal (C102)
-/

namespace Verif.Reverse

open Verif.Buf

theorem walk_eq {α : Type} (mem : List α) (o : Nat) : ∀ n, o + n ≤ mem.length →
    walk mem (o + n) o = .ok ((mem.drop o).take n).reverse := by
  intro n
  induction n with
  | zero =>
    intro _
    cases o <;> simp [walk]
  | succ n ih =>
    intro h
    have hp : o + n < mem.length := by omega
    have hne : ¬ o = o + n + 1 := by omega
    have hx : (mem.drop o).take (n + 1) = (mem.drop o).take n ++ [mem[o + n]] := by
      rw [List.take_succ_eq_append_getElem (by rw [List.length_drop]; omega), List.getElem_drop]
    rw [← Nat.add_assoc, walk, if_neg hne, arrGet_ok.mpr (List.getElem?_eq_getElem hp), Outcome.ok_bind, ih (by omega),
      Outcome.ok_bind, hx, List.reverse_append]
    rfl

/-- **C102, `span`.** Reverse traversal of a span over any part of an array, in either form, for const elements or not,
compiles and visits exactly the elements of that part from the last to the first. -/
theorem C102_span {α : Type} (elemConst : Bool) (mem : List α) (o n : Nat) (h : o + n ≤ mem.length) (f : Form) :
    spanReversed elemConst mem o n f = some (.ok ((mem.drop o).take n).reverse) := by
  have := walk_eq mem o n h
  cases f <;> cases elemConst <;>
    simp [spanReversed, spanRBegin, spanREnd, spanBegin, spanEnd, explicitly, implicitly, constOk, loop, this]

example : 1 + 2 ≤ [10, 20, 30, 40].length ∧ spanReversed false [10, 20, 30, 40] 1 2 .const = some (.ok [30, 20]) := ⟨by decide, by decide⟩

/-- **C102, access through the iterators of a span.** All eight functions compile; forward iterators are pointers to the first element
and one past the last, reverse ones are made from the opposite end; the elements can be changed exactly when the span's element type is
not const and the name of the function does not begin with `c`. -/
theorem C102_span_iterators (elemConst : Bool) (o n : Nat) (f : Form) :
    spanBegin elemConst o f = some ⟨.ptr (elemConst || f = .const), o⟩ ∧
    spanEnd elemConst o n f = some ⟨.ptr (elemConst || f = .const), o + n⟩ ∧
    spanRBegin elemConst o n f = some ⟨.rev (elemConst || f = .const), o + n⟩ ∧
    spanREnd elemConst o f = some ⟨.rev (elemConst || f = .const), o⟩ := by
  cases f <;> cases elemConst <;>
    simp [spanRBegin, spanREnd, spanBegin, spanEnd, explicitly, implicitly, constOk]


/-- **C102, `ct_string`.** Reverse traversal of a string of any characters, null characters included, visits exactly these
from the last to the first, and not the terminator. -/
theorem C102_ct_string (x : List Char) (t : Char) : stringReversed (x ++ [t]) = some (.ok x.reverse) := by
  have := walk_eq (x ++ [t]) 0 x.length (by simp)
  simp only [Nat.zero_add, List.drop_zero, List.take_left'] at this
  simp [stringReversed, stringRBegin, stringREnd, incr, loop, this]

/-- **C102, access through the iterators of a vector.** `begin`, `end` and their const forms compile and point to the first element and
one past the last; the elements can be changed exactly when the vector is not const and the name of the function does not begin with
`c`. -/
theorem C102_cx_vector_iterators {α : Type} (objConst : Bool) (b : Buf α) (f : Form) :
    vectorBegin objConst f = some ⟨.ptr (objConst || f = .const), 0⟩ ∧
    vectorEnd objConst b f = some ⟨.ptr (objConst || f = .const), b.size⟩ := by
  cases f <;> cases objConst <;> simp [vectorBegin, vectorEnd, vectorConst, implicitly, constOk]

/-- **C102 (negation), `cx_vector`.** No program that traverses a `cx_vector` with `rbegin` and `rend`, or `crbegin` and
`crend`, compiles, although the documentation lists them: they return a pointer where a reverse iterator is declared. -/
theorem C102_cx_vector_violated {α : Type} (objConst : Bool) (b : Buf α) (f : Form) :
    vectorReversed objConst b f = none ∧ vectorRBegin objConst b f = none ∧ vectorREnd objConst f = none := by
  cases f <;> cases objConst <;>
    simp [vectorReversed, vectorRBegin, vectorREnd, vectorEnd, vectorBegin, vectorConst, implicitly, constOk, loop]

/-- **C102, `cx_vector`, partial.** With reverse iterators that the caller makes from `end()` and `begin()`, the elements of
any vector are visited from the last to the first. Missing: the vector's own reverse iterators,
`C102_cx_vector_violated`. -/
theorem C102_cx_vector_partial {α : Type} {N : Nat} (objConst : Bool) (b : Buf α) (l : List α) (h : Rep N b l) (f : Form) :
    vectorReversedByHand objConst b f = some (.ok l.reverse) := by
  have hs := h.size
  obtain ⟨_, _, st, he⟩ := h
  have := walk_eq b.storage 0 b.size (by rw [he, hs]; simp)
  rw [Nat.zero_add, List.drop_zero] at this
  have ht : b.storage.take b.size = l := by rw [he, hs]; simp
  rw [ht] at this
  cases f <;> cases objConst <;>
    simp [vectorReversedByHand, vectorEnd, vectorBegin, vectorConst, implicitly, explicitly, constOk, loop, this]

example : Rep 3 (⟨[7, 8, 9], 2⟩ : Buf Nat) [7, 8] ∧ vectorReversedByHand true (⟨[7, 8, 9], 2⟩ : Buf Nat) .plain = some (.ok [8, 7]) :=
  ⟨⟨rfl, rfl, [9], rfl⟩, by decide⟩

end Verif.Reverse
