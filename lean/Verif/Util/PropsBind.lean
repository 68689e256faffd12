import Verif.Util.Model

/-! # Bound functions: value categories, repeated calls, references as results (C76) -/

namespace Verif.Util

variable {α β σ : Type}

/-- The function leaves as many arguments as it gets, and does not change those it gets as const. -/
def Fn.Proper (f : Fn α β σ) : Prop :=
  ∀ self args s, (f self args s).2.1.length = args.length ∧
    ∀ (i : Nat) (a : α), args[i]? = some (Cat.clv, a) → (f self args s).2.1[i]? = some a

/-- What the caller does without binding, with a function that returns values: one call with all arguments. -/
def direct (f : Fn α β σ) (self : Cat) (args : List (Cat × α)) (s : σ) : Ret β × List α × σ := f self args s

/-- Calls made one after the other without binding, the bound arguments passed afresh each time as const. -/
def directAll (f : Fn α β σ) (all : List (Cat × α) → List (Cat × α)) : List (List (Cat × α)) → σ → List (Ret β) × σ
  | [], s => ([], s)
  | a :: as, s =>
    let r := direct f .clv (all a) s
    let q := directAll f all as r.2.2
    (r.1 :: q.1, q.2)

/-- The function returns values. -/
def Fn.Values (f : Fn α β σ) : Prop := ∀ self args s, ∃ b, (f self args s).1 = .val b

theorem take_of_const {f : Fn α β σ} (hf : f.Proper) (self : Cat) (pre post : List (Cat × α)) (xs : List α) (s : σ) :
    ((f self (pre ++ xs.map (Cat.clv, ·) ++ post) s).2.1.drop pre.length).take xs.length = xs := by
  apply List.ext_getElem?
  intro i
  have h1 := (hf self (pre ++ xs.map (Cat.clv, ·) ++ post) s).2 (pre.length + i)
  by_cases hi : i < xs.length
  · rw [List.getElem?_take_of_lt hi, List.getElem?_drop]
    have := h1 xs[i] (by
      rw [List.append_assoc, List.getElem?_append_right (by omega), Nat.add_sub_cancel_left,
        List.getElem?_append_left (by simpa using hi)]
      simp [hi])
    rw [this]
    simp [hi]
  · rw [List.getElem?_eq_none (by simp; omega), List.getElem?_eq_none (by omega)]

/-- **C76, const calls.** However often a const bound object is called, each call gives what calling the function directly
with the original bound arguments, in front or at the back, gives; and the bound arguments are still the original ones. -/
theorem C76_const_calls (read : σ → Nat → β) (v : Bool) (f : Fn α β σ) (hf : f.Proper) (hv : f.Values) (xs : List α)
    (calls : List (List (Cat × α))) (s : σ) :
    (callAll (callFront read v f) (calls.map (Cat.clv, ·)) (xs, s)).1 = (directAll f (xs.map (Cat.clv, ·) ++ ·) calls s).1 ∧
    (callAll (callFront read v f) (calls.map (Cat.clv, ·)) (xs, s)).2 = (xs, (directAll f (xs.map (Cat.clv, ·) ++ ·) calls s).2) ∧
    (callAll (callBack read v f) (calls.map (Cat.clv, ·)) (xs, s)).1 = (directAll f (· ++ xs.map (Cat.clv, ·)) calls s).1 ∧
    (callAll (callBack read v f) (calls.map (Cat.clv, ·)) (xs, s)).2 = (xs, (directAll f (· ++ xs.map (Cat.clv, ·)) calls s).2) := by
  have hd : ∀ self args s s', decayRet read s' (f self args s).1 = (f self args s).1 := by
    intro self args s s'
    obtain ⟨b, hb⟩ := hv self args s
    rw [hb]; rfl
  have hfr : ∀ a s, callFront read v f .clv a (xs, s) =
      ((f .clv (xs.map (Cat.clv, ·) ++ a) s).1, (f .clv (xs.map (Cat.clv, ·) ++ a) s).2.1.drop xs.length,
        (xs, (f .clv (xs.map (Cat.clv, ·) ++ a) s).2.2)) := by
    intro a s
    have := take_of_const hf .clv [] a xs s
    simp only [List.nil_append, List.length_nil, List.drop_zero] at this
    simp [callFront, hd, this]
  have hba : ∀ a s, callBack read v f .clv a (xs, s) =
      ((f .clv (a ++ xs.map (Cat.clv, ·)) s).1, (f .clv (a ++ xs.map (Cat.clv, ·)) s).2.1.take a.length,
        (xs, (f .clv (a ++ xs.map (Cat.clv, ·)) s).2.2)) := by
    intro a s
    have := take_of_const hf .clv a [] xs s
    simp only [List.append_nil] at this
    have hl := (hf .clv (a ++ xs.map (Cat.clv, ·)) s).1
    rw [List.take_of_length_le (by rw [List.length_drop, hl]; simp)] at this
    simp [callBack, hd, this]
  induction calls generalizing s with
  | nil => exact ⟨rfl, rfl, rfl, rfl⟩
  | cons a as ih =>
    obtain ⟨h1, h2, -, -⟩ := ih (f .clv (xs.map (Cat.clv, ·) ++ a) s).2.2
    obtain ⟨-, -, h3, h4⟩ := ih (f .clv (a ++ xs.map (Cat.clv, ·)) s).2.2
    simp only [List.map_cons, callAll, directAll, direct, hfr, hba]
    exact ⟨by rw [h1], by rw [h2], by rw [h3], by rw [h4]⟩

/-- **C76, one call in any category.** The function and the bound arguments are passed in the category of the object (a function that
is a template argument always const); what the function leaves in the bound arguments stays in the object, and the rest in the
arguments of the call. -/
theorem C76_category (read : σ → Nat → β) (f : Fn α β σ) (hf : f.Proper) (hv : f.Values) (obj : Cat) (xs : List α)
    (args : List (Cat × α)) (s : σ) (v : Bool) :
    (let d := direct f (if v then .clv else obj) (xs.map (obj, ·) ++ args) s
     let r := callFront read v f obj args (xs, s)
     r.1 = d.1 ∧ r.2.2.1 ++ r.2.1 = d.2.1 ∧ r.2.2.1.length = xs.length ∧ r.2.2.2 = d.2.2) ∧
    (let d := direct f (if v then .clv else obj) (args ++ xs.map (obj, ·)) s
     let r := callBack read v f obj args (xs, s)
     r.1 = d.1 ∧ r.2.1 ++ r.2.2.1 = d.2.1 ∧ r.2.2.1.length = xs.length ∧ r.2.2.2 = d.2.2) := by
  have hd : ∀ self args s s', decayRet read s' (f self args s).1 = (f self args s).1 := by
    intro self args s s'
    obtain ⟨b, hb⟩ := hv self args s
    rw [hb]; rfl
  constructor
  · have hl := (hf (if v then .clv else obj) (xs.map (obj, ·) ++ args) s).1
    refine ⟨hd _ _ _ _, List.take_append_drop _ _, ?_, rfl⟩
    simp only [callFront, List.length_take, hl]
    simp
  · have hl := (hf (if v then .clv else obj) (args ++ xs.map (obj, ·)) s).1
    refine ⟨hd _ _ _ _, List.take_append_drop _ _, ?_, rfl⟩
    simp only [callBack, List.length_drop, hl]
    simp

/-- A function that returns its first argument and takes what it is given as an rvalue. -/
example : ∃ f : Fn Nat Nat Unit, f.Proper ∧ f.Values ∧ (f .lv [(.rv, 7), (.clv, 8)] ()).2.1 = [0, 8] :=
  ⟨fun _ args s => (.val ((args.map (·.2)).headD 0), args.map fun a => if a.1 = .rv then 0 else a.2, s),
    fun _ args s => ⟨by simp, fun i a h => by simp [h]⟩, fun _ args s => ⟨_, rfl⟩, rfl⟩

/-- **C76, violated.** If the function returns a reference then the bound object returns a copy of what it refers to, never the
reference. -/
theorem C76_reference_violated (read : σ → Nat → β) (f : Fn α β σ) (v : Bool) (obj : Cat) (xs : List α) (args : List (Cat × α)) (s : σ)
    (p q : Nat)
    (h1 : (direct f (if v then .clv else obj) (xs.map (obj, ·) ++ args) s).1 = .ref p)
    (h2 : (direct f (if v then .clv else obj) (args ++ xs.map (obj, ·)) s).1 = .ref q) :
    (∃ b, (callFront read v f obj args (xs, s)).1 = .val b ∧ (callFront read v f obj args (xs, s)).1 ≠ .ref p) ∧
    (∃ b, (callBack read v f obj args (xs, s)).1 = .val b ∧ (callBack read v f obj args (xs, s)).1 ≠ .ref q) := by
  simp only [direct] at h1 h2
  simp [callFront, callBack, h1, h2, decayRet]

/-- A function that returns a reference to place 3. -/
example : (direct (fun _ (args : List (Cat × Nat)) (s : Unit) => (Ret.ref (β := Nat) 3, args.map (·.2), s)) .lv [(.lv, 1)] ()).1 = .ref 3 := rfl

/-- What `std::bind_front` and `std::bind_back` accept: whatever `std::invoke` calls. -/
def stdBindable : Callee → Prop
  | .object | .pointer | .function | .member => True

/-- **C76, what can be bound.** Objects and pointers to functions, and as a template argument the name of a function too. -/
theorem C76_callee_partial (isValue : Bool) (c : Callee) (hm : c ≠ .member) (hf : c = .function → isValue = true) :
    bindable isValue c = true ∧ stdBindable c := by
  cases c <;> simp_all [bindable, stored, callForm, stdBindable]

/-- **C76, violated.** A bound function that is named, not given as a pointer, does not compile, nor does a bound pointer to a member
in any form, although the standard functions accept both. -/
theorem C76_callee_violated : bindable false .function = false ∧ (∀ isValue, bindable isValue .member = false) ∧
    stdBindable .function ∧ stdBindable .member :=
  ⟨rfl, fun isValue => by cases isValue <;> rfl, trivial, trivial⟩

example : Callee.function ≠ .member ∧ bindable true .function = true := by decide

end Verif.Util
