import Verif.Tuple.Callee
import Verif.Tuple.Props
import Verif.Bitset.PropsVisit

/-!
# C104: `for_each` and `enumerate` give back the function object they were passed

The documentation promises that `for_each` and `enumerate` return the function object passed to them, like `std::for_each`.
They do, except for `for_each` over exactly one tuple.
-/

namespace Verif.Callee

open Tuple (ZipRun zipLength)

variable {α σ : Type}

/-- The type allows the function object to be passed this way, called and returned: an object passed as const can be called as const
(if there is a call), an rvalue can be moved, or copied if it is const. -/
def Fits (F : FnTy) (p : Passed) (calls : Nat) : Prop :=
  (p = .constLvalue ∨ p = .constRvalue → F.constCall = true ∨ calls = 0) ∧ (p = .rvalue → F.movable = true) ∧
    (p = .constRvalue → F.copyable = true)

/-- What the caller may rely on: the result compiles, reading it gives the state `s`, and it is the object passed if that
was an lvalue; an object passed as const keeps its state. -/
def Returns (p : Passed) (s : σ) (r : Res σ) : Prop :=
  match r with
  | .done .object (some s') => s' = s ∧ (p = .lvalue ∨ p = .constLvalue)
  | .done (.value s') o => s' = s ∧ (p = .rvalue ∨ p = .constRvalue ∧ o = some s)
  | _ => False

/-- What each call does to the function object: nothing, if it was passed as const. -/
def stepOf (p : Passed) (op : Nat → List α → σ → σ) (i : Nat) (xs : List α) (s : σ) : Unit × σ :=
  match p with
  | .lvalue | .rvalue => ((), op i xs s)
  | .constLvalue | .constRvalue => ((), s)

theorem stepOf_eq (p : Passed) (op : Nat → List α → σ → σ) (i : Nat) (xs : List α) (s : σ) :
    stepOf p op i xs s = ((), callee p op i xs s) := by
  cases p <;> rfl

theorem callable_of_fits {F : FnTy} {p : Passed} {n : Nat} (h : Fits F p n) : callable F p n = true := by
  unfold callable
  cases p with
  | lvalue => rfl
  | rvalue => rfl
  | constLvalue => rcases h.1 (.inl rfl) with h | h <;> simp [h]
  | constRvalue => rcases h.1 (.inr rfl) with h | h <;> simp [h]

theorem giveBack_returns {F : FnTy} {p : Passed} {n : Nat} (h : Fits F p n) (s : σ) : Returns p s (giveBack F p s) := by
  cases p with
  | lvalue => exact ⟨rfl, .inl rfl⟩
  | constLvalue => exact ⟨rfl, .inr rfl⟩
  | rvalue => simp [giveBack, h.2.1 rfl, Returns]
  | constRvalue => simp [giveBack, h.2.2 rfl, Returns]

theorem calls_state (p : Passed) (op : Nat → List α → σ → σ) (ts : List (List α)) (s : σ) :
    ∃ bs s', Tuple.enumerate (callee p op) ts s = .ok s' ∧
      ZipRun (stepOf p op) ts 0 (zipLength (ts.map List.length)) s bs s' := by
  obtain ⟨bs, s', h1, h2⟩ := Tuple.C63_enumerate (callee p op) ts s
  refine ⟨bs, s', h1, ?_⟩
  have : stepOf p op = fun i xs s => ((), callee p op i xs s) := by
    funext i xs s; exact stepOf_eq p op i xs s
  rw [this]; exact h2

/-- **C104, several tuples, `unrolled_for_each`.** For every way to pass the function object that its type allows, it is called in
order on the elements, and given back in the state after the last call; the object itself, if it was an lvalue. -/
theorem C104_for_each_many (F : FnTy) (p : Passed) (op : List α → σ → σ) (ts : List (List α)) (s : σ)
    (h : Fits F p (zipLength (ts.map List.length))) :
    ∃ bs s' r, forEachMany F p op ts s = .ok r ∧ Returns p s' r ∧
      ZipRun (stepOf p fun _ => op) ts 0 (zipLength (ts.map List.length)) s bs s' ∧
      (2 ≤ ts.length → forEach F p op ts s = .ok r) := by
  obtain ⟨bs, s', h1, h2⟩ := calls_state p (fun _ => op) ts s
  have h3 : Tuple.forEach (callee p (fun _ => op) 0) ts s = .ok s' := by
    rw [(Tuple.C63_for_each _ ts s).1]; exact h1
  have h4 : forEachMany F p op ts s = .ok (giveBack F p s') := by
    unfold forEachMany
    rw [if_pos (callable_of_fits h), h3]; rfl
  refine ⟨bs, s', _, h4, giveBack_returns h s', h2, fun hl => ?_⟩
  match ts, hl with
  | _ :: _ :: _, _ => exact h4

/-- **C104, `enumerate`.** The same, with the index, for any positive number of tuples. -/
theorem C104_enumerate (F : FnTy) (p : Passed) (op : Nat → List α → σ → σ) (ts : List (List α)) (hne : ts ≠ []) (s : σ)
    (h : Fits F p (zipLength (ts.map List.length))) :
    ∃ bs s' r, enumerate F p op ts s = .ok r ∧ Returns p s' r ∧
      ZipRun (stepOf p op) ts 0 (zipLength (ts.map List.length)) s bs s' := by
  obtain ⟨bs, s', h1, h2⟩ := calls_state p op ts s
  refine ⟨bs, s', giveBack F p s', ?_, giveBack_returns h s', h2⟩
  match ts, hne with
  | t :: ts, _ =>
    unfold enumerate
    dsimp only
    rw [if_pos (callable_of_fits h), h1]; rfl

/-- **C104, one tuple, partial.** Passed as an rvalue and copyable, the function object comes back in the state after the
calls.  Missing: every other case, refuted below. -/
theorem C104_for_each_one_partial (F : FnTy) (p : Passed) (op : List α → σ → σ) (t : List α) (s : σ)
    (h : Fits F p t.length) (hp : p = .rvalue ∨ p = .constRvalue) (hc : F.copyable = true) :
    ∃ bs s' r, forEach F p op [t] s = .ok r ∧ Returns p s' r ∧ ZipRun (stepOf p fun _ => op) [t] 0 t.length s bs s' := by
  obtain ⟨bs, s', h1, h2⟩ := calls_state p (fun _ => op) [t] s
  have h3 : Tuple.forEach (callee p (fun _ => op) 0) [t] s = .ok s' := by
    rw [(Tuple.C63_for_each _ [t] s).1]; exact h1
  refine ⟨bs, s', giveBackCopy F p s', ?_, ?_, h2⟩
  · show forEachOne F p op t s = _
    unfold forEachOne
    rw [if_pos (callable_of_fits h), h3]; rfl
  · rcases hp with rfl | rfl <;> simp [giveBackCopy, hc, Returns]

/-- **C104 fails for one tuple** whenever the function object is passed as an lvalue, or cannot be copied: there is no result that
the caller may rely on, whatever the tuple, the function and its state.  As a non-const lvalue, or if it cannot be copied, the call does not
compile; as a const lvalue the reference returned refers to an object that is gone. -/
theorem C104_for_each_one_violated (F : FnTy) (p : Passed) (op : List α → σ → σ) (t : List α) (s : σ)
    (h : p = .lvalue ∨ p = .constLvalue ∨ F.copyable = false) :
    (¬ ∃ s' r, forEach F p op [t] s = .ok r ∧ Returns p s' r) ∧
    (p = .lvalue ∨ F.copyable = false → forEach F p op [t] s = .ok .illFormed) ∧
    (p = .constLvalue → F.copyable = true → F.constCall = true → forEach F p op [t] s = .ok (.done .dangling (some s))) := by
  obtain ⟨bs, s', h1, h2⟩ := calls_state p (fun _ => op) [t] s
  have h3 : Tuple.forEach (callee p (fun _ => op) 0) [t] s = .ok s' := by
    rw [(Tuple.C63_for_each _ [t] s).1]; exact h1
  have hall : forEach F p op [t] s = .ok (if callable F p t.length then giveBackCopy F p s' else .illFormed) := by
    show forEachOne F p op t s = _
    unfold forEachOne
    rw [h3]
    cases callable F p t.length <;> rfl
  have hill : p = .lvalue ∨ F.copyable = false → forEach F p op [t] s = .ok .illFormed := by
    intro hp
    rw [hall]
    have : giveBackCopy F p s' = .illFormed := by
      rcases hp with rfl | hc
      · cases hc : F.copyable <;> simp [giveBackCopy, hc]
      · simp [giveBackCopy, hc]
    rw [this]; simp
  refine ⟨?_, hill, ?_⟩
  · rintro ⟨s2, r, e, hr⟩
    by_cases hi : p = .lvalue ∨ F.copyable = false
    · rw [hill hi] at e
      cases e
      exact hr
    · have hp : p = .constLvalue := by
        rcases h with h | h | h
        · exact absurd (.inl h) hi
        · exact h
        · exact absurd (.inr h) hi
      subst hp
      have hc : F.copyable = true := by
        cases hc : F.copyable
        · exact absurd (.inr hc) hi
        · rfl
      rw [hall] at e
      cases hcall : callable F .constLvalue t.length <;> simp [hcall, giveBackCopy, hc] at e <;> subst e <;> exact hr
  · rintro rfl hc hcc
    rw [hall]
    have hs : s' = s := by
      have : ∀ {i n : Nat} {s s' : σ} {bs : List Unit}, ZipRun (stepOf .constLvalue fun _ => op) [t] i n s bs s' → s' = s := by
        intro i n s s' bs hz
        induction hz with
        | done => rfl
        | step _ _ ih => exact ih
      exact this h2
    simp [callable, hcc, giveBackCopy, hc, hs]

/-- **C104, no tuple.** Without a tuple both are rejected. -/
theorem C104_none (F : FnTy) (p : Passed) (op : Nat → List α → σ → σ) (s : σ) :
    forEach F p (op 0) [] s = .ok .illFormed ∧ enumerate F p op [] s = .ok .illFormed := ⟨rfl, rfl⟩

/-- **C104, bitsets.** Over a bitset of positive capacity the function object is called on the positions in order, and given back in
the state after the last call. -/
theorem C104_bitset {w : Nat} (hw : BitOps.StdWidth w) {N : Nat} (hN : 0 < N) {bs : Bitset.Words w} (hs : bs.length = Bitset.storageSize w N)
    (F : FnTy) (p : Passed) (sp : Bitset.Spec) (f : σ → Nat × Bool → σ) (s : σ) (h : Fits F p 1) :
    ∃ (b : Nat → Bool) (r : Res σ), (∀ i, i < N → Bitset.get bs i = .ok (b i)) ∧ forEachBits F p sp N f bs s = .ok r ∧
      Returns p (if p = .lvalue ∨ p = .rvalue then (sp.calls N b).foldl f s else s) r := by
  obtain ⟨b, hb, e⟩ := Bitset.C11_bitset_for_each_partial hw hN hs sp (fun s c => if p.const then s else f s c) s
  refine ⟨b, giveBack F p ((sp.calls N b).foldl (fun s c => if p.const then s else f s c) s), hb, ?_, ?_⟩
  · unfold forEachBits
    rw [if_pos (callable_of_fits h), e]; rfl
  · have := giveBack_returns h ((sp.calls N b).foldl (fun s c => if p.const then s else f s c) s)
    cases p with
    | lvalue => simpa [Passed.const] using this
    | rvalue => simpa [Passed.const] using this
    | constLvalue =>
      have hf : (sp.calls N b).foldl (fun (s : σ) (_ : Nat × Bool) => s) s = s := by
        induction sp.calls N b with
        | nil => rfl
        | cons _ _ ih => exact ih
      simpa [Passed.const, hf] using this
    | constRvalue =>
      have hf : (sp.calls N b).foldl (fun (s : σ) (_ : Nat × Bool) => s) s = s := by
        induction sp.calls N b with
        | nil => rfl
        | cons _ _ ih => exact ih
      simpa [Passed.const, hf] using this

/-- A function object that cannot be copied, passed as an rvalue over two tuples: it comes back in its last state. -/
example : Fits ⟨false, false, true⟩ .rvalue 2 ∧
    forEach ⟨false, false, true⟩ .rvalue (fun xs s => s + xs.foldl (· + ·) 0) [[1, 2], [10, 20, 30]] 0 =
      .ok (.done (.value 33) none) := by
  refine ⟨⟨by decide, by decide, by decide⟩, by decide⟩

/-- A copyable function object over one tuple, as an rvalue and as an lvalue. -/
example : forEach ⟨true, true, true⟩ .rvalue (fun xs s => s + xs.foldl (· + ·) 0) [[1, 2]] 0 = .ok (.done (.value 3) (some 3)) ∧
    forEach ⟨true, true, true⟩ .lvalue (fun xs s => s + xs.foldl (· + ·) 0) [[1, 2]] 0 = .ok .illFormed ∧
    enumerate ⟨true, true, true⟩ .lvalue (fun i xs s => s + i + xs.foldl (· + ·) 0) [[1, 2]] 0 = .ok (.done .object (some 4)) := by
  decide

/-- A bitset with two set bits, by a function object passed as an lvalue. -/
example : forEachBits (w := 8) ⟨true, true, true⟩ .lvalue .setBit 8 (fun s c => s + c.1) [0x12#8] 0 =
    .ok (.done .object (some 5)) := by decide

end Verif.Callee
