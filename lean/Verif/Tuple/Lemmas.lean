import Verif.Tuple.Model

/-! # Facts about loops over index sequences -/

namespace Verif.Tuple

variable {α β γ κ σ : Type}

theorem mapO_ok {f : α → Outcome β} {g : α → β} {l : List α} (h : ∀ x ∈ l, f x = .ok (g x)) : mapO f l = .ok (l.map g) := by
  induction l with
  | nil => rfl
  | cons x xs ih =>
    rw [mapO, h x (by simp), Outcome.ok_bind, ih (fun y hy => h y (by simp [hy])), Outcome.ok_bind]; rfl

/-- A loop over the indices of a result. -/
theorem mapO_range {f : Nat → Outcome β} {out : List β} {n : Nat} (hn : n = out.length)
    (h : ∀ i (hi : i < out.length), f i = .ok out[i]) : mapO f (List.range n) = .ok out := by
  subst hn
  induction out generalizing f with
  | nil => rfl
  | cons x xs ih =>
    rw [List.length_cons, List.range_succ_eq_map, mapO, h 0 (by simp), Outcome.ok_bind]
    have hm : ∀ (g : Nat → Outcome β) (l : List Nat), mapO g (l.map Nat.succ) = mapO (fun i => g (i + 1)) l := by
      intro g l
      induction l with
      | nil => rfl
      | cons a l ih => rw [List.map_cons, mapO, mapO, ih]
    rw [hm, ih (f := fun i => f (i + 1)) (fun i hi => h (i + 1) (by rw [List.length_cons]; omega)), Outcome.ok_bind]
    rfl

theorem get_eq {t : List α} {i : Nat} (h : i < t.length) : get t i = .ok t[i] := by
  unfold get; rw [arrGet_ok]; exact List.getElem?_eq_getElem h

theorem mapO_get (t : List α) : mapO (get t) (List.range t.length) = .ok t :=
  mapO_range rfl fun _ hi => get_eq hi

theorem arrGet_eq {t : List α} {i : Nat} (h : i < t.length) : arrGet t i = .ok t[i] := get_eq h

end Verif.Tuple
