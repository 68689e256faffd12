import Verif.PPMap.Model

/-! # Macro replacement as a relation, and its rules -/

namespace Verif.PPMap

variable {M : Name → Option Macro} {outer : List Name} {n : Name}

theorem allSome_mono {α β : Type} {f g : α → Option β} (h : ∀ a b, f a = some b → g a = some b) {as : List α} {bs : List β}
    (hs : allSome f as = some bs) : allSome g as = some bs := by
  induction as generalizing bs with
  | nil => exact hs
  | cons a as ih =>
    simp only [allSome] at hs ⊢
    cases ha : f a with
    | none => simp [ha] at hs
    | some b =>
      cases has : allSome f as with
      | none => simp [ha, has] at hs
      | some bs' =>
        simp only [ha, has, Option.some.injEq] at hs
        simp [h a b ha, ih has, hs]

theorem map_cons_mono {α : Type} {a b : Option (List α)} (h : ∀ o, a = some o → b = some o) {t : α} {out : List α}
    (ha : a.map (t :: ·) = some out) : b.map (t :: ·) = some out := by
  cases a with
  | none => simp at ha
  | some o => rw [h o rfl]; exact ha

/-- More fuel does not change the result. -/
theorem expand_succ (fuel : Nat) : ∀ (outer : List Name) (inp : List Item) (out : List Tok),
    expand M fuel outer inp = some out → expand M (fuel + 1) outer inp = some out := by
  induction fuel with
  | zero => intro outer inp out h; simp [expand] at h
  | succ fuel ih =>
    intro outer inp out h
    rcases inp with _ | ⟨t, rest⟩
    · simpa [expand] using h
    rcases t with t | m
    rotate_left
    · simp only [expand] at h ⊢; exact ih _ _ _ h
    rcases t with ⟨n, p⟩ | _ | _ | _ | z
    · rw [expand] at h ⊢
      cases p with
      | true =>
        simp only [if_true] at h ⊢
        exact map_cons_mono (ih _ _) h
      | false =>
        simp only [Bool.false_eq_true, if_false] at h ⊢
        cases hM : M n with
        | none => simp only [hM] at h ⊢; exact map_cons_mono (ih _ _) h
        | some mac =>
          simp only [hM] at h ⊢
          by_cases hd : n ∈ outer ∨ n ∈ open_ rest
          · simp only [if_pos hd] at h ⊢; exact map_cons_mono (ih _ _) h
          · simp only [if_neg hd] at h ⊢
            cases mac with
            | object body => exact ih _ _ _ h
            | function named variadic vaOpt body =>
              simp only at h ⊢
              split at h
              · rename_i r' hs
                cases hc : collect 0 r' [] with
                | none => simp [hc] at h
                | some q =>
                  obtain ⟨args, rest'⟩ := q
                  simp only [hc] at h ⊢
                  cases hb : bind named variadic args with
                  | none => simp [hb] at h
                  | some q =>
                    obtain ⟨as, va⟩ := q
                    simp only [hb] at h ⊢
                    cases h1 : allSome (fun a => expand M fuel (open_ rest' ++ outer) (a.map .tok)) as with
                    | none => simp [h1] at h
                    | some as' =>
                      cases h2 : expand M fuel (open_ rest' ++ outer) (va.map .tok) with
                      | none => simp [h1, h2] at h
                      | some va' =>
                        simp only [h1, h2] at h
                        rw [allSome_mono (fun a b hab => ih _ _ _ hab) h1, ih _ _ _ h2]
                        exact ih _ _ _ h
              · exact map_cons_mono (ih _ _) h
    all_goals
      rw [expand] at h ⊢
      · exact map_cons_mono (ih _ _) h
      all_goals simp

theorem expand_le {f g : Nat} (hfg : f ≤ g) {inp : List Item} {out : List Tok} (h : expand M f outer inp = some out) :
    expand M g outer inp = some out := by
  induction hfg with
  | refl => exact h
  | step _ ih => exact expand_succ _ _ _ _ ih

/-- Macro replacement of `inp` ends and gives `out`. -/
def Scan (M : Name → Option Macro) (outer : List Name) (inp : List Item) (out : List Tok) : Prop :=
  ∃ fuel, expand M fuel outer inp = some out

/-- There is only one result. -/
theorem Scan.unique {inp : List Item} {o1 o2 : List Tok} (h1 : Scan M outer inp o1) (h2 : Scan M outer inp o2) : o1 = o2 := by
  obtain ⟨f, hf⟩ := h1
  obtain ⟨g, hg⟩ := h2
  have a := expand_le (Nat.le_max_left f g) hf
  have b := expand_le (Nat.le_max_right f g) hg
  rw [a] at b
  exact Option.some.inj b

theorem Scan.nil : Scan M outer [] [] := ⟨1, rfl⟩

theorem Scan.done {r : List Item} {o : List Tok} (h : Scan M outer r o) : Scan M outer (.done n :: r) o := by
  obtain ⟨f, hf⟩ := h
  exact ⟨f + 1, by rw [expand]; exact hf⟩

/-- The token does not take part in macro replacement. -/
def Inert (M : Name → Option Macro) : Tok → Prop
  | .id n p => p = true ∨ M n = none
  | _ => True

theorem Scan.inert {t : Tok} (ht : Inert M t) {r : List Item} {o : List Tok} (h : Scan M outer r o) :
    Scan M outer (.tok t :: r) (t :: o) := by
  obtain ⟨f, hf⟩ := h
  refine ⟨f + 1, ?_⟩
  rcases t with ⟨n, p⟩ | _ | _ | _ | z
  · rw [expand]
    cases p with
    | true => simp [hf]
    | false =>
      have : M n = none := by simpa [Inert] using ht
      simp [this, hf]
  all_goals
    rw [expand]
    · simp [hf]
    all_goals simp

theorem Scan.inerts {ts : List Tok} (ht : ∀ t ∈ ts, Inert M t) {r : List Item} {o : List Tok} (h : Scan M outer r o) :
    Scan M outer (ts.map .tok ++ r) (ts ++ o) := by
  induction ts with
  | nil => exact h
  | cons t ts ih =>
    exact Scan.inert (ht t (by simp)) (ih fun t' h' => ht t' (by simp [h']))

/-- The next token is not an opening parenthesis. -/
def NoCall (r : List Item) : Prop := ∀ r', skip r ≠ .tok .lp :: r'

/-- The name of a macro with parameters that is not followed by a parenthesis. -/
theorem Scan.name {k : Nat} {v vo : Bool} {b : List Body} (hM : M n = some (.function k v vo b)) (ho : n ∉ outer) {r : List Item}
    (hr : n ∉ open_ r) (hn : NoCall r) {o : List Tok} (h : Scan M outer r o) :
    Scan M outer (.tok (.id n false) :: r) (.id n false :: o) := by
  obtain ⟨f, hf⟩ := h
  refine ⟨f + 1, ?_⟩
  rw [expand]
  simp only [Bool.false_eq_true, if_false, hM]
  rw [if_neg (by simp [ho, hr])]
  split
  · rename_i r' hs; exact absurd hs (hn r')
  · simp [hf]

theorem Scan.object {b : List Body} (hM : M n = some (.object b)) (ho : n ∉ outer) {r : List Item} (hr : n ∉ open_ r) {o : List Tok}
    (h : Scan M outer ((subst [] [] b).map .tok ++ .done n :: r) o) : Scan M outer (.tok (.id n false) :: r) o := by
  obtain ⟨f, hf⟩ := h
  refine ⟨f + 1, ?_⟩
  rw [expand]
  simp only [Bool.false_eq_true, if_false, hM]
  rw [if_neg (by simp [ho, hr])]
  exact hf

/-- All of the arguments, each replaced. -/
inductive ScanAll (M : Name → Option Macro) (outer : List Name) : List (List Tok) → List (List Tok) → Prop
  | nil : ScanAll M outer [] []
  | cons {a a' : List Tok} {as as' : List (List Tok)} : Scan M outer (a.map .tok) a' → ScanAll M outer as as' →
      ScanAll M outer (a :: as) (a' :: as')

theorem ScanAll.fuel {as as' : List (List Tok)} (h : ScanAll M outer as as') :
    ∃ f, allSome (fun a => expand M f outer (a.map .tok)) as = some as' := by
  induction h with
  | nil => exact ⟨0, rfl⟩
  | cons ha _ ih =>
    obtain ⟨f, hf⟩ := ha
    obtain ⟨g, hg⟩ := ih
    refine ⟨max f g, ?_⟩
    simp only [allSome]
    rw [expand_le (Nat.le_max_left f g) hf, allSome_mono (fun a b hab => expand_le (Nat.le_max_right f g) hab) hg]

/-- A macro with parameters and its arguments. -/
theorem Scan.call {k : Nat} {v vo : Bool} {b : List Body} (hM : M n = some (.function k v vo b)) (ho : n ∉ outer) {r r' rest : List Item}
    (hr : n ∉ open_ r) (hs : skip r = .tok .lp :: r') {args as as' : List (List Tok)} {va va' : List Tok}
    (hc : collect 0 r' [] = some (args, rest)) (hb : bind k v args = some (as, va)) (has : ScanAll M (open_ rest ++ outer) as as')
    (hva : Scan M (open_ rest ++ outer) (va.map .tok) va') {o t : List Tok}
    (ht : (if vo && va'.isEmpty then [] else subst as' va' b) = t) (h : Scan M outer (t.map .tok ++ .done n :: rest) o) :
    Scan M outer (.tok (.id n false) :: r) o := by
  subst ht
  obtain ⟨f1, h1⟩ := has.fuel
  obtain ⟨f2, h2⟩ := hva
  obtain ⟨f3, h3⟩ := h
  refine ⟨max f1 (max f2 f3) + 1, ?_⟩
  have l1 : f1 ≤ max f1 (max f2 f3) := Nat.le_max_left _ _
  have l2 : f2 ≤ max f1 (max f2 f3) := Nat.le_trans (Nat.le_max_left _ _) (Nat.le_max_right _ _)
  have l3 : f3 ≤ max f1 (max f2 f3) := Nat.le_trans (Nat.le_max_right _ _) (Nat.le_max_right _ _)
  rw [expand]
  simp only [Bool.false_eq_true, if_false, hM]
  rw [if_neg (by simp [ho, hr])]
  simp only [hs, hc, hb]
  rw [allSome_mono (fun a b hab => expand_le l1 hab) h1, expand_le l2 h2]
  exact expand_le l3 h3

/-! ## Parentheses -/

/-- The depth of parentheses after `ts`, from depth `d`; `none` if it would fall below zero. -/
def depth : Nat → List Tok → Option Nat
  | d, [] => some d
  | d, .lp :: r => depth (d + 1) r
  | 0, .rp :: _ => none
  | d + 1, .rp :: r => depth d r
  | d, _ :: r => depth d r

/-- Every parenthesis has its partner. -/
def Balanced (ts : List Tok) : Prop := ∀ d, depth d ts = some d

/-- No comma outside of parentheses. -/
def noComma : Nat → List Tok → Bool
  | _, [] => true
  | d, .lp :: r => noComma (d + 1) r
  | d, .rp :: r => noComma (d - 1) r
  | 0, .comma :: _ => false
  | d + 1, .comma :: r => noComma (d + 1) r
  | d, _ :: r => noComma d r

theorem depth_append (a b : List Tok) (d : Nat) : depth d (a ++ b) = (depth d a).bind fun e => depth e b := by
  induction a generalizing d with
  | nil => rfl
  | cons t a ih =>
    rcases t with ⟨n, p⟩ | _ | _ | _ | z
    · simp [depth, ih]
    · simp [depth, ih]
    · cases d <;> simp [depth, ih]
    · simp [depth, ih]
    · simp [depth, ih]

theorem Balanced.append {a b : List Tok} (ha : Balanced a) (hb : Balanced b) : Balanced (a ++ b) := by
  intro d
  rw [depth_append, ha d]
  exact hb d

theorem Balanced.nil : Balanced [] := fun _ => rfl

theorem Balanced.paren {a : List Tok} (ha : Balanced a) : Balanced (.lp :: (a ++ [.rp])) := by
  intro d
  simp [depth, depth_append, ha (d + 1)]

theorem Balanced.cons {t : Tok} (h1 : t ≠ .lp) (h2 : t ≠ .rp) {a : List Tok} (ha : Balanced a) : Balanced (t :: a) := by
  intro d
  have := ha d
  rcases t with ⟨n, p⟩ | _ | _ | _ | z <;> simp_all [depth]

theorem collect_arg {a : List Tok} {d e : Nat} (h : depth d a = some e) (hn : noComma d a = true) (r : List Item) (acc : List Tok) :
    collect d (a.map .tok ++ r) acc = collect e r (acc ++ a) := by
  induction a generalizing d acc with
  | nil => simp only [depth, Option.some.injEq] at h; simp [h]
  | cons t a ih =>
    rcases t with ⟨n, p⟩ | _ | _ | _ | z
    · simp only [depth, noComma] at h hn
      simp [collect, ih h hn]
    · simp only [depth, noComma] at h hn
      simp [collect, ih h hn]
    · cases d with
      | zero => simp [depth] at h
      | succ d =>
        simp only [depth, noComma, Nat.add_sub_cancel] at h hn
        simp [collect, ih h hn]
    · cases d with
      | zero => simp [noComma] at hn
      | succ d =>
        simp only [depth, noComma] at h hn
        simp [collect, ih h hn]
    · simp only [depth, noComma] at h hn
      simp [collect, ih h hn]

theorem join_cons {a : List Tok} {as : List (List Tok)} (h : as ≠ []) : join (a :: as) = a ++ .comma :: join as := by
  cases as with
  | nil => exact absurd rfl h
  | cons b as => rfl

theorem collect_all {a : List Tok} {d : Nat} (h : depth d a = some 0) (r : List Item) (acc : List Tok) :
    ∃ as, collect d (a.map .tok ++ .tok .rp :: r) acc = some (as, r) ∧ as ≠ [] ∧ join as = acc ++ a := by
  induction a generalizing d acc with
  | nil =>
    simp only [depth, Option.some.injEq] at h
    subst h
    exact ⟨[acc], by simp [collect], by simp, by simp [join]⟩
  | cons t a ih =>
    rcases t with ⟨n, p⟩ | _ | _ | _ | z
    · obtain ⟨as, h1, h2, h3⟩ := ih (d := d) (by simpa [depth] using h) (acc ++ [.id n p])
      exact ⟨as, by simpa [collect] using h1, h2, by simp [h3]⟩
    · obtain ⟨as, h1, h2, h3⟩ := ih (d := d + 1) (by simpa [depth] using h) (acc ++ [.lp])
      exact ⟨as, by simpa [collect] using h1, h2, by simp [h3]⟩
    · cases d with
      | zero => simp [depth] at h
      | succ d =>
        obtain ⟨as, h1, h2, h3⟩ := ih (d := d) (by simpa [depth] using h) (acc ++ [.rp])
        exact ⟨as, by simpa [collect] using h1, h2, by simp [h3]⟩
    · cases d with
      | zero =>
        obtain ⟨as, h1, h2, h3⟩ := ih (d := 0) (by simpa [depth] using h) []
        refine ⟨acc :: as, by simp [collect, h1], by simp, ?_⟩
        rw [join_cons h2, h3]; simp
      | succ d =>
        obtain ⟨as, h1, h2, h3⟩ := ih (d := d + 1) (by simpa [depth] using h) (acc ++ [.comma])
        exact ⟨as, by simpa [collect] using h1, h2, by simp [h3]⟩
    · obtain ⟨as, h1, h2, h3⟩ := ih (d := d) (by simpa [depth] using h) (acc ++ [.other z])
      exact ⟨as, by simpa [collect] using h1, h2, by simp [h3]⟩

/-- What can be one argument. -/
structure IsArg (a : List Tok) : Prop where
  balanced : Balanced a
  flat : noComma 0 a = true

theorem IsArg.last {a : List Tok} (h : IsArg a) (r : List Item) : collect 0 (a.map .tok ++ .tok .rp :: r) [] = some ([a], r) := by
  rw [collect_arg (h.balanced 0) h.flat]; simp [collect]

theorem IsArg.next {a : List Tok} (h : IsArg a) (r : List Item) :
    collect 0 (a.map .tok ++ .tok .comma :: r) [] = (collect 0 r []).map fun p => (a :: p.1, p.2) := by
  rw [collect_arg (h.balanced 0) h.flat]; simp [collect]

theorem open_append (a b : List Item) : open_ (a ++ b) = open_ a ++ open_ b := by
  induction a with
  | nil => rfl
  | cons t a ih => cases t <;> simp [open_, ih]

theorem open_toks (a : List Tok) : open_ (a.map .tok) = [] := by
  induction a with
  | nil => rfl
  | cons t a ih => simpa [open_] using ih

/-- A call of a macro that takes everything as `__VA_ARGS__`. -/
theorem Scan.callVa {b : List Body} (hM : M n = some (.function 0 true false b)) (ho : n ∉ outer) {r rest : List Item} {a a' : List Tok}
    (hr : n ∉ open_ r) (hs : skip r = .tok .lp :: (a.map .tok ++ .tok .rp :: rest)) (ha : Balanced a)
    (hva : Scan M (open_ rest ++ outer) (a.map .tok) a') {o t : List Tok} (ht : subst [] a' b = t)
    (h : Scan M outer (t.map .tok ++ .done n :: rest) o) : Scan M outer (.tok (.id n false) :: r) o := by
  obtain ⟨as, h1, h2, h3⟩ := collect_all (ha 0) rest []
  refine Scan.call hM ho hr hs h1 (as := []) (va := join as) ?_ ScanAll.nil ?_ (by simpa using ht) h
  · simp [bind]
  · rw [h3]; exact hva

theorem depth_add {a : List Tok} {d e : Nat} (h : depth d a = some e) (k : Nat) : depth (d + k) a = some (e + k) := by
  induction a generalizing d with
  | nil => simp only [depth, Option.some.injEq] at h ⊢; omega
  | cons t a ih =>
    rcases t with ⟨n, p⟩ | _ | _ | _ | z
    · simp only [depth] at h ⊢; exact ih h
    · simp only [depth] at h ⊢
      have := ih h
      rwa [Nat.add_right_comm] at this
    · cases d with
      | zero => simp [depth] at h
      | succ d =>
        simp only [depth] at h
        have := ih h
        rw [Nat.add_right_comm]
        simpa only [depth] using this
    · simp only [depth] at h ⊢; exact ih h
    · simp only [depth] at h ⊢; exact ih h

theorem balanced_iff {a : List Tok} : Balanced a ↔ depth 0 a = some 0 := by
  constructor
  · intro h; exact h 0
  · intro h d; simpa using depth_add h d

/-- The partner of a parenthesis. -/
theorem close_split {t : List Tok} {k : Nat} (h : depth (k + 1) t = some 0) :
    ∃ a y, t = a ++ .rp :: y ∧ depth k a = some 0 ∧ depth 0 y = some 0 := by
  induction t generalizing k with
  | nil => simp [depth] at h
  | cons t r ih =>
    rcases t with ⟨n, p⟩ | _ | _ | _ | z
    · obtain ⟨a, y, rfl, h1, h2⟩ := ih (by simpa [depth] using h)
      exact ⟨.id n p :: a, y, rfl, by simpa [depth] using h1, h2⟩
    · obtain ⟨a, y, rfl, h1, h2⟩ := ih (k := k + 1) (by simpa [depth] using h)
      exact ⟨.lp :: a, y, rfl, by simpa [depth] using h1, h2⟩
    · cases k with
      | zero => exact ⟨[], r, rfl, rfl, by simpa [depth] using h⟩
      | succ k =>
        obtain ⟨a, y, rfl, h1, h2⟩ := ih (k := k) (by simpa [depth] using h)
        exact ⟨.rp :: a, y, rfl, by simpa [depth] using h1, h2⟩
    · obtain ⟨a, y, rfl, h1, h2⟩ := ih (by simpa [depth] using h)
      exact ⟨.comma :: a, y, rfl, by simpa [depth] using h1, h2⟩
    · obtain ⟨a, y, rfl, h1, h2⟩ := ih (by simpa [depth] using h)
      exact ⟨.other z :: a, y, rfl, by simpa [depth] using h1, h2⟩

theorem noComma_append {a : List Tok} {d e : Nat} (h : depth d a = some e) (b : List Tok) :
    noComma d (a ++ b) = (noComma d a && noComma e b) := by
  induction a generalizing d with
  | nil => simp only [depth, Option.some.injEq] at h; simp [noComma, h]
  | cons t a ih =>
    rcases t with ⟨n, p⟩ | _ | _ | _ | z
    · simp only [depth] at h; simp [noComma, ih h]
    · simp only [depth] at h; simp [noComma, ih h]
    · cases d with
      | zero => simp [depth] at h
      | succ d => simp only [depth] at h; simp [noComma, ih h]
    · cases d with
      | zero => simp [noComma]
      | succ d => simp only [depth] at h; simp [noComma, ih h]
    · simp only [depth] at h; simp [noComma, ih h]

/-- An argument that begins with a parenthesis is `( a ) y`. -/
theorem IsArg.paren {t : List Tok} (h : IsArg (.lp :: t)) : ∃ a y, t = a ++ .rp :: y ∧ Balanced a ∧ IsArg y := by
  have h0 : depth 1 t = some 0 := by simpa [depth] using h.balanced 0
  obtain ⟨a, y, rfl, h1, h2⟩ := close_split h0
  refine ⟨a, y, rfl, balanced_iff.2 h1, balanced_iff.2 h2, ?_⟩
  have hn : noComma 1 (a ++ .rp :: y) = true := by simpa [noComma] using h.flat
  rw [noComma_append (balanced_iff.2 h1 1)] at hn
  simp [noComma] at hn
  exact hn.2

theorem IsArg.cons {n : Name} {p : Bool} {a : List Tok} (h : IsArg a) : IsArg (.id n p :: a) :=
  ⟨Balanced.cons (by simp) (by simp) h.balanced, by simpa [noComma] using h.flat⟩

theorem IsArg.append {a b : List Tok} (ha : IsArg a) (hb : IsArg b) : IsArg (a ++ b) :=
  ⟨ha.balanced.append hb.balanced, by rw [noComma_append (ha.balanced 0), ha.flat, hb.flat]; rfl⟩

theorem noComma_succ {a : List Tok} {d e : Nat} (h : depth d a = some e) : noComma (d + 1) a = true := by
  induction a generalizing d with
  | nil => rfl
  | cons t a ih =>
    rcases t with ⟨n, p⟩ | _ | _ | _ | z
    · simp only [depth, noComma] at h ⊢; exact ih h
    · simp only [depth, noComma] at h ⊢; exact ih h
    · cases d with
      | zero => simp [depth] at h
      | succ d => simp only [depth, noComma] at h ⊢; exact ih h
    · simp only [depth, noComma] at h ⊢; exact ih h
    · simp only [depth, noComma] at h ⊢; exact ih h

/-- Anything in parentheses is one argument. -/
theorem IsArg.group {a : List Tok} (h : Balanced a) : IsArg (.lp :: (a ++ [.rp])) :=
  ⟨h.paren, by simp [noComma, noComma_append (h 1), noComma_succ (h 0)]⟩

end Verif.PPMap
