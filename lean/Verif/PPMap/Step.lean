import Verif.PPMap.Lemmas

/-! # What one scan of the text of `STDX_MAP` does -/

namespace Verif.PPMap

/-- The tokens of a text as input. -/
abbrev T (ts : List Tok) : List Item := ts.map .tok

/-- An identifier. -/
abbrev I (n : Name) : Tok := .id n false

/-- Which macros are around which: those that drive the repetition are around the others. -/
def rank : Name → Nat
  | .eval0 => 1
  | .eval1 => 2
  | .eval2 => 3
  | .eval3 => 4
  | .eval4 => 5
  | .eval5 => 6
  | .eval => 7
  | .drop0 => 8
  | .drop1 => 9
  | .map => 10
  | _ => 0

/-- None of the macros up to a rank is being replaced. -/
def Free (k : Nat) (ns : List Name) : Prop := ∀ n, rank n ≤ k → n ∉ ns

theorem Free.le {j k : Nat} (hjk : j ≤ k) {ns : List Name} (h : Free k ns) : Free j ns := fun n hn => h n (Nat.le_trans hn hjk)
theorem Free.append {k : Nat} {a b : List Name} (ha : Free k a) (hb : Free k b) : Free k (a ++ b) := by
  intro n hn hm
  rcases List.mem_append.1 hm with h | h
  · exact ha n hn h
  · exact hb n hn h
theorem Free.cons {k : Nat} {n : Name} (hn : k < rank n) {a : List Name} (ha : Free k a) : Free k (n :: a) := by
  intro m hm hmem
  rcases List.mem_cons.1 hmem with h | h
  · subst h; omega
  · exact ha m hm h

section
variable {user : Nat → Option Macro} {outer : List Name} {r : List Item} {o : List Tok}

local notation "𝕄" => table user

theorem noCall_id {n : Name} {p : Bool} : NoCall (.tok (.id n p) :: r) := by intro r' h; simp [skip] at h
theorem noCall_comma : NoCall (.tok .comma :: r) := by intro r' h; simp [skip] at h
theorem noCall_rp : NoCall (.tok .rp :: r) := by intro r' h; simp [skip] at h
theorem noCall_nil : NoCall [] := by intro r' h; simp [skip] at h

/-- What `STDX_MAP_GET_END` makes of the next argument, pp_map.hpp:19-21. -/
inductive Peek (user : Nat → Option Macro) : List Tok → List Tok → Prop
  | none {p : List Tok} (h : p.head? ≠ some .lp) (hp : IsArg p) (hi : ∀ t ∈ p, Inert (table user) t) :
      Peek user p (I .getEnd :: p)
  | one {a y : List Tok} (h : y.head? ≠ some .lp) (ha : Balanced a) (hp : IsArg y)
      (hi : ∀ t ∈ Tok.lp :: (a ++ .rp :: y), Inert (table user) t) : Peek user (.lp :: (a ++ .rp :: y)) (I .getEnd1 :: y)
  | two {a b y : List Tok} (h : y.head? ≠ some .lp) (ha : Balanced a) (hb : Balanced b) (hp : IsArg y)
      (hi : ∀ t ∈ Tok.lp :: (a ++ .rp :: .lp :: (b ++ .rp :: y)), Inert (table user) t) :
      Peek user (.lp :: (a ++ .rp :: .lp :: (b ++ .rp :: y))) (I .getEnd2 :: y)

theorem noCall_toks {y : List Tok} (h : y.head? ≠ some .lp) (hr : NoCall r) : NoCall (T y ++ r) := by
  cases y with
  | nil => exact hr
  | cons t y =>
    intro r' hh
    simp [skip] at hh
    simp [hh.1] at h

theorem noCall_done {n : Name} (hr : NoCall r) : NoCall (.done n :: r) := by
  intro r' h
  exact hr r' (by simpa [skip] using h)

theorem op (z : List Tok) : open_ (List.map Item.tok z) = [] := open_toks z

/-- None of the macros that mark the end is being replaced. -/
def Ends (ns : List Name) : Prop := ∀ n ∈ [Name.getEnd, .getEnd1, .getEnd2, .mapEnd], n ∉ ns

theorem Peek.scan {p E : List Tok} (h : Peek user p E) (ho : Ends outer) : Scan 𝕄 outer (T (I .getEnd :: p)) E := by
  cases h with
  | none h hp hi =>
    have := Scan.inerts (M := 𝕄) (outer := outer) hi Scan.nil
    simp only [List.append_nil] at this
    refine Scan.name (n := .getEnd) (k := 0) rfl (ho _ (by simp)) (by simp [open_toks]) ?_ this
    simpa using noCall_toks h noCall_nil
  | @one a y h ha hp hi =>
    have i1 : ∀ t ∈ a, Inert 𝕄 t := fun t ht => hi t (by simp [ht])
    have i2 : ∀ t ∈ y, Inert 𝕄 t := fun t ht => hi t (by simp [ht])
    refine Scan.callVa (n := .getEnd) rfl (ho _ (by simp)) (rest := T y) (a := a) (a' := a) ?_ (by simp [skip]) ha ?_ rfl ?_
    · simp [open_, open_append, op]
    · simpa using Scan.inerts (outer := open_ (T y) ++ outer) i1 Scan.nil
    · refine Scan.name (n := .getEnd1) (k := 0) rfl (ho _ (by simp)) (by simp [open_, open_toks, subst]) ?_ ?_
      · exact noCall_done (by simpa using noCall_toks h noCall_nil)
      · exact Scan.done (by simpa using Scan.inerts (outer := outer) i2 Scan.nil)
  | @two a b y h ha hb hp hi =>
    have i1 : ∀ t ∈ a, Inert 𝕄 t := fun t ht => hi t (by simp [ht])
    have i2 : ∀ t ∈ b, Inert 𝕄 t := fun t ht => hi t (by simp [ht])
    have i3 : ∀ t ∈ y, Inert 𝕄 t := fun t ht => hi t (by simp [ht])
    refine Scan.callVa (n := .getEnd) rfl (ho _ (by simp)) (rest := T (.lp :: (b ++ .rp :: y))) (a := a) (a' := a) ?_ (by simp [skip])
      ha ?_ rfl ?_
    · simp [open_, open_append, op]
    · simpa using Scan.inerts (outer := open_ (T (.lp :: (b ++ .rp :: y))) ++ outer) i1 Scan.nil
    · refine Scan.callVa (n := .getEnd1) rfl (ho _ (by simp)) (rest := T y) (a := b) (a' := b) ?_ (by simp [skip, subst]) hb ?_ rfl ?_
      · simp [open_, open_append, op, subst]
      · simpa using Scan.inerts (outer := open_ (T y) ++ outer) i2 Scan.nil
      · refine Scan.name (n := .getEnd2) (k := 0) rfl (ho _ (by simp)) (by simp [open_, op, subst]) ?_ ?_
        · exact noCall_done (by simpa using noCall_toks h noCall_nil)
        · exact Scan.done (by simpa using Scan.inerts (outer := outer) i3 Scan.nil)

theorem Peek.isArg {p E : List Tok} (h : Peek user p E) : IsArg E := by
  cases h with
  | none h hp hi => exact hp.cons
  | one h ha hp hi => exact hp.cons
  | two h ha hb hp hi => exact hp.cons

theorem Peek.isArg' {p E : List Tok} (h : Peek user p E) : IsArg p := by
  cases h with
  | none h hp hi => exact hp
  | one h ha hp hi => simpa using (IsArg.group ha).append hp
  | two h ha hb hp hi => simpa using (IsArg.group ha).append ((IsArg.group hb).append hp)

theorem Peek.inert {p E : List Tok} (h : Peek user p E) : ∀ t ∈ p, Inert 𝕄 t := by
  cases h with
  | none h hp hi => exact hi
  | one h ha hp hi => exact hi
  | two h ha hb hp hi => exact hi

theorem Peek.stable {p E : List Tok} (h : Peek user p E) (ho : Ends outer) (hr : Ends (open_ r)) (hn : NoCall r)
    (hs : Scan 𝕄 outer r o) : Scan 𝕄 outer (T E ++ r) (E ++ o) := by
  cases h with
  | none h hp hi =>
    exact Scan.name (n := .getEnd) (k := 0) rfl (ho _ (by simp)) (by simpa [open_append, open_toks] using hr _ (by simp))
      (noCall_toks h hn) (Scan.inerts hi hs)
  | @one a y h ha hp hi =>
    have i2 : ∀ t ∈ y, Inert 𝕄 t := fun t ht => hi t (by simp [ht])
    exact Scan.name (n := .getEnd1) (k := 0) rfl (ho _ (by simp)) (by simpa [open_append, open_toks] using hr _ (by simp))
      (noCall_toks h hn) (Scan.inerts i2 hs)
  | @two a b y h ha hb hp hi =>
    have i2 : ∀ t ∈ y, Inert 𝕄 t := fun t ht => hi t (by simp [ht])
    exact Scan.name (n := .getEnd2) (k := 0) rfl (ho _ (by simp)) (by simpa [open_append, open_toks] using hr _ (by simp))
      (noCall_toks h hn) (Scan.inerts i2 hs)

/-- The macro that goes on. -/
def mp (b : Bool) : Name := if b then .mapA else .mapB

theorem mp_table (b : Bool) : 𝕄 (mp b) = some (.function 3 true false
    [k, .param 0, l, .param 1, PPMap.r, i .defer, l, i .next, l, .param 2, k, i (mp !b), PPMap.r, PPMap.r, l, .param 0, k, .param 2, k, .va, PPMap.r]) := by
  cases b <;> rfl

theorem rank_mp (b : Bool) : rank (mp b) = 0 := by cases b <;> rfl

/-- What is needed of the text that `STDX_MAP_GET_END` leaves. -/
structure Left (user : Nat → Option Macro) (p E : List Tok) : Prop where
  isArg : IsArg p
  inert : ∀ t ∈ p, Inert (table user) t
  scan : ∀ outer, Ends outer → Scan (table user) outer (T (I .getEnd :: p)) E
  stable : ∀ outer r o, Ends outer → Ends (open_ r) → NoCall r → Scan (table user) outer r o →
    Scan (table user) outer (T E ++ r) (E ++ o)

theorem Peek.left {p E : List Tok} (h : Peek user p E) : Left user p E :=
  ⟨h.isArg', h.inert, fun _ ho => h.scan ho, fun _ _ _ ho hr hn hs => h.stable ho hr hn hs⟩

/-- `()()()` -/
def sent : List Tok := [.lp, .rp, .lp, .rp, .lp, .rp]

/-- `( a ) ( b ) ( )`, which stops the map. -/
def stop (a b : List Tok) : List Tok := .lp :: (a ++ .rp :: .lp :: (b ++ [.rp, .lp, .rp]))

theorem stop_left {a b : List Tok} (ha : Balanced a) (hb : Balanced b) (hai : ∀ t ∈ a, Inert 𝕄 t) (hbi : ∀ t ∈ b, Inert 𝕄 t) :
    Left user (stop a b) [.other 0, .comma, I .mapEnd] := by
  have i0 : ∀ k, Inert 𝕄 (.other k) := fun _ => trivial
  have ic : Inert 𝕄 .comma := trivial
  have inert : ∀ {ns : List Name} {ts : List Tok}, (∀ t ∈ ts, Inert 𝕄 t) → Scan 𝕄 ns (T ts) ts := by
    intro ns ts h
    simpa using Scan.inerts (outer := ns) h Scan.nil
  refine ⟨?_, ?_, ?_, ?_⟩
  · have := (IsArg.group ha).append ((IsArg.group hb).append (IsArg.group Balanced.nil))
    simpa [stop] using this
  · intro t ht
    simp only [stop, List.mem_cons, List.mem_append, List.not_mem_nil, or_false] at ht
    rcases ht with rfl | h | rfl | rfl | h | rfl | rfl | rfl
    all_goals first | trivial | exact hai t h | exact hbi t h
  · intro outer ho
    refine Scan.callVa (n := .getEnd) (a := a) (a' := a) (t := [I .getEnd1]) (rest := T (.lp :: (b ++ [.rp, .lp, .rp]))) rfl (ho _ (by simp))
      (by simp [open_, open_append, op, stop]) (by simp [skip, stop]) ha (inert hai) rfl ?_
    refine Scan.callVa (n := .getEnd1) (a := b) (a' := b) (t := [I .getEnd2]) (rest := T [.lp, .rp]) rfl (ho _ (by simp))
      (by simp [open_, open_append, op]) (by simp [skip]) hb (inert hbi) rfl ?_
    refine Scan.call (n := .getEnd2) (k := 0) (args := [[]]) (as := []) (as' := []) (va := []) (va' := []) (rest := [])
      (t := [.other 0, .comma, I .mapEnd]) rfl
      (ho _ (by simp)) (by simp [open_]) (by simp [skip]; rfl) (by simp [collect]) (by simp [bind]) ScanAll.nil Scan.nil rfl ?_
    refine Scan.inert (i0 0) (Scan.inert ic ?_)
    exact Scan.name (n := .mapEnd) (k := 0) rfl (ho _ (by simp)) (by simp [open_]) (by intro r' h; simp [skip] at h)
      (Scan.done Scan.nil)
  · intro outer r o ho hr hn hs
    exact Scan.inert (i0 0) (Scan.inert ic (Scan.name (n := .mapEnd) (k := 0) rfl (ho _ (by simp)) (hr _ (by simp)) hn hs))

theorem isArg_name (n : Name) : IsArg [I n] := ⟨balanced_iff.2 rfl, rfl⟩

theorem collect2 {a b : List Tok} (ha : IsArg a) (hb : IsArg b) (r : List Item) :
    collect 0 (T a ++ .tok .comma :: (T b ++ .tok .rp :: r)) [] = some ([a, b], r) := by
  rw [ha.next, hb.last]; rfl

theorem scan_name_nil {n : Name} {k : Nat} {v vo : Bool} {b : List Body} (hM : 𝕄 n = some (.function k v vo b)) (ho : n ∉ outer) :
    Scan 𝕄 outer (T [I n]) [I n] :=
  Scan.name hM ho (by simp [open_]) noCall_nil Scan.nil

theorem scan_inert {ts : List Tok} (h : ∀ t ∈ ts, Inert 𝕄 t) : Scan 𝕄 outer (T ts) ts := by
  simpa using Scan.inerts (outer := outer) h Scan.nil

/-- `STDX_EMPTY()` -/
theorem scan_empty (ho : Name.empty ∉ outer) (hr : Name.empty ∉ open_ r) (hs : Scan 𝕄 outer r o) :
    Scan 𝕄 outer (.tok (I .empty) :: .tok .lp :: .tok .rp :: r) o :=
  Scan.call (n := .empty) (k := 0) (args := [[]]) (as := []) (as' := []) (va := []) (va' := []) (rest := r) (t := []) rfl
    ho (by simpa [open_] using hr) (by simp [skip]; rfl) (by simp [collect]) (by simp [bind]) ScanAll.nil Scan.nil rfl (Scan.done hs)

/-- The names that `STDX_MAP_NEXT` uses. -/
def nextNames : List Name := [.empty, .defer, .getEnd2, .getEnd1, .getEnd, .mapEnd, .next0, .next1, .next, .mapOut]

/-- `STDX_MAP_NEXT(p, X)`, pp_map.hpp:22-24. -/
theorem next_scan {p E : List Tok} (h : Left user p E) (b : Bool) (ho : ∀ n ∈ nextNames, n ∉ outer) (hob : mp b ∉ outer) :
    Scan 𝕄 outer (T (I .next :: .lp :: (p ++ [.comma, I (mp b), .rp]))) (I .next0 :: .lp :: (E ++ [.comma, I (mp b), .comma, .other 0, .rp])) := by
  have hX : ∀ ns, mp b ∉ ns → Scan 𝕄 ns (T [I (mp b)]) [I (mp b)] := fun ns hns => scan_name_nil (mp_table b) hns
  have ic : Inert 𝕄 .comma := trivial
  have il : Inert 𝕄 .lp := trivial
  have ir : Inert 𝕄 .rp := trivial
  have i0 : ∀ k, Inert 𝕄 (.other k) := fun _ => trivial
  have nb : mp b ≠ .next ∧ mp b ≠ .next1 ∧ mp b ≠ .defer := by cases b <;> simp [mp]
  have hE : Ends outer := by
    intro n hn
    simp only [List.mem_cons, List.not_mem_nil, or_false] at hn
    rcases hn with rfl | rfl | rfl | rfl <;> exact ho _ (by simp [nextNames])
  refine Scan.call (n := .next) (k := 2) (args := [p, [I (mp b)]]) (as := [p, [I (mp b)]]) (as' := [p, [I (mp b)]]) (va := []) (va' := [])
    (rest := []) (r' := T p ++ .tok .comma :: (T [I (mp b)] ++ [.tok .rp])) (t := I .next1 :: .lp :: I .getEnd :: (p ++ [.comma, I (mp b), .rp])) rfl
    (ho _ (by simp [nextNames])) (by simp [open_, open_append, op]) (by simp [skip]) (collect2 h.isArg (isArg_name (mp b)) [])
    (by simp [bind]) (.cons (scan_inert h.inert) (.cons (hX _ (by simpa [open_] using hob)) .nil)) Scan.nil rfl ?_
  refine Scan.call (n := .next1) (k := 2) (args := [I .getEnd :: p, [I (mp b)]]) (as := [I .getEnd :: p, [I (mp b)]])
    (as' := [E, [I (mp b)]]) (va := []) (va' := []) (rest := [.done .next])
    (r' := T (I .getEnd :: p) ++ .tok .comma :: (T [I (mp b)] ++ [.tok .rp, .done .next]))
    (t := I .defer :: .lp :: I .next0 :: .rp :: .lp :: (E ++ [.comma, I (mp b), .comma, .other 0, .rp])) rfl (ho _ (by simp [nextNames]))
    (by simp [open_, open_append, op]) (by simp [skip])
    (collect2 (h.isArg.cons (n := .getEnd) (p := false)) (isArg_name (mp b)) [.done .next])
    (by simp [bind])
    (.cons (h.scan _ ?_) (.cons (hX _ (by simp [open_, hob, nb])) .nil)) Scan.nil rfl ?_
  · intro n hn
    have := hE n hn
    simp only [List.mem_cons, List.not_mem_nil, or_false] at hn
    rcases hn with rfl | rfl | rfl | rfl <;> simpa [open_] using this
  · refine Scan.call (n := .defer) (k := 1) (args := [[I .next0]]) (as := [[I .next0]]) (as' := [[I .next0]]) (va := []) (va' := [])
      (rest := .tok .lp :: (T E ++ (T [.comma, I (mp b), .comma, .other 0, .rp] ++ [.done .next1, .done .next])))
      (t := [I .next0, I .empty, .lp, .rp]) (r' := T [I .next0] ++ .tok .rp :: .tok .lp :: (T E ++ (T [.comma, I (mp b), .comma, .other 0, .rp] ++ [.done .next1, .done .next]))) rfl
      (ho _ (by simp [nextNames])) (by simp [open_, open_append, op]) (by simp [skip]) (IsArg.last (isArg_name _) _) (by simp [bind])
      (.cons (scan_name_nil (k := 2) rfl (by simp [open_, open_append, op, ho _ (show Name.next0 ∈ nextNames by simp [nextNames])])) .nil) Scan.nil rfl ?_
    refine Scan.name (n := .next0) (k := 2) rfl (ho _ (by simp [nextNames])) (by simp [open_, open_append, op]) noCall_id ?_
    refine scan_empty (ho _ (by simp [nextNames])) (by simp [open_, open_append, op]) (Scan.done (Scan.inert il ?_))
    refine h.stable _ _ _ hE ?_ noCall_comma ?_
    · intro n hn
      simp only [List.mem_cons, List.not_mem_nil, or_false] at hn
      rcases hn with rfl | rfl | rfl | rfl <;> simp [open_]
    · refine Scan.inert ic (Scan.name (mp_table b) hob (by simp [open_, nb]) noCall_comma ?_)
      exact Scan.inert ic (Scan.inert (i0 0) (Scan.inert ir (Scan.done (Scan.done Scan.nil))))

/-- After the argument `p`, `STDX_MAP_NEXT0` (pp_map.hpp:22) picks `nx`. -/
structure Leads (user : Nat → Option Macro) (b : Bool) (p : List Tok) (nx : Name) : Prop where
  pick : ∃ E args t1 va, Left user p E ∧
    (∀ rest, collect 0 (T E ++ (T [.comma, I (mp b), .comma, .other 0, .rp] ++ rest)) [] = some (args, rest)) ∧
    bind 2 true args = some ([t1, [I nx]], va) ∧
    (∀ ns, Ends ns → mp b ∉ ns → Scan (table user) ns (T t1) t1 ∧ Scan (table user) ns (T va) va)
  nx : nx = mp b ∨ nx = .mapEnd

theorem Peek.leads {p E : List Tok} (h : Peek user p E) (b : Bool) : Leads user b p (mp b) := by
  have i0 : ∀ k, Inert 𝕄 (.other k) := fun _ => trivial
  refine ⟨⟨E, [E, [I (mp b)], [.other 0]], E, [.other 0], h.left, ?_, ?_, ?_⟩, .inl rfl⟩
  · intro rest
    have h0 : IsArg [Tok.other 0] := ⟨balanced_iff.2 rfl, rfl⟩
    have e : T E ++ (T [.comma, I (mp b), .comma, .other 0, .rp] ++ rest) =
        T E ++ .tok .comma :: (T [I (mp b)] ++ .tok .comma :: (T [.other 0] ++ .tok .rp :: rest)) := by simp
    rw [e, h.isArg.next, collect2 (isArg_name _) h0]
    rfl
  · simp [bind, join]
  · intro ns hns _
    have := h.stable (outer := ns) (r := []) (o := []) hns (by intro n _; simp [open_]) noCall_nil Scan.nil
    exact ⟨by simpa using this, Scan.inert (i0 0) Scan.nil⟩

theorem stop_leads {x y : List Tok} (hx : Balanced x) (hy : Balanced y) (hxi : ∀ t ∈ x, Inert 𝕄 t) (hyi : ∀ t ∈ y, Inert 𝕄 t) (b : Bool) :
    Leads user b (stop x y) .mapEnd := by
  have i0 : ∀ k, Inert 𝕄 (.other k) := fun _ => trivial
  have ic : Inert 𝕄 .comma := trivial
  refine ⟨⟨_, [[.other 0], [I .mapEnd], [I (mp b)], [.other 0]], [.other 0], [I (mp b), .comma, .other 0], stop_left hx hy hxi hyi, ?_, ?_, ?_⟩, .inr rfl⟩
  · intro rest
    simp [collect]
  · simp [bind, join]
  · intro ns _ hb
    refine ⟨Scan.inert (i0 0) Scan.nil, Scan.name (mp_table b) hb (by simp [open_]) noCall_comma ?_⟩
    exact Scan.inert ic (Scan.inert (i0 0) Scan.nil)

theorem sent_leads (b : Bool) : Leads user b sent .mapEnd :=
  stop_leads Balanced.nil Balanced.nil (by simp) (by simp) b

theorem table_nx {b : Bool} {nx : Name} (h : nx = mp b ∨ nx = .mapEnd) : ∃ k body, 𝕄 nx = some (.function k true false body) := by
  rcases h with rfl | rfl
  · exact ⟨_, _, mp_table b⟩
  · exact ⟨0, [], rfl⟩

/-- `STDX_DEFER(STDX_MAP_NEXT(p, X))`, pp_map.hpp:17,27-30. -/
theorem link_scan {p : List Tok} {b : Bool} {nx : Name} (h : Leads user b p nx) (ho : ∀ n ∈ nextNames, n ∉ outer) (hob : mp b ∉ outer)
    (hr : ∀ n ∈ nextNames, n ∉ open_ r) (hrb : mp b ∉ open_ r) (hs : Scan 𝕄 outer r o) :
    Scan 𝕄 outer (T (I .defer :: .lp :: I .next :: .lp :: (p ++ [.comma, I (mp b), .rp, .rp])) ++ r) (I nx :: o) := by
  obtain ⟨⟨E, args, t1, va, hl, hc, hb, hts⟩, hnx⟩ := h
  have nb : mp b ≠ .next0 ∧ mp b ≠ .next1 ∧ mp b ≠ .defer := by cases b <;> simp [mp]
  have hE : Ends outer := by
    intro n hn
    simp only [List.mem_cons, List.not_mem_nil, or_false] at hn
    rcases hn with rfl | rfl | rfl | rfl <;> exact ho _ (by simp [nextNames])
  have hrE : Ends (open_ r) := by
    intro n hn
    simp only [List.mem_cons, List.not_mem_nil, or_false] at hn
    rcases hn with rfl | rfl | rfl | rfl <;> exact hr _ (by simp [nextNames])
  obtain ⟨k', body, hM⟩ := table_nx (user := user) hnx
  have hnxo : nx ∉ outer ∧ nx ∉ open_ r ∧ nx ≠ .next0 ∧ nx ≠ .defer := by
    rcases hnx with rfl | rfl
    · exact ⟨hob, hrb, nb.1, nb.2.2⟩
    · exact ⟨hE _ (by simp), hrE _ (by simp), by simp, by simp⟩
  have arg : IsArg (I .next :: .lp :: (p ++ [.comma, I (mp b), .rp])) := by
    have : Balanced (p ++ [.comma, I (mp b)]) := hl.isArg.balanced.append (balanced_iff.2 rfl)
    have := (IsArg.group this).cons (n := .next) (p := false)
    simpa using this
  refine Scan.call (n := .defer) (k := 1) (args := [I .next :: .lp :: (p ++ [.comma, I (mp b), .rp])])
    (as := [I .next :: .lp :: (p ++ [.comma, I (mp b), .rp])]) (as' := [I .next0 :: .lp :: (E ++ [.comma, I (mp b), .comma, .other 0, .rp])])
    (va := []) (va' := []) (rest := r)
    (t := I .next0 :: .lp :: (E ++ [.comma, I (mp b), .comma, .other 0, .rp, I .empty, .lp, .rp]))
    (r' := T (I .next :: .lp :: (p ++ [.comma, I (mp b), .rp])) ++ .tok .rp :: r) rfl (ho _ (by simp [nextNames])) ?_ (by simp [skip])
    (arg.last _) (by simp [bind]) (.cons (next_scan hl b ?_ ?_) .nil) Scan.nil ?_ ?_
  · simpa [open_, open_append, op] using hr _ (by simp [nextNames])
  · intro n hn
    simp [ho n hn, hr n hn]
  · simp [hob, hrb]
  · simp [subst, i, l, PPMap.r]
  have hE' : Ends (open_ (T [I .empty, .lp, .rp] ++ .done .defer :: r) ++ outer) := by
    intro n hn
    have h1 := hE n hn
    have h2 := hrE n hn
    simp only [List.mem_cons, List.not_mem_nil, or_false] at hn
    rcases hn with rfl | rfl | rfl | rfl <;> simp [open_, h1, h2]
  obtain ⟨s1, s2⟩ := hts _ hE' (by simp [open_, hob, hrb, nb])
  have s3 : Scan 𝕄 (open_ (T [I .empty, .lp, .rp] ++ .done .defer :: r) ++ outer) (T [I nx]) [I nx] :=
    scan_name_nil hM (by simp [open_, hnxo])
  refine Scan.call (n := .next0) (k := 2) (args := args) (as := [t1, [I nx]]) (as' := [t1, [I nx]]) (va := va) (va' := va)
    (rest := T [I .empty, .lp, .rp] ++ .done .defer :: r) (t := [I nx, I .mapOut])
    (r' := T E ++ (T [.comma, I (mp b), .comma, .other 0, .rp] ++ (T [I .empty, .lp, .rp] ++ .done .defer :: r))) rfl (ho _ (by simp [nextNames])) ?_ (by simp [skip])
    (hc _) hb (.cons s1 (.cons s3 .nil)) s2 rfl ?_
  · simpa [open_, open_append, op] using hr _ (by simp [nextNames])
  refine Scan.name hM hnxo.1 ?_ noCall_id ?_
  · simp [open_, hnxo]
  refine Scan.object (b := []) rfl (ho _ (by simp [nextNames])) ?_ ?_
  · simpa [open_] using hr _ (by simp [nextNames])
  refine Scan.done (Scan.done ?_)
  refine scan_empty (ho _ (by simp [nextNames])) ?_ (Scan.done hs)
  simpa [open_] using hr _ (by simp [nextNames])

/-- `f` is not the name of a macro without parameters. -/
def Callee (user : Nat → Option Macro) (f : Nat) : Prop := user f = none ∨ ∃ k v vo b, user f = some (.function k v vo b)

/-- Macro replacement of `f ( x )` gives `F x`, whatever is around, which macro replacement then leaves alone. -/
structure Applies (user : Nat → Option Macro) (f : Nat) (F : List Tok → List Tok) (x : List Tok) : Prop where
  app : ∀ outer r o, (∀ u, Name.user u ∉ outer) → (∀ u, Name.user u ∉ open_ r) → Scan (table user) outer r o →
    Scan (table user) outer (T (I (.user f) :: .lp :: (x ++ [.rp])) ++ r) (F x ++ o)
  inert : ∀ t ∈ F x, Inert (table user) t
  balanced : Balanced (F x)

theorem callee_scan {f : Nat} (hf : Callee user f) (ho : Name.user f ∉ outer) (hr : Name.user f ∉ open_ r) (hn : NoCall r)
    (hs : Scan 𝕄 outer r o) : Scan 𝕄 outer (.tok (I (.user f)) :: r) (I (.user f) :: o) := by
  rcases hf with h | ⟨k, v, vo, b, h⟩
  · exact Scan.inert (by simp [Inert, table, h]) hs
  · exact Scan.name (by simpa [table] using h) ho hr hn hs

/-- One step of the map, pp_map.hpp:27-30. -/
theorem step_scan {f : Nat} {F : List Tok → List Tok} {x p v : List Tok} {b : Bool} {nx : Name} (hf : Callee user f)
    (hF : Applies user f F x) (hx : IsArg x) (hxi : ∀ t ∈ x, Inert 𝕄 t) (hp : Leads user (!b) p nx) (hv : Balanced v)
    (hvi : ∀ t ∈ v, Inert 𝕄 t) (ho : Free 0 outer) (hr : Free 0 (open_ r)) (hs : Scan 𝕄 outer r o) :
    Scan 𝕄 outer (T (I (mp b) :: .lp :: I (.user f) :: .comma :: (x ++ .comma :: (p ++ .comma :: (v ++ [.rp])))) ++ r)
      (.comma :: (F x ++ I nx :: .lp :: I (.user f) :: .comma :: (p ++ .comma :: (v ++ .rp :: o)))) := by
  have ic : Inert 𝕄 .comma := trivial
  have il : Inert 𝕄 .lp := trivial
  have ir : Inert 𝕄 .rp := trivial
  obtain ⟨vs, c1, c2, c3⟩ := collect_all (hv 0) r []
  have hpi : ∀ t ∈ p, Inert 𝕄 t := by obtain ⟨E, _, _, _, h, _⟩ := hp.pick; exact h.inert
  have hpa : IsArg p := by obtain ⟨E, _, _, _, h, _⟩ := hp.pick; exact h.isArg
  have hc : collect 0 (T [I (.user f)] ++ .tok .comma :: (T x ++ .tok .comma :: (T p ++ .tok .comma :: (T v ++ .tok .rp :: r)))) [] =
      some ([I (.user f)] :: x :: p :: vs, r) := by
    rw [(isArg_name _).next, hx.next, hpa.next, c1]; rfl
  have hfree : Free 0 (open_ r ++ outer) := hr.append ho
  refine Scan.call (n := mp b) (k := 3) (args := [I (.user f)] :: x :: p :: vs) (as := [[I (.user f)], x, p]) (as' := [[I (.user f)], x, p])
    (va := v) (va' := v) (rest := r)
    (t := .comma :: (I (.user f) :: .lp :: (x ++ .rp :: (I .defer :: .lp :: I .next :: .lp :: (p ++ .comma :: I (mp !b) :: .rp :: .rp :: .lp ::
      I (.user f) :: .comma :: (p ++ .comma :: (v ++ [.rp])))))))
    (r' := T [I (.user f)] ++ .tok .comma :: (T x ++ .tok .comma :: (T p ++ .tok .comma :: (T v ++ .tok .rp :: r))))
    (mp_table b) (ho _ (by simp [rank_mp])) ?_ (by simp [skip]) hc ?_
    (.cons (callee_scan hf (hfree _ (by simp [rank])) (by simp [open_]) noCall_nil Scan.nil) (.cons (scan_inert hxi) (.cons (scan_inert hpi) .nil)))
    (scan_inert hvi) ?_ ?_
  · simpa [open_, open_append, op] using hr _ (by simp [rank_mp])
  · simp only [List.nil_append] at c3
    simp [bind, c3]
  · simp [subst, i, l, PPMap.k, PPMap.r]
  have base : Scan 𝕄 outer (T (.lp :: I (.user f) :: .comma :: (p ++ .comma :: (v ++ [.rp]))) ++ .done (mp b) :: r)
      (.lp :: I (.user f) :: .comma :: (p ++ .comma :: (v ++ .rp :: o))) := by
    refine Scan.inert il (callee_scan hf (ho _ (by simp [rank])) ?_ noCall_comma (Scan.inert ic ?_))
    · have := hr (.user f) (by simp [rank])
      cases b <;> simp [open_, open_append, op, mp, this]
    · have e : T (p ++ .comma :: (v ++ [.rp])) ++ .done (mp b) :: r = T p ++ (.tok .comma :: (T v ++ .tok .rp :: .done (mp b) :: r)) := by simp
      have := Scan.inerts hpi (Scan.inert ic (Scan.inerts hvi (Scan.inert ir (Scan.done (n := mp b) hs))))
      rw [← e] at this
      exact this
  have opn : ∀ w, open_ (T w ++ .done (mp b) :: r) = mp b :: open_ r := by intro w; simp [open_append, op, open_]
  have rk : ∀ n ∈ nextNames, rank n = 0 := by simp [nextNames, rank]
  have ne : ∀ n ∈ nextNames, n ≠ mp b := by cases b <;> simp [nextNames, mp]
  have lk := link_scan hp (fun n hn => ho n (by simp [rk n hn])) (ho _ (by simp [rank_mp]))
    (fun n hn => by rw [opn]; simp [ne n hn, hr n (by simp [rk n hn])]) (by
      rw [opn]
      have := hr (mp !b) (by simp [rank_mp])
      cases b <;> simp [mp] at this ⊢ <;> exact this) base
  have fin := hF.app outer _ _ (fun u => ho _ (by simp [rank])) (fun u => by
    have := hr (.user u) (by simp [rank])
    cases b <;> simp [open_, open_append, op, mp, this]) lk
  have e : T (.comma :: (I (.user f) :: .lp :: (x ++ .rp :: (I .defer :: .lp :: I .next :: .lp :: (p ++ .comma :: I (mp !b) :: .rp :: .rp :: .lp ::
      I (.user f) :: .comma :: (p ++ .comma :: (v ++ [.rp]))))))) ++ .done (mp b) :: r =
      .tok .comma :: (T (I (.user f) :: .lp :: (x ++ [.rp])) ++ (T (I .defer :: .lp :: I .next :: .lp :: (p ++ [.comma, I (mp !b), .rp, .rp])) ++
      (T (.lp :: I (.user f) :: .comma :: (p ++ .comma :: (v ++ [.rp]))) ++ .done (mp b) :: r))) := by simp
  rw [e]
  exact Scan.inert ic fin

/-- `STDX_MAP_END(...)`, pp_map.hpp:13. -/
theorem end_scan {v : List Tok} {f : Nat} (hf : Callee user f) (hv : Balanced v) (hvi : ∀ t ∈ v, Inert 𝕄 t) (ho : Free 0 outer)
    (hr : Free 0 (open_ r)) (hs : Scan 𝕄 outer r o) :
    Scan 𝕄 outer (T (I .mapEnd :: .lp :: I (.user f) :: .comma :: (v ++ [.rp])) ++ r) o := by
  have ic : Inert 𝕄 .comma := trivial
  refine Scan.callVa (n := .mapEnd) (rest := r) (a := I (.user f) :: .comma :: v) (a' := I (.user f) :: .comma :: v) (t := []) rfl
    (ho _ (by simp [rank])) ?_ (by simp [skip]) (Balanced.cons (by simp) (by simp) (Balanced.cons (by simp) (by simp) hv)) ?_ rfl (Scan.done hs)
  · simpa [open_, open_append, op] using hr _ (by simp [rank])
  · refine callee_scan hf ?_ ?_ noCall_comma (Scan.inert ic (scan_inert hvi))
    · exact (hr.append ho) _ (by simp [rank])
    · simp [open_, op]

end
end Verif.PPMap
