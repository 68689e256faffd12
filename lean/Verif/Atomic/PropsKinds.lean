import Verif.Atomic.Kinds
import Verif.Atomic.Props

/-! # `stdx::atomic` of types that are not integers (C119) -/

namespace Verif.Atomic

open Verif.Conc

/-! ## Specification -/

/-- A storage type the configuration may choose: `T` itself, or for arithmetic and enumeration types an integer type that is as wide. -/
def Storage (T E : Kind) : Prop := E = T ∨ T.numeric = true ∧ ∃ s e, E = .int s e ∧ 1 ≤ T.width ∧ T.width ≤ e

/-- The operations of every `std::atomic<T>`. -/
def Op.basic {w : Nat} : Op w → Prop
  | .load | .store _ | .assign _ | .exchange _ => True
  | _ => False

/-- The value of a variable of type `bool` after an operation: the result of `+` and `-` is an `int`, which converts to true if it is not zero. -/
def Op.afterBool (c : BitVec 1) : Op 1 → BitVec 1
  | .fetchAdd v | .addAssign v => if c = 0#1 ∧ v = 0#1 then 0#1 else 1#1
  | .fetchSub v | .subAssign v => if c = v then 0#1 else 1#1
  | op => op.after c

/-- The history `h` explains the state reached by threads running `progs` from the value `v0`, for a variable that operations change as `after` says:
the value that is read is what the operations give in that order, every result is the value just before or just after, each thread has performed a prefix of its operations and is finished when none is left. -/
structure HistoryK (E T : Kind) (after : Op T.width → BitVec T.width → BitVec T.width) (progs : List (List (Op T.width))) (v0 : BitVec T.width)
    (h : List (Event (Op T.width) (Option (BitVec T.width)))) (s : Sys E.width (List (Option (BitVec T.width)))) : Prop where
  value : E.conv T s.cell = h.foldl (fun c e => after e.op c) v0
  results : ∀ pre e post, h = pre ++ e :: post → e.res =
    e.op.returnsOld.map fun old => if old then pre.foldl (fun c e => after e.op c) v0 else after e.op (pre.foldl (fun c e => after e.op c) v0)
  tids : ∀ e ∈ h, e.tid < progs.length
  threads : ∀ t ops, progs[t]? = some ops → ∃ rest, ops = opsOf h t ++ rest ∧
    (rest ≠ [] → (s.step t).isSome) ∧ (rest = [] ↔ s.threads[t]? = some (.ret (resOf h t)))

/-! ## Proofs -/

theorem conv_self (T : Kind) (v : BitVec T.width) : T.conv T v = v := by simp [Kind.conv]

theorem int_ne_bool (s : Bool) (e : Nat) : Kind.int s e ≠ Kind.bool := by simp

theorem numeric_conv_int {T : Kind} (hn : T.numeric = true) (s : Bool) (e : Nat) (hw1 : 1 ≤ T.width) (hw : T.width ≤ e) (v : BitVec T.width) :
    (Kind.int s e).conv T (T.conv (.int s e) v) = v := by
  by_cases hE : T = .int s e
  · subst hE; rw [conv_self, conv_self]
  · by_cases hb : T = .bool
    · subst hb
      have h1 : 1 ≤ e := hw
      rcases (show v = 0#1 ∨ v = 1#1 by
        have := v.isLt
        rcases Nat.lt_or_ge v.toNat 1 with h | h
        · left; apply BitVec.eq_of_toNat_eq; simpa using h
        · right; apply BitVec.eq_of_toNat_eq
          have : v.toNat < 2 := this
          simp; omega) with rfl | rfl
      · simp [Kind.conv, Kind.signed, Kind.width]
      · have : (BitVec.setWidth e 1#1) ≠ 0#e := by
          intro hc
          have := congrArg BitVec.toNat hc
          rw [BitVec.toNat_setWidth] at this
          simp only [BitVec.toNat_ofNat, Nat.zero_mod] at this
          rw [Nat.mod_eq_of_lt (show 1 % 2 ^ 1 < 2 ^ e from Nat.lt_of_lt_of_le (by decide : 1 % 2 ^ 1 < 2 ^ 1) (Nat.pow_le_pow_right (by decide) h1))] at this
          exact absurd this (by decide)
        simp [Kind.conv, Kind.signed, Kind.width, this]
    · have h1 : (Kind.int s e).conv T = fun x => if s then x.signExtend T.width else x.setWidth T.width := by
        funext x
        unfold Kind.conv
        rw [if_neg (fun h => hE h.symm), if_neg hb]
        cases s <;> rfl
      have h2 : T.conv (.int s e) v = if T.signed then v.signExtend e else v.setWidth e := by
        unfold Kind.conv
        rw [if_neg hE, if_neg (int_ne_bool s e)]
        rfl
      have h3 : ∀ x : BitVec e, (if s then x.signExtend T.width else x.setWidth T.width) = x.setWidth T.width := by
        intro x
        split
        · exact BitVec.signExtend_eq_setWidth_of_le _ hw
        · rfl
      rw [h1, h2]
      exact (h3 _).trans (narrow_widen (C := ⟨T.width, e, T.signed, s⟩) hw v)

theorem Storage.round {T E : Kind} (h : Storage T E) (v : BitVec T.width) : E.conv T (T.conv E v) = v := by
  rcases h with rfl | ⟨hn, s, e, rfl, h1, h2⟩
  · rw [conv_self, conv_self]
  · exact numeric_conv_int hn s e h1 h2 v

theorem Storage.castable {T E : Kind} (h : Storage T E) : T.castable E = true ∧ E.castable T = true := by
  rcases h with rfl | ⟨hn, s, e, rfl, h1, h2⟩
  · simp [Kind.castable]
  · have : (Kind.int s e).numeric = true := rfl
    simp [Kind.castable, hn, this]

/-- Threads whose operations are single updates `f` that an abstraction turns into `after`, as long as the stored word satisfies `I`. -/
theorem lin_abs {L : Kind → Bool} {T E : Kind} {after : Op T.width → BitVec T.width → BitVec T.width} (Legal : Op T.width → Prop)
    (I : BitVec E.width → Prop) (f : Op T.width → BitVec E.width → BitVec E.width)
    (himpl : ∀ op, Legal op → ∃ g : BitVec E.width → Option (BitVec T.width), implD L T E op = .atomically (f op) (fun c => .ret (g c)) ∧ ∀ c, I c →
      g c = op.returnsOld.map fun old => if old then E.conv T c else after op (E.conv T c))
    (hI : ∀ op, Legal op → ∀ c, I c → I (f op c))
    (hf : ∀ op, Legal op → ∀ c, I c → E.conv T (f op c) = after op (E.conv T c))
    {progs : List (List (Op T.width))} (hlegal : ∀ ops ∈ progs, ∀ op ∈ ops, Legal op) {v0 : BitVec T.width} {c0 : BitVec E.width}
    (h0 : E.conv T c0 = v0) (hI0 : I c0) {sched : List Nat} {s : Sys E.width (List (Option (BitVec T.width)))}
    (hr : (start (implD L T E) progs c0).run sched = some s) :
    ∃ h : List (Event (Op T.width) (Option (BitVec T.width))), h.map (·.tid) = sched ∧ HistoryK E T after progs v0 h s := by
  classical
  have hg := fun op (hl : Legal op) => (himpl op hl).choose_spec
  let g : Op T.width → BitVec E.width → Option (BitVec T.width) := fun op => if hl : Legal op then (himpl op hl).choose else fun _ => none
  have hgd : ∀ op (hl : Legal op), g op = (himpl op hl).choose := fun op hl => by simp only [g, hl, dite_true]
  have himpl' : ∀ op, Legal op → implD L T E op = .atomically (f op) (fun c => .ret (g op c)) := by
    intro op hl
    rw [hgd op hl]
    exact (hg op hl).1
  obtain ⟨h, h1, hx⟩ := linearizable (g := g) himpl' hlegal hr
  have hall : ∀ e ∈ h, Legal e.op := by
    intro e he
    have ht := hx.tids e he
    obtain ⟨rest, h2, _⟩ := hx.threads e.tid progs[e.tid] (List.getElem?_eq_getElem ht)
    refine hlegal _ (List.getElem_mem ht) e.op ?_
    rw [h2]
    exact List.mem_append_left _ (List.mem_map.mpr ⟨e, List.mem_filter.mpr ⟨he, by simp⟩, rfl⟩)
  have hfold : ∀ (k : List (Event (Op T.width) (Option (BitVec T.width)))), (∀ e ∈ k, Legal e.op) → ∀ (c : BitVec E.width), I c →
      I (k.foldl (fun c e => f e.op c) c) ∧
      E.conv T (k.foldl (fun c e => f e.op c) c) = k.foldl (fun c e => after e.op c) (E.conv T c) := by
    intro k
    induction k with
    | nil => intro _ c hc; exact ⟨hc, rfl⟩
    | cons e k ih =>
      intro hk c hc
      have hle := hk e List.mem_cons_self
      have := ih (fun e' he' => hk e' (List.mem_cons_of_mem _ he')) (f e.op c) (hI _ hle c hc)
      rw [List.foldl_cons, List.foldl_cons, ← hf _ hle c hc]
      exact this
  refine ⟨h, h1, ?_, fun pre e post hs => ?_, hx.tids, fun t ops ht => ?_⟩
  · rw [hx.cell, (hfold h hall c0 hI0).2, h0]
  · have hle : Legal e.op := hall e (by rw [hs]; simp)
    obtain ⟨i1, i2⟩ := hfold pre (fun e' he' => hall e' (by rw [hs]; exact List.mem_append_left _ he')) c0 hI0
    rw [hx.results pre e post hs, hgd _ hle, (hg _ hle).2 _ i1, i2, h0]
  · obtain ⟨rest, h2, h3⟩ := hx.threads t ops ht
    obtain ⟨h4, h5⟩ := can_step (Legal := Legal) himpl' hlegal hx ht
    refine ⟨rest, h2, fun hne => h4 ?_, ?_⟩
    · have := congrArg List.length h2
      rw [List.length_append] at this
      have := List.length_pos_iff.mpr hne
      omega
    · rw [h5]
      constructor
      · rintro rfl; simpa using h2.symm
      · intro h6
        rw [h6] at h2
        simpa using h2

/-- **C119, the operations of every atomic.** Whatever `T` is and whatever type it is stored as, it can be constructed, and `load`, `store` and assignment can be used;
`exchange` exactly if the stored type converts to `T`.  For any number of threads and every schedule they take
effect one after the other, and what is read is the value written last. -/
theorem C119_basic_partial (L : Kind → Bool) (T E : Kind) (hst : Storage T E) (v0 : BitVec T.width) :
    ∃ c0, initK T E v0 = some c0 ∧
      (∀ op : Op T.width, op.basic → ((implK L T E op).isSome ↔ ((∃ v, op = .exchange v) → E.converts T = true))) ∧
      ∀ (progs : List (List (Op T.width))), (∀ ops ∈ progs, ∀ op ∈ ops, op.basic ∧ (implK L T E op).isSome) →
      ∀ (sched : List Nat) (s : Sys E.width (List (Option (BitVec T.width)))),
        (start (implD L T E) progs c0).run sched = some s →
        ∃ h : List (Event (Op T.width) (Option (BitVec T.width))), h.map (·.tid) = sched ∧
          HistoryK E T (fun op c => op.after c) progs v0 h s := by
  obtain ⟨k1, k2⟩ := hst.castable
  refine ⟨T.conv E v0, by simp [initK, k1], ?_, ?_⟩
  · intro op hb
    cases op <;> simp_all [Op.basic, implK]
  · intro progs hp sched s hr
    refine lin_abs (L := L) (fun op => op.basic ∧ (implK L T E op).isSome) (fun _ => True)
      (fun op c => match op with
        | .store v | .assign v | .exchange v => T.conv E v
        | _ => c) ?_ (fun _ _ _ _ => trivial) ?_ hp (hst.round v0) trivial hr
    · rintro op ⟨hb, hi⟩
      cases op <;> simp only [Op.basic] at hb
      case load => exact ⟨fun c => some (E.conv T c), by simp only [implD, implK, k2, Bool.and_true, if_true, Option.getD_some]; rfl, fun c _ => by simp [Op.returnsOld]⟩
      case store v => exact ⟨fun _ => none, by simp only [implD, implK, k1, Bool.and_true, if_true, Option.getD_some]; rfl, fun c _ => by simp [Op.returnsOld]⟩
      case assign v => exact ⟨fun _ => some v, by simp only [implD, implK, k1, Bool.and_true, if_true, Option.getD_some]; rfl, fun c _ => by simp [Op.returnsOld, Op.after]⟩
      case exchange v =>
        have hc : E.converts T = true := by
          simp only [implK] at hi
          split at hi
          · rename_i h; simp only [Bool.and_eq_true] at h; exact h.2
          · simp at hi
        exact ⟨fun c => some (E.conv T c), by simp only [implD, implK, k1, hc, Bool.and_true, if_true, Option.getD_some]; rfl, fun c _ => by simp [Op.returnsOld]⟩
    · rintro op ⟨hb, _⟩ c _
      cases op <;> simp_all [Op.basic, Op.after, hst.round]

/-- **C119 fails for enumerations stored as integers.** `exchange` cannot be used, nor any other operation but `load`, `store` and assignment. -/
theorem C119_enum_violated (L : Kind → Bool) (strict sT sE : Bool) (w e : Nat) :
    ∀ op : Op w, implK L (.enum strict sT w) (.int sE e) op = none ↔ ¬ (op = .load ∨ (∃ v, op = .store v) ∨ ∃ v, op = .assign v) := by
  intro op
  cases op <;> simp [implK, Kind.castable, Kind.converts, Kind.numeric]

/-- **C119 fails for pointers stored as integers.** No operation can be used, and the atomic cannot be constructed from a value. -/
theorem C119_pointer_violated (L : Kind → Bool) (sE : Bool) (w e : Nat) :
    (∀ op : Op w, implK L (.pointer w) (.int sE e) op = none) ∧ ∀ v, initK (.pointer w) (.int sE e) v = none := by
  constructor
  · intro op
    cases op <;> simp [implK, Kind.castable, Kind.converts, Kind.numeric]
  · intro v; simp [initK, Kind.castable, Kind.numeric]

/-- **C119, integers.** Integers stored as integers have all operations, and they are those of C40. -/
theorem C119_integer (L : Kind → Bool) (sT sE : Bool) (w e : Nat) (hw : w ≤ e) (hL : L (.int sE e) = true) :
    ∀ op : Op w, implK L (.int sT w) (.int sE e) op = some (impl ⟨w, e, sT, sE⟩ op) := by
  have hconv : ∀ x : BitVec e, (Kind.int sE e).conv (.int sT w) x = x.setWidth w := by
    intro x
    unfold Kind.conv
    split
    · rfl
    · rw [if_neg (int_ne_bool sT w)]
      split
      · exact BitVec.signExtend_eq_setWidth_of_le _ hw
      · rfl
  have hwide : ∀ v : BitVec w, (Kind.int sT w).conv (.int sE e) v = widen ⟨w, e, sT, sE⟩ v := by
    intro v
    unfold Kind.conv
    split
    · rename_i h
      injection h with h1 h2
      subst h2
      simp [widen, Kind.width]
    · rw [if_neg (int_ne_bool sE e)]; rfl
  have hconvF : (Kind.int sE e).conv (.int sT w) = fun x => x.setWidth w := funext hconv
  have hwideF : (Kind.int sT w).conv (.int sE e) = widen ⟨w, e, sT, sE⟩ := funext hwide
  have c1 : (Kind.int sT w).castable (.int sE e) = true := by simp [Kind.castable, Kind.numeric]
  have c2 : (Kind.int sE e).castable (.int sT w) = true := by simp [Kind.castable, Kind.numeric]
  have c3 : (Kind.int sE e).converts (.int sT w) = true := by simp [Kind.converts]
  have c4 : (Kind.int sT w).promoted.converts (.int sT w) = true := by simp [Kind.converts, Kind.promoted]
  have c5 : (Kind.int sT w).plus = true := rfl
  have c6 : (Kind.int sT w).minus = true := rfl
  intro op
  cases op <;> simp only [implK, c1, c2, c3, c4, c5, c6, hL, Bool.and_true, if_true] <;> first | rfl | (rw [hconvF]; rfl) | (rw [hwideF]; rfl) | (rw [hconvF, hwideF]; rfl)

theorem bit_cases (v : BitVec 1) : v = 0#1 ∨ v = 1#1 := by
  rcases Nat.lt_or_ge v.toNat 1 with h | h
  · left; apply BitVec.eq_of_toNat_eq; simpa using h
  · right; apply BitVec.eq_of_toNat_eq
    have : v.toNat < 2 := v.isLt
    simp; omega

/-- A `bool` as an integer of `e` bits, -/
def toE (sE : Bool) (e : Nat) (v : BitVec 1) : BitVec e := Kind.bool.conv (.int sE e) v
/-- and back. -/
def toB (sE : Bool) (e : Nat) (x : BitVec e) : BitVec 1 := (Kind.int sE e).conv .bool x

/-- **C119, bool.** A `bool` stored as an unsigned or signed integer: without `fetch_add`, `fetch_sub`, `+=` and `-=`, the operations that exist take effect one after the other as those of a `bool`
variable would. (Missing: addition and subtraction, see `C119_bool_violated`.) -/
theorem C119_bool_partial (L : Kind → Bool) (sE : Bool) (e : Nat) (he : 1 ≤ e) (v0 : BitVec 1) :
    ∃ c0, initK .bool (.int sE e) v0 = some c0 ∧
      ∀ (progs : List (List (Op 1))), (∀ ops ∈ progs, ∀ op ∈ ops, (implK L .bool (.int sE e) op).isSome ∧
        ∀ v, op ≠ .fetchAdd v ∧ op ≠ .fetchSub v ∧ op ≠ .addAssign v ∧ op ≠ .subAssign v) →
      ∀ (sched : List Nat) (s : Sys e (List (Option (BitVec 1)))),
        (start (implD L .bool (.int sE e)) progs c0).run sched = some s →
        ∃ h : List (Event (Op 1) (Option (BitVec 1))), h.map (·.tid) = sched ∧
          HistoryK (.int sE e) .bool (fun op c => op.afterBool c) progs v0 h s := by
  have hst : Storage .bool (.int sE e) := .inr ⟨rfl, sE, e, rfl, Nat.le_refl _, he⟩
  obtain ⟨k1, k2⟩ := hst.castable
  have hc : (Kind.int sE e).converts .bool = true := rfl
  have hround := hst.round
  have hz : (BitVec.setWidth e 0#1) = 0#e := by simp
  have ho : (BitVec.setWidth e 1#1) = 1#e := by
    apply BitVec.eq_of_toNat_eq
    rw [BitVec.toNat_setWidth]; simp
  have ht : ∀ v, Kind.bool.conv (.int sE e) v = BitVec.setWidth e v := by
    intro v; simp [Kind.conv, Kind.signed, Kind.width]
  have hne : (1#e) ≠ 0#e := by
    intro hc
    have := congrArg BitVec.toNat hc
    simp only [BitVec.toNat_ofNat, Nat.zero_mod] at this
    rw [Nat.mod_eq_of_lt (Nat.one_lt_two_pow (by omega))] at this
    omega
  have hf : ∀ x : BitVec e, (Kind.int sE e).conv .bool x = if x = 0#e then 0#1 else 1#1 := by
    intro x; unfold Kind.conv; rw [if_neg (int_ne_bool sE e), if_pos rfl]; rfl
  have hSt : ∀ v : BitVec 1, Kind.bool.conv (.int sE e) v = 0#e ∨ Kind.bool.conv (.int sE e) v = 1#e := by
    intro v
    rcases bit_cases v with rfl | rfl
    · left; exact (ht _).trans hz
    · right; exact (ht _).trans ho
  have hAnd : ∀ (v : BitVec 1) (c : BitVec e), c = 0#e ∨ c = 1#e →
      (c &&& toE sE e v = 0#e ∨ c &&& toE sE e v = 1#e) ∧
      toB sE e (c &&& toE sE e v) = toB sE e c &&& v := by
    intro v c hcc
    rw [show toE sE e v = BitVec.setWidth e v from ht v, show ∀ x, toB sE e x = if x = 0#e then 0#1 else 1#1 from hf,
      show ∀ x, toB sE e x = if x = 0#e then 0#1 else 1#1 from hf]
    rcases bit_cases v with rfl | rfl <;> rcases hcc with rfl | rfl <;> simp [ho, hne]
  have hOr : ∀ (v : BitVec 1) (c : BitVec e), c = 0#e ∨ c = 1#e →
      (c ||| toE sE e v = 0#e ∨ c ||| toE sE e v = 1#e) ∧
      toB sE e (c ||| toE sE e v) = toB sE e c ||| v := by
    intro v c hcc
    rw [show toE sE e v = BitVec.setWidth e v from ht v, show ∀ x, toB sE e x = if x = 0#e then 0#1 else 1#1 from hf,
      show ∀ x, toB sE e x = if x = 0#e then 0#1 else 1#1 from hf]
    rcases bit_cases v with rfl | rfl <;> rcases hcc with rfl | rfl <;> simp [ho, hne]
  have hXor : ∀ (v : BitVec 1) (c : BitVec e), c = 0#e ∨ c = 1#e →
      (c ^^^ toE sE e v = 0#e ∨ c ^^^ toE sE e v = 1#e) ∧
      toB sE e (c ^^^ toE sE e v) = toB sE e c ^^^ v := by
    intro v c hcc
    rw [show toE sE e v = BitVec.setWidth e v from ht v, show ∀ x, toB sE e x = if x = 0#e then 0#1 else 1#1 from hf,
      show ∀ x, toB sE e x = if x = 0#e then 0#1 else 1#1 from hf]
    rcases bit_cases v with rfl | rfl <;> rcases hcc with rfl | rfl <;> simp [ho, hne]
  refine ⟨Kind.bool.conv (.int sE e) v0, by simp [initK, k1], ?_⟩
  intro progs hp sched s hr
  refine lin_abs (L := L) (T := .bool) (E := .int sE e) (after := fun op c => Op.afterBool c op) (fun op => (implK L .bool (.int sE e) op).isSome ∧
        ∀ v, op ≠ .fetchAdd v ∧ op ≠ .fetchSub v ∧ op ≠ .addAssign v ∧ op ≠ .subAssign v) (fun c => c = 0#e ∨ c = 1#e)
      (fun op c => match op with
        | .store v | .assign v | .exchange v => Kind.bool.conv (.int sE e) v
        | .fetchAnd v | .andAssign v => c &&& Kind.bool.conv (.int sE e) v
        | .fetchOr v | .orAssign v => c ||| Kind.bool.conv (.int sE e) v
        | .fetchXor v | .xorAssign v => c ^^^ Kind.bool.conv (.int sE e) v
        | _ => c) ?_ ?_ ?_ hp (hst.round v0) ?_ hr
  · rintro op ⟨hi, hno⟩
    have hL : ∀ b : Bool, (if b = true then some () else none).isSome = true → b = true := by decide
    cases op
    case load => exact ⟨fun c => some ((Kind.int sE e).conv .bool c), by simp only [implD, implK, k2, Bool.and_true, if_true, Option.getD_some]; rfl, fun c _ => by simp [Op.returnsOld]⟩
    case store v => exact ⟨fun _ => none, by simp only [implD, implK, k1, Bool.and_true, if_true, Option.getD_some]; rfl, fun c _ => by simp [Op.returnsOld]⟩
    case assign v => exact ⟨fun _ => some v, by simp only [implD, implK, k1, Bool.and_true, if_true, Option.getD_some]; rfl, fun c _ => by simp [Op.returnsOld, Op.afterBool, Op.after]⟩
    case exchange v => exact ⟨fun c => some ((Kind.int sE e).conv .bool c), by simp only [implD, implK, k1, hc, Bool.and_true, if_true, Option.getD_some]; rfl, fun c _ => by simp [Op.returnsOld]⟩
    case fetchAdd v => exact absurd rfl (hno v).1
    case fetchSub v => exact absurd rfl (hno v).2.1
    case addAssign v => exact absurd rfl (hno v).2.2.1
    case subAssign v => exact absurd rfl (hno v).2.2.2
    case preInc => simp [implK] at hi
    case postInc => simp [implK] at hi
    case preDec => simp [implK] at hi
    case postDec => simp [implK] at hi
    case fetchAnd v =>
      have hl : L (.int sE e) = true := by by_contra h; simp [implK, h] at hi
      exact ⟨fun c => some ((Kind.int sE e).conv .bool c), by simp only [implD, implK, k1, hc, hl, Kind.plus, Bool.and_true, if_true, Option.getD_some]; rfl, fun c _ => by simp [Op.returnsOld]⟩
    case fetchOr v =>
      have hl : L (.int sE e) = true := by by_contra h; simp [implK, h] at hi
      exact ⟨fun c => some ((Kind.int sE e).conv .bool c), by simp only [implD, implK, k1, hc, hl, Kind.plus, Bool.and_true, if_true, Option.getD_some]; rfl, fun c _ => by simp [Op.returnsOld]⟩
    case fetchXor v =>
      have hl : L (.int sE e) = true := by by_contra h; simp [implK, h] at hi
      exact ⟨fun c => some ((Kind.int sE e).conv .bool c), by simp only [implD, implK, k1, hc, hl, Kind.plus, Bool.and_true, if_true, Option.getD_some]; rfl, fun c _ => by simp [Op.returnsOld]⟩
    case andAssign v =>
      have hl : L (.int sE e) = true := by by_contra h; simp [implK, h] at hi
      exact ⟨fun c => some ((Kind.int sE e).conv .bool c &&& v), by simp only [implD, implK, k1, hc, hl, Kind.plus, Kind.promoted, show (Kind.int true 32).converts .bool = true from rfl, Bool.and_true, if_true, Option.getD_some]; rfl,
        fun c _ => rfl⟩
    case orAssign v =>
      have hl : L (.int sE e) = true := by by_contra h; simp [implK, h] at hi
      exact ⟨fun c => some ((Kind.int sE e).conv .bool c ||| v), by simp only [implD, implK, k1, hc, hl, Kind.plus, Kind.promoted, show (Kind.int true 32).converts .bool = true from rfl, Bool.and_true, if_true, Option.getD_some]; rfl,
        fun c _ => rfl⟩
    case xorAssign v =>
      have hl : L (.int sE e) = true := by by_contra h; simp [implK, h] at hi
      exact ⟨fun c => some ((Kind.int sE e).conv .bool c ^^^ v), by simp only [implD, implK, k1, hc, hl, Kind.plus, Kind.promoted, show (Kind.int true 32).converts .bool = true from rfl, Bool.and_true, if_true, Option.getD_some]; rfl,
        fun c _ => rfl⟩
  · rintro op ⟨hi, hno⟩ c hcc
    cases op
    case store v => exact hSt v
    case assign v => exact hSt v
    case exchange v => exact hSt v
    case fetchAnd v => exact (hAnd v c hcc).1
    case andAssign v => exact (hAnd v c hcc).1
    case fetchOr v => exact (hOr v c hcc).1
    case orAssign v => exact (hOr v c hcc).1
    case fetchXor v => exact (hXor v c hcc).1
    case xorAssign v => exact (hXor v c hcc).1
    all_goals exact hcc
  · rintro op ⟨hi, hno⟩ c hcc
    cases op
    case load => rfl
    case store v => exact hround v
    case assign v => exact hround v
    case exchange v => exact hround v
    case fetchAnd v => exact (hAnd v c hcc).2
    case andAssign v => exact (hAnd v c hcc).2
    case fetchOr v => exact (hOr v c hcc).2
    case orAssign v => exact (hOr v c hcc).2
    case fetchXor v => exact (hXor v c hcc).2
    case xorAssign v => exact (hXor v c hcc).2
    case fetchAdd v => exact absurd rfl (hno v).1
    case fetchSub v => exact absurd rfl (hno v).2.1
    case addAssign v => exact absurd rfl (hno v).2.2.1
    case subAssign v => exact absurd rfl (hno v).2.2.2
    all_goals simp [implK] at hi
  · exact hSt v0

theorem run_one {w : Nat} {O R : Type} (impl : O → Prog w R) (a : O) {fa : BitVec w → BitVec w} {ga : BitVec w → R}
    (ha : impl a = .atomically fa (fun r => .ret (ga r))) (x : BitVec w) :
    (start impl [[a]] x).run [0] = some ⟨fa x, [.ret [ga x]]⟩ := by
  simp [start, threadProg, ha, Prog.bind, Sys.run, Sys.step]

theorem run_three {w : Nat} {O R : Type} (impl : O → Prog w R) (a b c : O) {fa fb fc : BitVec w → BitVec w} {ga gb gc : BitVec w → R}
    (ha : impl a = .atomically fa (fun r => .ret (ga r))) (hb : impl b = .atomically fb (fun r => .ret (gb r)))
    (hc : impl c = .atomically fc (fun r => .ret (gc r))) (x : BitVec w) :
    (start impl [[a, b, c]] x).run [0, 0, 0] = some ⟨fc (fb (fa x)), [.ret [ga x, gb (fa x), gc (fb (fa x))]]⟩ := by
  simp [start, threadProg, ha, hb, hc, Prog.bind, Sys.run, Sys.step]

/-- **C119 fails for `bool` stored as a wider integer.** One thread adds true to true, which leaves true, and subtracts true: a `bool` variable would be false, but
true is read; and so for exclusive or. -/
theorem C119_bool_violated (L : Kind → Bool) (sE : Bool) (e : Nat) (he : 2 ≤ e) (hL : L (.int sE e) = true) (op : Op 1)
    (hop : op = .fetchSub 1#1 ∨ op = .fetchXor 1#1) :
    ∃ c0 s, initK .bool (.int sE e) 1#1 = some c0 ∧
      (start (implD L .bool (.int sE e)) [[.fetchAdd 1#1, op, .load]] c0).run [0, 0, 0] = some s ∧
      s.threads = [.ret [some 1#1, some 1#1, some 1#1]] ∧
      [Op.fetchAdd 1#1, op].foldl (fun c o => o.afterBool c) 1#1 = 0#1 := by
  have k1 : Kind.bool.castable (.int sE e) = true := rfl
  have k2 : (Kind.int sE e).castable .bool = true := rfl
  have hc : (Kind.int sE e).converts .bool = true := rfl
  have ho : (BitVec.setWidth e 1#1) = 1#e := by
    apply BitVec.eq_of_toNat_eq
    rw [BitVec.toNat_setWidth]; simp
  have ht : toE sE e 1#1 = 1#e := by
    unfold toE Kind.conv; rw [if_neg (by simp), if_neg (int_ne_bool sE e)]; exact ho
  have h4 : 4 ≤ 2 ^ e := Nat.pow_le_pow_right (by decide : 0 < 2) he
  have hf : ∀ x : BitVec e, x ≠ 0#e → toB sE e x = 1#1 := by
    intro x hx; unfold toB Kind.conv; rw [if_neg (int_ne_bool sE e), if_pos rfl]; exact if_neg hx
  have n1 : (1#e).toNat = 1 := by rw [BitVec.toNat_ofNat]; exact Nat.mod_eq_of_lt (by omega)
  have z : (0#e).toNat = 0 := by simp
  have n2 : (1#e + 1#e).toNat = 2 := by rw [BitVec.toNat_add, n1]; exact Nat.mod_eq_of_lt (by omega)
  have n3 : (1#e + 1#e - 1#e) = 1#e := by rw [BitVec.add_sub_cancel]
  have n4 : (1#e + 1#e ^^^ 1#e).toNat = 3 := by rw [BitVec.toNat_xor, n2, n1]; decide
  have m1 : (1#e) ≠ 0#e := fun h => by have := congrArg BitVec.toNat h; rw [n1, z] at this; omega
  have m2 : (1#e + 1#e) ≠ 0#e := fun h => by have := congrArg BitVec.toNat h; rw [n2, z] at this; omega
  have m4 : (1#e + 1#e ^^^ 1#e) ≠ 0#e := fun h => by have := congrArg BitVec.toNat h; rw [n4, z] at this; omega
  have iAdd : implD L .bool (.int sE e) (.fetchAdd 1#1) = .atomically (fun c : BitVec e => c + 1#e) (fun r => .ret (some (toB sE e r))) := by
    simp only [implD, implK, k1, hc, hL, Kind.plus, Bool.and_true, if_true, Option.getD_some]
    rw [← ht]; rfl
  have iSub : implD L .bool (.int sE e) (.fetchSub 1#1) = .atomically (fun c : BitVec e => c - 1#e) (fun r => .ret (some (toB sE e r))) := by
    simp only [implD, implK, k1, hc, hL, Kind.plus, Kind.minus, Bool.and_true, if_true, Option.getD_some]
    rw [← ht]; rfl
  have iXor : implD L .bool (.int sE e) (.fetchXor 1#1) = .atomically (fun c : BitVec e => c ^^^ 1#e) (fun r => .ret (some (toB sE e r))) := by
    simp only [implD, implK, k1, hc, hL, Kind.plus, Bool.and_true, if_true, Option.getD_some]
    rw [← ht]; rfl
  have iLoad : implD L .bool (.int sE e) .load = .atomically id (fun r => .ret (some (toB sE e r))) := by
    simp only [implD, implK, k2, if_true, Option.getD_some]; rfl
  rcases hop with rfl | rfl
  · refine ⟨1#e, ⟨1#e, [.ret [some 1#1, some 1#1, some 1#1]]⟩, ?_, ?_, rfl, by decide⟩
    · simp only [initK, k1, if_true]; exact congrArg some ht
    · have := run_three (implD L .bool (.int sE e)) _ _ _ iAdd iSub iLoad 1#e
      rw [hf _ m1, hf _ m2, n3, hf _ m1] at this
      exact this
  · refine ⟨1#e, ⟨1#e + 1#e ^^^ 1#e, [.ret [some 1#1, some 1#1, some 1#1]]⟩, ?_, ?_, rfl, by decide⟩
    · simp only [initK, k1, if_true]; exact congrArg some ht
    · have := run_three (implD L .bool (.int sE e)) _ _ _ iAdd iXor iLoad 1#e
      rw [hf _ m1, hf _ m2, hf _ m4] at this
      exact this

/-- **C119, bool, results.** What `+=` and `-=` return is right for the value that is read just before, however it is stored. -/
theorem C119_bool_results (L : Kind → Bool) (sE : Bool) (e : Nat) (hL : L (.int sE e) = true) (op : Op 1) (v : BitVec 1)
    (hop : op = .addAssign v ∨ op = .subAssign v) (x : BitVec e) :
    ∃ s, (start (implD L .bool (.int sE e)) [[op]] x).run [0] = some s ∧ s.threads = [.ret [some (op.afterBool ((Kind.int sE e).conv .bool x))]] := by
  have hadd : ∀ a b : BitVec 1, Kind.bool.add a b = .ok ((Op.addAssign b).afterBool a) := by
    intro a b
    rcases bit_cases a with rfl | rfl <;> rcases bit_cases b with rfl | rfl <;> rfl
  have hsub : ∀ a b : BitVec 1, Kind.bool.sub a b = .ok ((Op.subAssign b).afterBool a) := by
    intro a b
    rcases bit_cases a with rfl | rfl <;> rcases bit_cases b with rfl | rfl <;> rfl
  have k1 : Kind.bool.castable (.int sE e) = true := rfl
  have hc : (Kind.int sE e).converts .bool = true := rfl
  have hp : Kind.bool.promoted.converts .bool = true := rfl
  have iAdd : implD L .bool (.int sE e) (.addAssign v) =
      .atomically (fun c : BitVec e => c + toE sE e v) (fun r => .ret (some ((Op.addAssign v).afterBool (toB sE e r)))) := by
    simp only [implD, implK, k1, hc, hp, hL, Kind.plus, Bool.and_true, if_true, Option.getD_some]
    refine congrArg (Prog.atomically _) (funext fun r => ?_)
    show (Prog.ofOutcome (Kind.bool.add (toB sE e r) v)).bind (fun x : BitVec 1 => (Prog.ret (some x) : Prog e (Option (BitVec 1)))) = _
    rw [hadd]; rfl
  have iSub : implD L .bool (.int sE e) (.subAssign v) =
      .atomically (fun c : BitVec e => c - toE sE e v) (fun r => .ret (some ((Op.subAssign v).afterBool (toB sE e r)))) := by
    simp only [implD, implK, k1, hc, hp, hL, Kind.plus, Kind.minus, Bool.and_true, if_true, Option.getD_some]
    refine congrArg (Prog.atomically _) (funext fun r => ?_)
    show (Prog.ofOutcome (Kind.bool.sub (toB sE e r) v)).bind (fun x : BitVec 1 => (Prog.ret (some x) : Prog e (Option (BitVec 1)))) = _
    rw [hsub]; rfl
  rcases hop with rfl | rfl
  · exact ⟨_, run_one _ _ iAdd x, rfl⟩
  · exact ⟨_, run_one _ _ iSub x, rfl⟩

/-- The operations that change the value and return the old one, without subtraction. -/
def Op.fetches {w : Nat} : Op w → Prop
  | .fetchAdd _ | .fetchAnd _ | .fetchOr _ | .fetchXor _ => True
  | _ => False

/-- The compound assignments. -/
def Op.compound {w : Nat} : Op w → Prop
  | .addAssign _ | .subAssign _ | .andAssign _ | .orAssign _ | .xorAssign _ => True
  | _ => False

/-- **C119, values stored as they are.** If the library has arithmetic for `T`, the operations of `atomic<T>` stored as `T` are those of `T`: the
basic ones always; `fetch_add` and the bitwise ones for integers, `bool` and unscoped enumerations, `fetch_sub` also for pointers; compound
assignments for integers and `bool`; increments for integers. -/
theorem C119_same_type (L : Kind → Bool) (T : Kind) (hL : L T = true) :
    ∀ op : Op T.width,
      (op.basic → (implK L T T op).isSome) ∧
      (op.fetches → ((implK L T T op).isSome ↔ (∃ s w, T = .int s w) ∨ T = .bool ∨ ∃ s w, T = .enum false s w)) ∧
      ((∃ v, op = .fetchSub v) → ((implK L T T op).isSome ↔
        (∃ s w, T = .int s w) ∨ T = .bool ∨ (∃ s w, T = .enum false s w) ∨ ∃ w, T = .pointer w)) ∧
      (op.compound → ((implK L T T op).isSome ↔ (∃ s w, T = .int s w) ∨ T = .bool)) ∧
      (op = .preInc ∨ op = .postInc ∨ op = .preDec ∨ op = .postDec → ((implK L T T op).isSome ↔ ∃ s w, T = .int s w)) := by
  intro op
  cases T with
  | enum strict s w => cases strict <;> cases op <;>
      simp_all [implK, Op.basic, Op.fetches, Op.compound, Kind.castable, Kind.converts, Kind.plus, Kind.minus, Kind.promoted]
  | _ => cases op <;>
      simp_all [implK, Op.basic, Op.fetches, Op.compound, Kind.castable, Kind.converts, Kind.plus, Kind.minus, Kind.promoted] <;> rfl

/-! ## Cases that meet the hypotheses -/

/-- `atomic<bool>` and `atomic<E>` as the test configuration stores them; a pointer stored as itself. -/
example : Storage .bool (.int false 32) ∧ Storage (.enum true false 8) (.int false 32) ∧ Storage (.pointer 64) (.pointer 64) :=
  ⟨.inr ⟨rfl, false, 32, rfl, by decide, by decide⟩, .inr ⟨rfl, false, 32, rfl, by decide, by decide⟩, .inl rfl⟩

/-- `exchange` exists for the `bool` and the pointer, not for the enumeration. -/
example : (Kind.int false 32).converts .bool = true ∧ (Kind.pointer 64).converts (.pointer 64) = true ∧
    (Kind.int false 32).converts (.enum true false 8) = false := by decide

/-- Three operations on an `atomic<bool>` stored in 32 bits, by two threads. -/
example : ((start (implD (fun _ => true) .bool (.int false 32)) [[.fetchXor 1#1, .load], [.exchange 1#1]] 1#32).run [0, 1, 0]).map (·.cell) =
    some 1#32 := rfl

/-- A library with arithmetic for every type. -/
example : (fun _ : Kind => true) (.enum false true 8) = true ∧ ((implK (fun _ => true) (.enum false true 8) (.enum false true 8) (.fetchAdd 1#8)).isSome) := ⟨rfl, rfl⟩

end Verif.Atomic
