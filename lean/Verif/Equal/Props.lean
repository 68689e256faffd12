import Verif.Equal.Model
import Verif.Bitset.Props
import Verif.Bitset.PropsVisit
import Verif.CxVector.Props

/-!
# Equal bitsets and equal vectors are interchangeable (C136)
-/

namespace Verif.Equal

open Verif.Bitset Verif.BitOps

/-! ## Specification -/

/-- Two programs keep the same number of variables, each a bitset of `N` bits (the array has as many words as `N` bits
need), and `operator==` says that corresponding variables are equal.  Nothing is said about the bits stored at or above
`N`. -/
def Alike {w : Nat} (N : Nat) (vs us : List (Words w)) : Prop :=
  vs.length = us.length ∧ ∀ (d : Nat) (a b : Words w), vs[d]? = some a → us[d]? = some b →
    a.length = (N + w - 1) / w ∧ b.length = (N + w - 1) / w ∧ Bitset.eq N a b = .ok true

/-- The statement names existing variables (there are `k`), positions below `N` and ranges that are not empty; it shifts
left by less than the stored number of bits. -/
def Act.Within (w N k : Nat) : Act → Prop
  | .copy d s | .not d s => d < k ∧ s < k
  | .set d i _ | .reset d i | .flip d i | .get d i => d < k ∧ i < N
  | .setRange d l m _ | .resetRange d l m => d < k ∧ l ≤ m ∧ m < N
  | .setLen d l n _ | .resetLen d l n => d < k ∧ 0 < n ∧ l + n ≤ N ∧ l + n ≤ 2 ^ 32
  | .setAll d | .resetAll d | .flipAll d | .all d | .any d | .none d | .count d | .lowestUnset d | .reduce d => d < k
  | .or d s q | .and d s q | .xor d s q | .sub d s q => d < k ∧ s < k ∧ q < k
  | .shl d n | .shr d n => d < k ∧ (N = 0 ∨ n < (N + w - 1) / w * w)
  | .equal s q => s < k ∧ q < k
  | .to s u same => s < k ∧ (same = true → u = w)
  | .visit s _ => s < k ∧ 0 < N

/-- The statements that look at the bits stored at or above `N`. -/
def Act.looksAbove : Act → Bool
  | .shr _ _ | .lowestUnset _ | .reduce _ => true
  | _ => false

/-! ## Lemmas -/

/-- The same bits below `N`. -/
def Same {w : Nat} (N : Nat) (a b : Words w) : Prop :=
  a.length = storageSize w N ∧ b.length = storageSize w N ∧ ∀ i, i < N → bits a i = bits b i

theorem same_iff {w : Nat} (hw : 0 < w) {N : Nat} {a b : Words w} :
    Same N a b ↔ a.length = (N + w - 1) / w ∧ b.length = (N + w - 1) / w ∧ Bitset.eq N a b = .ok true := by
  have hB := storage_bounds hw N
  constructor
  · rintro ⟨ha, hb, h⟩
    obtain ⟨r, e, hr⟩ := C10_bitset_eq hw ha hb
    refine ⟨ha, hb, ?_⟩
    rw [e, hr.mpr fun i hi => by
      rw [get_bits hw (by rw [ha]; omega), get_bits hw (by rw [hb]; omega), h i hi]]
  · rintro ⟨ha, hb, h⟩
    have ha' : a.length = storageSize w N := ha
    have hb' : b.length = storageSize w N := hb
    obtain ⟨r, e, hr⟩ := C10_bitset_eq hw ha' hb'
    rw [h] at e
    cases e
    refine ⟨ha', hb', fun i hi => ?_⟩
    have := hr.mp rfl i hi
    rw [get_bits hw (by rw [ha']; omega), get_bits hw (by rw [hb']; omega)] at this
    exact Outcome.ok.inj this

/-- Every variable has the same bits below `N`. -/
def AllSame {w : Nat} (N : Nat) (vs us : List (Words w)) : Prop :=
  vs.length = us.length ∧ ∀ (d : Nat) (a b : Words w), vs[d]? = some a → us[d]? = some b → Same N a b

theorem alike_iff {w : Nat} (hw : 0 < w) {N : Nat} {vs us : List (Words w)} : Alike N vs us ↔ AllSame N vs us := by
  unfold Alike AllSame
  simp only [same_iff hw]

theorem AllSame.at {w N : Nat} {vs us : List (Words w)} (h : AllSame N vs us) {d : Nat} (hd : d < vs.length) :
    ∃ a b, arrGet vs d = .ok a ∧ arrGet us d = .ok b ∧ Same N a b := by
  have hd' : d < us.length := h.1 ▸ hd
  exact ⟨vs[d], us[d], by simp [arrGet, hd], by simp [arrGet, hd'], h.2 d _ _ (by simp [hd]) (by simp [hd'])⟩

theorem AllSame.put {w N : Nat} {vs us : List (Words w)} (h : AllSame N vs us) {d : Nat} (hd : d < vs.length)
    {a b : Words w} (hab : Same N a b) :
    arrSet vs d a = .ok (vs.set d a) ∧ arrSet us d b = .ok (us.set d b) ∧ AllSame N (vs.set d a) (us.set d b) := by
  have hd' : d < us.length := h.1 ▸ hd
  refine ⟨by simp [arrSet, hd], by simp [arrSet, hd'], by simp [h.1], ?_⟩
  intro e x y hx hy
  rw [List.getElem?_set] at hx hy
  by_cases hde : d = e
  · subst hde
    simp only [↓reduceIte, hd, hd', Option.some.injEq] at hx hy
    subst hx; subst hy; exact hab
  · simp only [hde, ↓reduceIte] at hx hy
    exact h.2 e x y hx hy

/-- What a statement does to two programs that keep equal variables. -/
def Agree {w : Nat} (N : Nat) (r q : Outcome (List (Words w) × Ans)) (k : Nat) : Prop :=
  ∃ vs us x, r = .ok (vs, x) ∧ q = .ok (us, x) ∧ AllSame N vs us ∧ vs.length = k

theorem change_agree {w N : Nat} {vs us : List (Words w)} (h : AllSame N vs us) {d : Nat} (hd : d < vs.length)
    {f : Words w → Outcome (Words w)}
    (hf : ∀ a b, Same N a b → ∃ a' b', f a = .ok a' ∧ f b = .ok b' ∧ Same N a' b') :
    Agree N (change vs d f) (change us d f) vs.length := by
  obtain ⟨a, b, ea, eb, hab⟩ := h.at hd
  obtain ⟨a', b', fa, fb, hab'⟩ := hf a b hab
  obtain ⟨s1, s2, hs⟩ := h.put hd hab'
  exact ⟨_, _, .nothing, by simp [change, ea, fa, s1], by simp [change, eb, fb, s2], hs, by simp⟩

theorem combine_agree {w N : Nat} {vs us : List (Words w)} (h : AllSame N vs us) {d s q : Nat} (hd : d < vs.length)
    (hs : s < vs.length) (hq : q < vs.length) {f : Words w → Words w → Outcome (Words w)}
    (hf : ∀ a b a2 b2, Same N a b → Same N a2 b2 → ∃ a' b', f a a2 = .ok a' ∧ f b b2 = .ok b' ∧ Same N a' b') :
    Agree N (combine vs d s q f) (combine us d s q f) vs.length := by
  obtain ⟨a, b, ea, eb, hab⟩ := h.at hs
  obtain ⟨a2, b2, ea2, eb2, hab2⟩ := h.at hq
  obtain ⟨a', b', fa, fb, hab'⟩ := hf a b a2 b2 hab hab2
  obtain ⟨s1, s2, hss⟩ := h.put hd hab'
  exact ⟨_, _, .nothing, by simp [combine, ea, ea2, fa, s1], by simp [combine, eb, eb2, fb, s2], hss, by simp⟩

theorem ask_agree {w N : Nat} {vs us : List (Words w)} (h : AllSame N vs us) {s : Nat} (hs : s < vs.length)
    {f g : Words w → Outcome Ans} (hf : ∀ a b, Same N a b → ∃ x, f a = .ok x ∧ g b = .ok x) :
    Agree N (ask vs s f) (ask us s g) vs.length := by
  obtain ⟨a, b, ea, eb, hab⟩ := h.at hs
  obtain ⟨x, fa, fb⟩ := hf a b hab
  exact ⟨vs, us, x, by simp [ask, ea, fa], by simp [ask, eb, fb], h, rfl⟩

theorem Same.gets {w : Nat} (hw : 0 < w) {N : Nat} {a b : Words w} (h : Same N a b) :
    ∀ i, i < N → Bitset.get a i = Bitset.get b i := by
  intro i hi
  have hB := storage_bounds hw N
  rw [get_bits hw (by rw [h.1]; omega), get_bits hw (by rw [h.2.1]; omega), h.2.2 i hi]

theorem lenToMsb_of {l n : Nat} (h0 : 0 < n) (h : l + n ≤ 2 ^ 32) : lenToMsb l n = l + n - 1 := by
  unfold lenToMsb; omega

theorem setRange_same {w : Nat} (hw : 0 < w) {N : Nat} {l m : Nat} (hlm : l ≤ m) (hm : m < N) (v : Bool) {a b : Words w}
    (h : Same N a b) :
    ∃ a' b', Bitset.setRange a l m v = .ok a' ∧ Bitset.setRange b l m v = .ok b' ∧ Same N a' b' := by
  have hB := storage_bounds hw N
  obtain ⟨ha, hb, hab⟩ := h
  obtain ⟨a', ea, la, ba⟩ := setRange_spec hw (s := a) (l := l) (m := m) (Nat.div_le_div_right hlm) (by rw [ha]; omega) v
  obtain ⟨b', eb, lb, bb⟩ := setRange_spec hw (s := b) (l := l) (m := m) (Nat.div_le_div_right hlm) (by rw [hb]; omega) v
  exact ⟨a', b', ea, eb, by rw [la, ha], by rw [lb, hb], fun i hi => by rw [ba, bb, hab i hi]⟩

theorem step_agree {w : Nat} (hw : StdWidth w) {N : Nat} {vs us : List (Words w)} (h : AllSame N vs us) (c : Act)
    (hc : c.Within w N vs.length) (hl : c.looksAbove = false) :
    Agree N (step N vs c) (step N us c) vs.length := by
  have hw0 := StdWidth.pos hw
  have hB := storage_bounds hw0 N
  cases c with
  | copy d s => exact combine_agree h hc.1 hc.2 hc.2 fun a b _ _ hab _ => ⟨a, b, rfl, rfl, hab⟩
  | set d i v =>
    refine change_agree h hc.1 fun a b ⟨ha, hb, hab⟩ => ?_
    have hi := hc.2
    obtain ⟨a', ea, la, ba⟩ := set_spec hw0 (s := a) (i := i) (by rw [ha]; omega) v
    obtain ⟨b', eb, lb, bb⟩ := set_spec hw0 (s := b) (i := i) (by rw [hb]; omega) v
    exact ⟨a', b', ea, eb, by rw [la, ha], by rw [lb, hb], fun j hj => by rw [ba, bb, hab j hj]⟩
  | setRange d l m v => exact change_agree h hc.1 fun a b hab => setRange_same hw0 hc.2.1 hc.2.2 v hab
  | setLen d l n v =>
    obtain ⟨h1, h2, h3, h4⟩ := hc
    refine change_agree h h1 fun a b hab => ?_
    simp only [setLen, lenToMsb_of h2 h4]
    exact setRange_same hw0 (by omega) (by omega) v hab
  | setAll d =>
    refine change_agree h hc fun a b ⟨ha, hb, hab⟩ => ⟨_, _, rfl, rfl, by simp [setAll, ha], by simp [setAll, hb], ?_⟩
    intro i hi
    rw [setAll_bits hw0 (by rw [ha]; omega), setAll_bits hw0 (by rw [hb]; omega)]
  | reset d i =>
    refine change_agree h hc.1 fun a b ⟨ha, hb, hab⟩ => ?_
    have hi := hc.2
    obtain ⟨a', ea, la, ba⟩ := reset_spec hw0 (s := a) (i := i) (by rw [ha]; omega)
    obtain ⟨b', eb, lb, bb⟩ := reset_spec hw0 (s := b) (i := i) (by rw [hb]; omega)
    exact ⟨a', b', ea, eb, by rw [la, ha], by rw [lb, hb], fun j hj => by rw [ba, bb, hab j hj]⟩
  | resetRange d l m => exact change_agree h hc.1 fun a b hab => setRange_same hw0 hc.2.1 hc.2.2 false hab
  | resetLen d l n =>
    obtain ⟨h1, h2, h3, h4⟩ := hc
    refine change_agree h h1 fun a b hab => ?_
    simp only [resetLen, setLen, lenToMsb_of h2 h4]
    exact setRange_same hw0 (by omega) (by omega) false hab
  | resetAll d =>
    refine change_agree h hc fun a b ⟨ha, hb, hab⟩ =>
      ⟨_, _, rfl, rfl, by simp [resetAll, ha], by simp [resetAll, hb], ?_⟩
    intro i hi
    rw [resetAll_bits hw0 (by rw [ha]; omega), resetAll_bits hw0 (by rw [hb]; omega)]
  | flip d i =>
    refine change_agree h hc.1 fun a b ⟨ha, hb, hab⟩ => ?_
    have hi := hc.2
    obtain ⟨a', ea, la, ba⟩ := flip_spec hw0 (s := a) (i := i) (by rw [ha]; omega)
    obtain ⟨b', eb, lb, bb⟩ := flip_spec hw0 (s := b) (i := i) (by rw [hb]; omega)
    exact ⟨a', b', ea, eb, by rw [la, ha], by rw [lb, hb], fun j hj => by rw [ba, bb, hab j hj]⟩
  | flipAll d =>
    refine change_agree h hc fun a b ⟨ha, hb, hab⟩ =>
      ⟨_, _, rfl, rfl, by simp [flipAll, ha], by simp [flipAll, hb], ?_⟩
    intro i hi
    rw [flipAll_bits hw0 (by rw [ha]; omega), flipAll_bits hw0 (by rw [hb]; omega), hab i hi]
  | or d s q =>
    refine combine_agree h hc.1 hc.2.1 hc.2.2 fun a b a2 b2 ⟨ha, hb, hab⟩ ⟨ha2, hb2, hab2⟩ => ?_
    obtain ⟨a', ea, la, ba⟩ := or_spec ha ha2
    obtain ⟨b', eb, lb, bb⟩ := or_spec hb hb2
    exact ⟨a', b', ea, eb, la, lb, fun i hi => by rw [ba, bb, hab i hi, hab2 i hi]⟩
  | and d s q =>
    refine combine_agree h hc.1 hc.2.1 hc.2.2 fun a b a2 b2 ⟨ha, hb, hab⟩ ⟨ha2, hb2, hab2⟩ => ?_
    obtain ⟨a', ea, la, ba⟩ := and_spec ha ha2
    obtain ⟨b', eb, lb, bb⟩ := and_spec hb hb2
    exact ⟨a', b', ea, eb, la, lb, fun i hi => by rw [ba, bb, hab i hi, hab2 i hi]⟩
  | xor d s q =>
    refine combine_agree h hc.1 hc.2.1 hc.2.2 fun a b a2 b2 ⟨ha, hb, hab⟩ ⟨ha2, hb2, hab2⟩ => ?_
    obtain ⟨a', ea, la, ba⟩ := xor_spec ha ha2
    obtain ⟨b', eb, lb, bb⟩ := xor_spec hb hb2
    exact ⟨a', b', ea, eb, la, lb, fun i hi => by rw [ba, bb, hab i hi, hab2 i hi]⟩
  | sub d s q =>
    refine combine_agree h hc.1 hc.2.1 hc.2.2 fun a b a2 b2 ⟨ha, hb, hab⟩ ⟨ha2, hb2, hab2⟩ => ?_
    obtain ⟨a', ea, la, ba⟩ := sub_spec hw0 ha ha2
    obtain ⟨b', eb, lb, bb⟩ := sub_spec hw0 hb hb2
    exact ⟨a', b', ea, eb, la, lb, fun i hi => by rw [ba, bb, hab i hi, hab2 i hi]⟩
  | not d s =>
    refine combine_agree h hc.1 hc.2 hc.2 fun a b _ _ ⟨ha, hb, hab⟩ _ => ?_
    obtain ⟨a', ea, la, ba⟩ := not_spec hw0 ha
    obtain ⟨b', eb, lb, bb⟩ := not_spec hw0 hb
    exact ⟨a', b', ea, eb, la, lb, fun i hi => by rw [ba i (by omega), bb i (by omega), hab i hi]⟩
  | shl d n =>
    refine change_agree h hc.1 fun a b ⟨ha, hb, hab⟩ => ?_
    by_cases hN : N = 0
    · subst hN; exact ⟨a, b, rfl, rfl, ha, hb, hab⟩
    · have hn : n < storageSize w N * w := hc.2.resolve_left hN
      obtain ⟨a', ea, la, ba⟩ := shl_spec hw0 (by omega) ha hn
      obtain ⟨b', eb, lb, bb⟩ := shl_spec hw0 (by omega) hb hn
      exact ⟨a', b', ea, eb, la, lb, fun i hi => by
        rw [ba i (by omega), bb i (by omega), hab (i - n) (by omega)]⟩
  | shr d n => cases hl
  | get s i =>
    refine ask_agree h hc.1 fun a b hab => ?_
    have := hab.gets hw0 i hc.2
    refine ⟨.bool (bits a i), ?_, ?_⟩
    · rw [get_bits hw0 (by rw [hab.1]; have := hc.2; omega)]; rfl
    · rw [← this, get_bits hw0 (by rw [hab.1]; have := hc.2; omega)]; rfl
  | all s =>
    refine ask_agree h hc fun a b hab => ?_
    obtain ⟨r, e1, h1⟩ := (C10_bitset_predicates hw hab.1).1
    obtain ⟨q, e2, h2⟩ := (C10_bitset_predicates hw hab.2.1).1
    have : r = q := by
      rw [Bool.eq_iff_iff, h1, h2]
      exact ⟨fun h i hi => (hab.gets hw0 i hi) ▸ h i hi, fun h i hi => (hab.gets hw0 i hi) ▸ h i hi⟩
    exact ⟨.bool r, by rw [e1]; rfl, by rw [e2, this]; rfl⟩
  | any s =>
    refine ask_agree h hc fun a b hab => ?_
    obtain ⟨r, e1, h1⟩ := (C10_bitset_predicates hw hab.1).2.1
    obtain ⟨q, e2, h2⟩ := (C10_bitset_predicates hw hab.2.1).2.1
    have : r = q := by
      rw [Bool.eq_iff_iff, h1, h2]
      exact ⟨fun ⟨i, hi, h⟩ => ⟨i, hi, (hab.gets hw0 i hi) ▸ h⟩, fun ⟨i, hi, h⟩ => ⟨i, hi, (hab.gets hw0 i hi) ▸ h⟩⟩
    exact ⟨.bool r, by rw [e1]; rfl, by rw [e2, this]; rfl⟩
  | none s =>
    refine ask_agree h hc fun a b hab => ?_
    obtain ⟨r, e1, h1⟩ := (C10_bitset_predicates hw hab.1).2.2
    obtain ⟨q, e2, h2⟩ := (C10_bitset_predicates hw hab.2.1).2.2
    have : r = q := by
      rw [Bool.eq_iff_iff, h1, h2]
      exact ⟨fun h i hi => (hab.gets hw0 i hi) ▸ h i hi, fun h i hi => (hab.gets hw0 i hi) ▸ h i hi⟩
    exact ⟨.bool r, by rw [e1]; rfl, by rw [e2, this]; rfl⟩
  | count s =>
    refine ask_agree h hc fun a b hab => ?_
    have := (C10_bitset_unused_bits_invisible hw hab.1 hab.2.1 (hab.gets hw0)).2
    rw [← this, C10_bitset_count hw hab.1]
    exact ⟨_, rfl, rfl⟩
  | equal s q =>
    obtain ⟨a2, b2, ea2, eb2, hab2⟩ := h.at hc.2
    refine ask_agree h hc.1 fun a b hab => ?_
    obtain ⟨r, e1, h1⟩ := C10_bitset_eq hw0 hab.1 hab2.1
    obtain ⟨q, e2, h2⟩ := C10_bitset_eq hw0 hab.2.1 hab2.2.1
    have : r = q := by
      rw [Bool.eq_iff_iff, h1, h2]
      constructor
      · intro h i hi; rw [← hab.gets hw0 i hi, ← hab2.gets hw0 i hi]; exact h i hi
      · intro h i hi; rw [hab.gets hw0 i hi, hab2.gets hw0 i hi]; exact h i hi
    exact ⟨.bool r, by rw [ea2, Outcome.ok_bind, e1]; rfl, by rw [eb2, Outcome.ok_bind, e2, this]; rfl⟩
  | «to» s u same =>
    refine ask_agree h hc.1 fun a b hab => ?_
    cases e : Bitset.to N u same a with
    | none =>
      have e2 : Bitset.to N u same b = none := by
        unfold Bitset.to at e ⊢
        split at e
        · rename_i h1; rw [if_pos h1]
        · split at e <;> cases e
      exact ⟨.rejected, rfl, by rw [e2]⟩
    | some x =>
      obtain ⟨y, e2⟩ : ∃ y, Bitset.to N u same b = some y := by
        cases e2 : Bitset.to N u same b with
        | some y => exact ⟨y, rfl⟩
        | none =>
          exfalso
          unfold Bitset.to at e e2
          split at e
          · cases e
          · rename_i h1
            rw [if_neg h1] at e2
            split at e2 <;> cases e2
      obtain ⟨r, rfl, hr⟩ := C16_bitset_to hw0 hc.2 hab.1 e
      obtain ⟨q, rfl, hq⟩ := C16_bitset_to hw0 hc.2 hab.2.1 e2
      have : r = q := by
        apply BitVec.eq_of_getLsbD_eq
        intro i _
        by_cases hi : i < N
        · have h1 := (hr i).1 hi
          rw [hab.gets hw0 i hi, (hq i).1 hi] at h1
          exact (Outcome.ok.inj h1).symm
        · rw [(hr i).2 (by omega), (hq i).2 (by omega)]
      exact ⟨.num r.toNat, rfl, by rw [e2, this]; rfl⟩
  | visit s sp =>
    refine ask_agree h hc.1 fun a b hab => ?_
    obtain ⟨p, hp, e1⟩ := C11_bitset_for_each_partial hw hc.2 hab.1 sp (fun l c => l ++ [c]) []
    obtain ⟨q, hq, e2⟩ := C11_bitset_for_each_partial hw hc.2 hab.2.1 sp (fun l c => l ++ [c]) []
    have : sp.calls N p = sp.calls N q := calls_congr sp fun i hi => by
      have := hp i hi
      rw [hab.gets hw0 i hi, hq i hi] at this
      exact (Outcome.ok.inj this).symm
    rw [e1, e2, this]
    exact ⟨_, rfl, rfl⟩
  | lowestUnset s => cases hl
  | reduce s => cases hl

/-! ## Theorems: bitsets -/

/-- **C136, bitsets, partial.** Two programs with any number of variables that run the same statements, of any number, on
variables that compare equal, are told the same at every statement and end with variables that compare equal — whatever
the storage holds at or above `N`, and without undefined behaviour — provided the statements do not shift to the right
and do not call `lowest_unset` or `transform_reduce`. -/
theorem C136_equal_bitsets_partial {w : Nat} (hw : StdWidth w) (N : Nat) (cs : List Act) (vs us : List (Words w))
    (h : Alike N vs us) (hc : ∀ c ∈ cs, c.Within w N vs.length) (hl : ∀ c ∈ cs, c.looksAbove = false) :
    ∃ xs vs' us', run N cs vs = .ok (vs', xs) ∧ run N cs us = .ok (us', xs) ∧ Alike N vs' us' ∧
      vs'.length = vs.length ∧ xs.length = cs.length := by
  simp only [alike_iff (StdWidth.pos hw)] at h ⊢
  induction cs generalizing vs us with
  | nil => exact ⟨[], vs, us, rfl, rfl, h, rfl, rfl⟩
  | cons c cs ih =>
    obtain ⟨vs1, us1, x, e1, e2, h1, hlen⟩ := step_agree hw h c (hc c (by simp)) (hl c (by simp))
    obtain ⟨xs, vs', us', r1, r2, h2, hlen2, hx⟩ := ih vs1 us1
      (fun c' hc' => by rw [hlen]; exact hc c' (by simp [hc'])) (fun c' hc' => hl c' (by simp [hc'])) h1
    exact ⟨x :: xs, vs', us', by simp [run, e1, r1], by simp [run, e2, r2], h2, by rw [hlen2, hlen], by simp [hx]⟩

/-- **C136, capacities that fill whole words.** Every program, with right shifts, `lowest_unset` and `transform_reduce`
and whatever its arguments, does the same on variables that compare equal. -/
theorem C136_equal_bitsets_whole_words {w : Nat} (hw : StdWidth w) (N : Nat) (hN : N % w = 0) (cs : List Act)
    (vs us : List (Words w)) (h : Alike N vs us) : run N cs vs = run N cs us := by
  have hw0 := StdWidth.pos hw
  have hM : storageSize w N * w = N := whole_words hw0 hN
  rw [alike_iff hw0] at h
  have : vs = us := by
    apply List.ext_getElem h.1
    intro d h1 h2
    obtain ⟨ha, hb, hab⟩ := h.2 d vs[d] us[d] (by simp [h1]) (by simp [h2])
    apply List.ext_getElem (by rw [ha, hb])
    intro j j1 j2
    apply BitVec.eq_of_getLsbD_eq
    intro k hk
    have hjk : j * w + k < N := by
      rw [← hM, pos_lt_iff hk, ← ha]; exact j1
    have := hab (j * w + k) hjk
    rw [bits_mk hk, bits_mk hk] at this
    simpa [wd, j1, j2] using this
  rw [this]

theorem all_reachable {w : Nat} (hw : StdWidth w) (N : Nat) (h : N % w ≠ 0) :
    ∃ s t : Words w, (Expr.setAll .empty).run w N = .ok s ∧ Expr.allBits.run w N = .ok t ∧
      s.length = storageSize w N ∧ t.length = storageSize w N ∧ Alike N [s] [t] ∧ N < storageSize w N * w ∧
      (∀ i, i < storageSize w N * w → bits s i = true) ∧
      (∀ i, i < storageSize w N * w → bits t i = decide (i < N)) := by
  have hw0 := StdWidth.pos hw
  have hB := storage_bounds hw0 N
  have hlt : N < storageSize w N * w := by
    rcases Nat.lt_or_ge N (storageSize w N * w) with h1 | h1
    · exact h1
    · have : N = w * storageSize w N := by rw [Nat.mul_comm]; omega
      rw [this] at h; simp at h
  obtain ⟨s, es, ls, bs⟩ := C09_bitset_storage_exact hw N (.setAll .empty) trivial
  obtain ⟨t, et, lt, bt⟩ := C09_bitset_storage_exact hw N .allBits trivial
  have hs : ∀ i, i < storageSize w N * w → bits s i = true := fun i hi => by
    rw [bs i hi]; rfl
  have ht : ∀ i, i < storageSize w N * w → bits t i = decide (i < N) := fun i hi => by
    rw [bt i hi]; simp [Expr.stored]
  refine ⟨s, t, es, et, ls, lt, ?_, hlt, hs, ht⟩
  rw [alike_iff hw0]
  refine ⟨rfl, fun d a b ha hb => ?_⟩
  cases d with
  | zero =>
    simp only [List.getElem?_cons_zero, Option.some.injEq] at ha hb
    subst ha; subst hb
    exact ⟨ls, lt, fun i hi => by rw [hs i (by omega), ht i (by omega)]; simp [hi]⟩
  | succ d => simp at ha

/-- **C136 is violated by the right shift**, for every capacity that does not fill whole words: `bitset<N>{}.set()` and
`bitset<N>{all_bits}` compare equal; after shifting both by one they differ (in the last position). -/
theorem C136_equal_bitsets_shift_violated {w : Nat} (hw : StdWidth w) (N : Nat) (h : N % w ≠ 0) :
    ∃ s t : Words w, (Expr.setAll .empty).run w N = .ok s ∧ Expr.allBits.run w N = .ok t ∧ Alike N [s] [t] ∧
      (Act.shr 0 1).Within w N 1 ∧ ∃ s' t', run N [.shr 0 1] [s] = .ok ([s'], [.nothing]) ∧
        run N [.shr 0 1] [t] = .ok ([t'], [.nothing]) ∧ Bitset.eq N s' t' = .ok false ∧
        Bitset.get s' (N - 1) = .ok true ∧ Bitset.get t' (N - 1) = .ok false := by
  have hw0 := StdWidth.pos hw
  obtain ⟨s, t, es, et, ls, lt, hal, hlt, bs, bt⟩ := all_reachable hw N h
  have hN : 0 < N := by
    rcases Nat.eq_zero_or_pos N with h0 | h0
    · rw [h0] at h; simp at h
    · exact h0
  obtain ⟨s', e1, l1, b1⟩ := shr_spec hw0 (n := 1) hN ls (by omega)
  obtain ⟨t', e2, l2, b2⟩ := shr_spec hw0 (n := 1) hN lt (by omega)
  have g1 : Bitset.get s' (N - 1) = .ok true := by
    rw [get_bits hw0 (by rw [l1]; omega), b1, Nat.sub_add_cancel hN, bs N hlt]
  have g2 : Bitset.get t' (N - 1) = .ok false := by
    rw [get_bits hw0 (by rw [l2]; omega), b2, Nat.sub_add_cancel hN, bt N hlt]; simp
  have hM : 1 < (N + w - 1) / w * w := by
    have : N < (N + w - 1) / w * w := hlt
    omega
  refine ⟨s, t, es, et, hal, ⟨by omega, Or.inr hM⟩, s', t', ?_, ?_, ?_, g1, g2⟩
  · simp [run, step, change, arrGet, arrSet, e1]
  · simp [run, step, change, arrGet, arrSet, e2]
  · obtain ⟨r, e, hr⟩ := C10_bitset_eq hw0 l1 l2
    rw [e]
    cases r with
    | false => rfl
    | true =>
      have := hr.mp rfl (N - 1) (by omega)
      rw [g1, g2] at this
      cases this

/-- **C136 is violated by `lowest_unset` and `transform_reduce`**, for every capacity that does not fill whole words, on
the same two bitsets: the one made with `set()` gives a position above `N`, and hands a position at or above `N` to the
function of `transform_reduce`. -/
theorem C136_equal_bitsets_above_violated {w : Nat} (hw : StdWidth w) (N : Nat) (h : N % w ≠ 0) :
    ∃ s t : Words w, (Expr.setAll .empty).run w N = .ok s ∧ Expr.allBits.run w N = .ok t ∧ Alike N [s] [t] ∧
      ∃ k l, run N [.lowestUnset 0, .reduce 0] [s] = .ok ([s], [.num k, .places l]) ∧ N < k ∧ N ∈ l ∧
        run N [.lowestUnset 0, .reduce 0] [t] = .ok ([t], [.num N, .places (List.range N)]) := by
  have hw0 := StdWidth.pos hw
  obtain ⟨s, t, es, et, ls, lt, hal, hlt, bs, bt⟩ := all_reachable hw N h
  obtain ⟨s2, t2, es2, et2, _, ht, k, hk, hNk⟩ := C13_bitset_lowest_unset_violated hw N h
  rw [es] at es2; cases es2
  rw [et] at et2; cases et2
  have foldl_id : ∀ (l acc : List Nat), l.foldl (fun a p => a ++ [p]) acc = acc ++ l := by
    intro l
    induction l with
    | nil => simp
    | cons x l ih => intro acc; simp [ih]
  refine ⟨s, t, es, et, hal, k, (List.range (storageSize w N * w)).filter (bits s), ?_, hNk, ?_, ?_⟩
  · simp [run, step, ask, arrGet, hk, C12_bitset_transform_reduce_stored hw, foldl_id, ls]
  · simp [hlt, bs N hlt]
  · have : (List.range (storageSize w N * w)).filter (bits t) = List.range N := by
      have h1 := positions_extend (m := N) (n := storageSize w N * w) (p := bits t) (by omega)
        (fun i h1 h2 => by rw [bt i h2]; simp; omega)
      unfold positions at h1
      rw [h1, List.filter_eq_self]
      intro i hi
      rw [bt i (by simp at hi; omega)]; simpa using hi
    simp [run, step, ask, arrGet, ht, C12_bitset_transform_reduce_stored hw, foldl_id, lt, this]

example : Alike 10 [[0xff#8, 0xff#8], [0#8, 0xf0#8]] [[0xff#8, 0x03#8], [0#8, 0x0c#8]] ∧
    (∀ c ∈ ([.flipAll 0, .or 0 0 1, .shl 1 3, .visit 0 .unsetBit, .equal 0 1, .to 1 16 false] : List Act),
      c.Within 8 10 2 ∧ c.looksAbove = false) ∧
    run 10 [.flipAll 0, .visit 0 .unsetBit, .equal 0 1, .to 0 16 false] [[0xff#8, 0xff#8], [0#8, 0xf0#8]] =
      .ok ([[0#8, 0#8], [0#8, 0xf0#8]],
        [.nothing, .calls ((List.range 10).map fun i => (i, false)), .bool true, .num 0]) := by
  refine ⟨⟨rfl, ?_⟩, ?_, by decide⟩
  · intro d a b ha hb
    match d with
    | 0 => simp at ha hb; subst ha; subst hb; decide
    | 1 => simp at ha hb; subst ha; subst hb; decide
    | d + 2 => simp at ha
  · simp [Act.Within, Act.looksAbove]

end Verif.Equal

namespace Verif.CxVector

open Verif.Buf

/-! ## Vectors -/

/-- The operation does not hand the whole storage to a function. -/
def Op.within {α : Type} : Op α → Bool
  | .resize _ => false
  | _ => true

theorem post_functional {α : Type} {N : Nat} {l : List α} {o : Op α} (ho : o.within = true) {l1 l2 : List α} {r1 r2 : Out α}
    (h1 : Post N l o l1 r1) (h2 : Post N l o l2 r2) : l1 = l2 ∧ r1 = r2 := by
  cases o with
  | resize f => cases ho
  | popBack =>
    obtain ⟨x, e1, rfl⟩ := h1
    obtain ⟨y, e2, rfl⟩ := h2
    have := List.append_inj' (e1.symm.trans e2) rfl
    exact ⟨this.1, by rw [List.cons.inj this.2 |>.1]⟩
  | _ => simp only [Post] at h1 h2; grind

theorem specRun_functional {α : Type} {N : Nat} {ops : List (Op α)} (ho : ∀ o ∈ ops, o.within = true) :
    ∀ {l l1 l2 : List α} {r1 r2 : List (Out α)}, SpecRun N l ops l1 r1 → SpecRun N l ops l2 r2 → l1 = l2 ∧ r1 = r2 := by
  induction ops with
  | nil => intro l l1 l2 r1 r2 h1 h2; exact ⟨h1.1.trans h2.1.symm, h1.2.trans h2.2.symm⟩
  | cons o os ih =>
    rintro l l1 l2 r1 r2 ⟨m1, x1, s1, p1, q1, rfl⟩ ⟨m2, x2, s2, p2, q2, rfl⟩
    obtain ⟨rfl, rfl⟩ := post_functional (ho o (by simp)) p1 p2
    obtain ⟨rfl, rfl⟩ := ih (fun o' h' => ho o' (by simp [h'])) q1 q2
    exact ⟨rfl, rfl⟩

/-- **C136, vectors, partial.** Two vectors of one type that compare equal (whatever lies in their storage past the
elements) answer alike every admissible history without `resize_and_overwrite`, and end equal. -/
theorem C136_equal_vectors_partial {α : Type} [DecidableEq α] (N : Nat) (hN : N < szMod) (v w : Buf α)
    (hv : v.storage.length = N ∧ v.size ≤ N) (hw : w.storage.length = N ∧ w.size ≤ N)
    (h : eq (fun x y => decide (x ≠ y)) v w = .ok true) (ops : List (Op α))
    (ha : Admissible N (v.storage.take v.size) ops) (ho : ∀ o ∈ ops, o.within = true) :
    ∃ v' w' rs, run N v ops = .ok (v', rs) ∧ run N w ops = .ok (w', rs) ∧ rs.length = ops.length ∧
      eq (fun x y => decide (x ≠ y)) v' w' = .ok true := by
  have rep : ∀ b : Buf α, b.storage.length = N ∧ b.size ≤ N → Rep N b (b.storage.take b.size) := fun b hb =>
    ⟨hb.1, by simp; omega, ⟨b.storage.drop b.size, by simp⟩⟩
  rw [C27_cx_vector_eq N v w _ _ (rep v hv) (rep w hw)] at h
  have hl : v.storage.take v.size = w.storage.take w.size := by simpa using h
  obtain ⟨v', l1, r1, e1, s1, p1⟩ := run_refines hN ops (rep v hv) ha
  obtain ⟨w', l2, r2, e2, s2, p2⟩ := run_refines hN ops (rep w hw) (hl ▸ ha)
  rw [← hl] at s2
  obtain ⟨rfl, rfl⟩ := specRun_functional ho s1 s2
  refine ⟨v', w', r1, e1, e2, ?_, by rw [C27_cx_vector_eq N v' w' _ _ p1 p2]; simp⟩
  clear e1 e2 s2 p1 p2 ha ho
  generalize v.storage.take v.size = l at s1
  induction ops generalizing l r1 with
  | nil => simp [s1.2]
  | cons o os ih =>
    obtain ⟨m, x, xs, _, q, rfl⟩ := s1
    simp [ih _ _ q]

/-- **C136 is violated by `resize_and_overwrite`**, for every capacity and element type with two values: a vector that is
cleared after holding one element and a fresh vector compare equal; raising the size of both to 1 uncovers the element
that the first one still stores, and they differ. -/
theorem C136_equal_vectors_violated {α : Type} [DecidableEq α] (N : Nat) (hN : N < szMod) (h0 : 0 < N) (d x : α)
    (hx : x ≠ d) :
    ∃ v, run N (init N d) [.pushBack x, .clear] = .ok (v, [.val x, .unit]) ∧
      eq (fun x y => decide (x ≠ y)) v (init N d) = .ok true ∧
      ∃ v' w', run N v [.resize fun st => (st, 1)] = .ok (v', [.unit]) ∧
        run N (init N d) [.resize fun st => (st, 1)] = .ok (w', [.unit]) ∧
        eq (fun x y => decide (x ≠ y)) v' w' = .ok false := by
  obtain ⟨n, rfl⟩ : ∃ n, N = n + 1 := ⟨N - 1, by omega⟩
  refine ⟨⟨x :: List.replicate n d, 0⟩, ?_, ?_, ⟨x :: List.replicate n d, 1⟩, ⟨d :: List.replicate n d, 1⟩, ?_, ?_, ?_⟩
  · simp [run, step, append, init, arrSet, szInc, List.replicate_succ]
  · simp [eq, init, eqLoop]
  · simp [run, step, resizeAndOverwrite]
  · simp [run, step, resizeAndOverwrite, init, List.replicate_succ]
  · simp [eq, eqLoop, arrGet, hx]

example : eq (fun x y => decide (x ≠ y)) (⟨[1, 2, 8, 0], 2⟩ : Buf Nat) ⟨[1, 2, 9, 7], 2⟩ = .ok true ∧
    Admissible 4 ((⟨[1, 2, 8, 0], 2⟩ : Buf Nat).storage.take 2) [.pushBack 3, .popBack, .back, .iterate] := by
  refine ⟨by decide, ?_⟩
  simp [Admissible, Pre, Post]
  rintro l' _ x h _ rfl
  simp at h

end Verif.CxVector
