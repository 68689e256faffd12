import Verif.Bitset.Types
import Verif.Bitset.Props

/-!
# Values and bitsets, for every type of word and target (C16)
-/

namespace Verif.Bitset

open Verif.BitOps

/-- **C16, word types.** With words narrower than 64 bits, or of the type `std::uint64_t`, the value
constructor sets exactly the bits of the value. -/
theorem C16_word_type_partial {w : Nat} (hw : StdWidth w) {isU64 : Bool} (hT : isU64 = true ↔ w = 64) {N : Nat} (hN : N ≠ 0) (v : BitVec 64) :
    ∃ s, ofU64As isU64 w N v = .ok s ∧ ∀ i, i < N → get s i = .ok (v.getLsbD i) := by
  obtain ⟨s, e, h⟩ := (C16_bitset_constructors_partial hw N).1 v (Or.inl hN)
  refine ⟨s, ?_, h⟩
  rw [← e, ofU64As, ofU64]
  by_cases hw64 : w = 64
  · rw [if_pos hw64, if_pos (hT.mpr hw64)]
  · rw [if_neg hw64, if_neg (fun h => hw64 (hT.mp h))]

/-- **C16 is false for another 64-bit word type** (`unsigned long long` where `std::uint64_t` is
`unsigned long`): every value but 0 is shifted right by 64, which is undefined. -/
theorem C16_word_type_undefined {N : Nat} (hN : N ≠ 0) {v : BitVec 64} (hv : v ≠ 0#64) :
    ofU64As false 64 N v = .ub := by
  have hp := storageSize_pos (w := 64) (N := N) (by omega) (by omega)
  unfold ofU64As empty
  obtain ⟨n, hn⟩ : ∃ n, storageSize 64 N = n + 1 := ⟨storageSize 64 N - 1, by omega⟩
  rw [hn, List.replicate_succ]
  simp [u64Loop, hv, cshr]

/-- **C16, `to<T>`, every target type.** It compiles exactly if the target is as wide as the capacity and
as a word and, when it is a scoped enumeration, its underlying type is the word type.  The value then
has bit `i` set exactly for the set positions below `N`. -/
theorem C16_to_type {w : Nat} (hw : 0 < w) {N u : Nat} {sameType : Bool} (hsame : sameType = true → u = w) (k : Kind)
    {s : Words w} (hs : s.length = storageSize w N) :
    ((toAs N u sameType k s).isSome ↔ N ≤ u ∧ w ≤ u ∧ (k = .scopedEnum → sameType = true)) ∧
    ∀ x, toAs N u sameType k s = some x →
      ∃ r, x = .ok r ∧ ∀ i, (i < N → get s i = .ok (r.getLsbD i)) ∧ (N ≤ i → r.getLsbD i = false) := by
  constructor
  · unfold toAs to
    cases k <;> cases sameType <;> by_cases h1 : u < N ∨ u < w <;> by_cases h2 : N = 0 <;> simp [h1, h2] <;> omega
  · intro x hx
    unfold toAs at hx
    split at hx
    · cases hx
    · exact C16_bitset_to hw hsame hs hx

/-- **C16 is false for targets narrower than a word, and for scoped enumerations with another
underlying type:** although the target holds all positions, the conversion does not compile.
`to_natural()` does not compile if the words are wider than the smallest type that holds the
capacity. -/
theorem C16_to_type_violated {w : Nat} {s : Words w} :
    (∀ N u, N ≤ u → u < w → ∀ (sameType : Bool) (k : Kind), toAs N u sameType k s = none) ∧
    (∀ N u, N ≤ u → toAs N u false .scopedEnum s = none) ∧
    (∀ N, N ≤ 64 → BitMask.smallestUint N < w → ∀ sameType : Bool, toNatural N sameType s = none) := by
  refine ⟨fun N u _ h sameType k => ?_, fun N u _ => ?_, fun N _ h sameType => ?_⟩
  · unfold toAs to
    simp [h]
  · simp [toAs]
  · unfold toNatural to
    simp [h]

/-- `bitset<8, std::uint16_t>`: the capacity fits an `std::uint8_t`, which is narrower than a word. -/
example : BitMask.smallestUint 8 < 16 ∧ toNatural 8 false ([5#16] : Words 16) = none := by decide
/-- `bitset<11>` (words of 16 bits) and a scoped enumeration with a 32-bit underlying type. -/
example : (11 : Nat) ≤ 32 ∧ toAs 11 32 false .scopedEnum ([5#16] : Words 16) = none ∧
    toAs 11 32 false .unscopedEnum ([5#16] : Words 16) = some (.ok 5#32) := by decide
example : (128 : Nat) ≠ 0 ∧ (5#64 : BitVec 64) ≠ 0#64 := by decide

end Verif.Bitset
