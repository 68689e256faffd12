import Verif.Endian.Model

namespace Verif.Endian

theorem byteAt_toNat {w : Nat} (x : BitVec w) (k : Nat) :
    (byteAt x k).toNat = x.toNat / 256 ^ k % 256 := by
  rw [byteAt, BitVec.toNat_setWidth, BitVec.toNat_ushiftRight, Nat.shiftRight_eq_div_pow,
    show (256 : Nat) = 2 ^ 8 by rfl, Nat.pow_mul]

theorem natLE_append : ∀ (a b : List (BitVec 8)), natLE (a ++ b) = natLE a + 256 ^ a.length * natLE b
  | [], b => by simp [natLE]
  | x :: a, b => by
    simp only [List.cons_append, natLE, natLE_append a b, List.length_cons, Nat.pow_succ]
    rw [Nat.mul_add, Nat.add_assoc, ← Nat.mul_assoc, Nat.mul_comm 256 (256 ^ _)]

theorem natLE_lt : ∀ (a : List (BitVec 8)), natLE a < 256 ^ a.length
  | [] => by simp [natLE]
  | x :: a => by
    have := natLE_lt a
    have hx : x.toNat < 256 := x.isLt
    simp only [natLE, List.length_cons, Nat.pow_succ]
    omega

theorem natLE_range {w : Nat} (x : BitVec w) : ∀ n, natLE ((List.range n).map (byteAt x)) = x.toNat % 256 ^ n
  | 0 => by simp [natLE, Nat.mod_one]
  | n + 1 => by
    rw [List.range_succ, List.map_append, natLE_append, natLE_range x n]
    simp only [List.length_map, List.length_range, List.map_cons, List.map_nil, natLE, byteAt_toNat]
    rw [Nat.pow_succ, Nat.mod_mul, Nat.mul_zero, Nat.add_zero]

theorem toNat_ofBytesLE {n : Nat} {l : List (BitVec 8)} (h : l.length = n) :
    (ofBytesLE n l).toNat = natLE l := by
  rw [ofBytesLE, BitVec.toNat_ofNat, Nat.mod_eq_of_lt]
  have := natLE_lt l
  rw [h] at this
  rwa [Nat.pow_mul]

theorem byteAt_natLE : ∀ (l : List (BitVec 8)) (k : Nat), k < l.length →
    BitVec.ofNat 8 (natLE l / 256 ^ k % 256) = l.getD k 0
  | [], k, h => by simp at h
  | b :: l, 0, _ => by
    have hb : b.toNat < 256 := b.isLt
    simp only [natLE, Nat.pow_zero, Nat.div_one, List.getD_cons_zero]
    rw [Nat.add_mul_mod_self_left, Nat.mod_eq_of_lt hb]
    simp
  | b :: l, k + 1, h => by
    have hb : b.toNat < 256 := b.isLt
    have := byteAt_natLE l k (by simpa using h)
    simp only [natLE, List.getD_cons_succ]
    rw [← this]
    congr 2
    rw [Nat.pow_succ, Nat.mul_comm (256 ^ k) 256, ← Nat.div_div_eq_div_mul]
    congr 1; omega

theorem bytesLE_length {n : Nat} (x : BitVec (8 * n)) : (bytesLE n x).length = n := by simp [bytesLE]

theorem bytesLE_ofBytesLE {n : Nat} {l : List (BitVec 8)} (h : l.length = n) :
    bytesLE n (ofBytesLE n l) = l := by
  apply List.ext_getElem
  · simp [bytesLE, h]
  · intro k h1 h2
    simp only [bytesLE, List.getElem_map, List.getElem_range]
    apply BitVec.eq_of_toNat_eq
    rw [byteAt_toNat, toNat_ofBytesLE h]
    have := congrArg BitVec.toNat (byteAt_natLE l k h2)
    rw [BitVec.toNat_ofNat, Nat.mod_eq_of_lt (Nat.mod_lt _ (by omega))] at this
    rw [this]; simp [List.getD, h2]

theorem ofBytesLE_bytesLE {n : Nat} (x : BitVec (8 * n)) : ofBytesLE n (bytesLE n x) = x := by
  apply BitVec.eq_of_toNat_eq
  rw [toNat_ofBytesLE (bytesLE_length x), bytesLE, natLE_range, Nat.mod_eq_of_lt]
  have := x.isLt
  rwa [Nat.pow_mul] at this

/-- The sizes of the unsigned integer types. -/
def Std (n : Nat) : Prop := n = 1 ∨ n = 2 ∨ n = 4 ∨ n = 8

theorem bytesLE_byteswap {n : Nat} (h : Std n) (x : BitVec (8 * n)) :
    bytesLE n (byteswap n x) = (bytesLE n x).reverse := by
  rcases h with rfl | h | h | h
  · simp [byteswap, bytesLE, List.range_succ]
  all_goals
    subst h
    simp [byteswap, bswap]
    exact bytesLE_ofBytesLE (by simp [bytesLE])

theorem mem_length (e : Endian) {n : Nat} (x : BitVec (8 * n)) : (mem e n x).length = n := by
  cases e <;> simp [mem, bytesLE]

theorem mem_toBe (e : Endian) {n : Nat} (h : Std n) (x : BitVec (8 * n)) :
    mem e n (toBe e n x) = (bytesLE n x).reverse := by
  cases e
  · simp [mem, toBe, bytesLE_byteswap h]
  · simp [mem, toBe]

theorem mem_toLe (e : Endian) {n : Nat} (h : Std n) (x : BitVec (8 * n)) :
    mem e n (toLe e n x) = bytesLE n x := by
  cases e
  · simp [mem, toLe]
  · simp [mem, toLe, bytesLE_byteswap h]

theorem byteswap_byteswap {n : Nat} (h : Std n) (x : BitVec (8 * n)) :
    byteswap n (byteswap n x) = x := by
  rw [← ofBytesLE_bytesLE (byteswap n (byteswap n x)), bytesLE_byteswap h, bytesLE_byteswap h,
    List.reverse_reverse, ofBytesLE_bytesLE]

theorem byteswap_ofBytesLE {n : Nat} (h : Std n) {l : List (BitVec 8)} (hl : l.length = n) :
    byteswap n (ofBytesLE n l) = ofBytesLE n l.reverse := by
  rw [← ofBytesLE_bytesLE (byteswap n _), bytesLE_byteswap h, bytesLE_ofBytesLE hl]

theorem fromBe_ofMem (e : Endian) {n : Nat} (h : Std n) {l : List (BitVec 8)} (hl : l.length = n) :
    fromBe e n (ofMem e n l) = ofBytesLE n l.reverse := by
  cases e
  · simp [fromBe, ofMem, byteswap_ofBytesLE h hl]
  · simp [fromBe, ofMem]

/-- The base-`B` numeral with the given digits, most significant first. -/
def numeral (B : Nat) (ds : List Nat) : Nat := ds.foldl (fun a d => a * B + d) 0

theorem numeral_from (B : Nat) (ds : List Nat) : ∀ a,
    ds.foldl (fun a d => a * B + d) a = a * B ^ ds.length + numeral B ds := by
  induction ds with
  | nil => intro a; simp [numeral]
  | cons d ds ih =>
    intro a
    simp only [List.foldl_cons, List.length_cons, numeral, Nat.zero_mul, Nat.zero_add]
    rw [ih, ih d, Nat.add_mul, Nat.pow_succ, Nat.mul_comm (B ^ _) B, ← Nat.mul_assoc]; omega

theorem numeral_cons (B d : Nat) (ds : List Nat) :
    numeral B (d :: ds) = d * B ^ ds.length + numeral B ds := by
  rw [numeral, List.foldl_cons, numeral_from]; simp

theorem numeral_append (B : Nat) (xs ys : List Nat) :
    numeral B (xs ++ ys) = numeral B xs * B ^ ys.length + numeral B ys := by
  rw [numeral, List.foldl_append, numeral_from]; rfl

theorem numeral_lt {B : Nat} : ∀ {ds : List Nat}, (∀ d ∈ ds, d < B) → numeral B ds < B ^ ds.length
  | [], _ => by simp [numeral]
  | d :: ds, h => by
    have h1 := numeral_lt (B := B) (ds := ds) (fun x hx => h x (by simp [hx]))
    have h2 : d < B := h d (by simp)
    rw [numeral_cons, List.length_cons, Nat.pow_succ]
    have : (d + 1) * B ^ ds.length ≤ B * B ^ ds.length := Nat.mul_le_mul_right _ h2
    rw [Nat.add_mul] at this
    rw [Nat.mul_comm (B ^ _) B]; omega

/-- Numerals of equal length with digits below the base are equal only if all digits are. -/
theorem numeral_inj {B : Nat} : ∀ {xs ys : List Nat}, xs.length = ys.length →
    (∀ d ∈ xs, d < B) → (∀ d ∈ ys, d < B) → numeral B xs = numeral B ys → xs = ys
  | [], [], _, _, _, _ => rfl
  | x :: xs, y :: ys, hl, h1, h2, h => by
    simp at hl
    have hx := numeral_lt (B := B) (ds := xs) (fun d hd => h1 d (by simp [hd]))
    have hy := numeral_lt (B := B) (ds := ys) (fun d hd => h2 d (by simp [hd]))
    rw [numeral_cons, numeral_cons, hl] at h
    rw [hl] at hx
    have hp : 0 < B ^ ys.length := by omega
    have e1 : x = y := by
      have a1 : (x * B ^ ys.length + numeral B xs) / B ^ ys.length = x := by
        rw [Nat.mul_comm, Nat.mul_add_div hp, Nat.div_eq_of_lt hx]; simp
      have a2 : (y * B ^ ys.length + numeral B ys) / B ^ ys.length = y := by
        rw [Nat.mul_comm, Nat.mul_add_div hp, Nat.div_eq_of_lt hy]; simp
      rw [← a1, h, a2]
    subst e1
    have := numeral_inj hl (fun d hd => h1 d (by simp [hd])) (fun d hd => h2 d (by simp [hd]))
      (Nat.add_left_cancel h)
    rw [this]

/-- Cutting the bytes of a word, most significant first, into equal pieces and reading each piece
gives the digits of the word in the bigger base. -/
theorem chunks_numeral {m : Nat} : ∀ (k : Nat) (l : List (BitVec 8)), l.length = k * m →
    numeral (256 ^ m) ((List.range k).map (fun i => natLE ((l.drop (i * m)).take m).reverse)) =
      natLE l.reverse
  | 0, l, h => by
    have : l = [] := List.length_eq_zero_iff.mp (by simpa using h)
    simp [this, numeral, natLE]
  | k + 1, l, h => by
    rw [List.range_succ_eq_map, List.map_cons, List.map_map, numeral_cons]
    have e : (fun i => natLE ((l.drop (i * m)).take m).reverse) ∘ Nat.succ =
        fun i => natLE (((l.drop m).drop (i * m)).take m).reverse := by
      funext i
      simp only [Function.comp, List.drop_drop]
      congr 4
      rw [Nat.succ_mul]; omega
    have hm : m ≤ l.length := by rw [h, Nat.add_mul]; omega
    rw [e, chunks_numeral k (l.drop m) (by rw [List.length_drop, h, Nat.add_mul]; omega)]
    simp only [Nat.zero_mul, List.drop_zero, List.length_map, List.length_range]
    have : natLE l.reverse = natLE ((l.drop m).reverse ++ (l.take m).reverse) := by
      rw [← List.reverse_append, List.take_append_drop]
    rw [this, natLE_append, List.length_reverse, List.length_drop, h]
    have e2 : (k + 1) * m - m = m * k := by rw [Nat.add_mul, Nat.mul_comm]; omega
    rw [e2, ← Nat.pow_mul, Nat.mul_comm]; omega

end Verif.Endian
