import Verif.Endian.Lemmas

/-!
# Properties of byte order functions and of `bit_pack`/`bit_unpack` (C03, C04)
-/

namespace Verif.Endian

/-- **C04, byteswap.** For the sizes of the unsigned integer types `byteswap` is an involution and
byte `k` of the result is byte `n - 1 - k` of the argument. -/
theorem C04_byteswap {n : Nat} (h : Std n) (x : BitVec (8 * n)) :
    byteswap n (byteswap n x) = x ∧
      ∀ k, k < n → byteAt (byteswap n x) k = byteAt x (n - 1 - k) := by
  refine ⟨byteswap_byteswap h x, fun k hk => ?_⟩
  have := congrArg (fun l => l[k]?) (bytesLE_byteswap h x)
  simp only [bytesLE] at this
  rw [List.getElem?_reverse (by simpa using hk)] at this
  simp [hk, show n - 1 - k < n by omega] at this
  exact this

/-- **C04, storage order.** On either platform, `to_be` puts the most significant byte at the lowest
address and `to_le` the least significant one: the byte at address `k` is byte `n - 1 - k`,
respectively byte `k`, of the number. -/
theorem C04_stored_order (e : Endian) {n : Nat} (h : Std n) (x : BitVec (8 * n)) {k : Nat}
    (hk : k < n) :
    (mem e n (toBe e n x))[k]? = some (byteAt x (n - 1 - k)) ∧
    (mem e n (toLe e n x))[k]? = some (byteAt x k) := by
  constructor
  · rw [mem_toBe e h, List.getElem?_reverse (by simpa [bytesLE] using hk)]
    simp [bytesLE, show n - 1 - k < n by omega]
  · rw [mem_toLe e h]; simp [bytesLE, hk]

/-- **C04, round trip.** -/
theorem C04_round_trip (e : Endian) {n : Nat} (h : Std n) (x : BitVec (8 * n)) :
    fromBe e n (toBe e n x) = x ∧ toBe e n (fromBe e n x) = x ∧
    fromLe e n (toLe e n x) = x ∧ toLe e n (fromLe e n x) = x := by
  cases e <;> simp [fromBe, toBe, fromLe, toLe, byteswap_byteswap h]

/-- Object representations determine the value (so the previous theorems pin down the values). -/
theorem ofMem_mem (e : Endian) {n : Nat} (x : BitVec (8 * n)) : ofMem e n (mem e n x) = x := by
  cases e <;> simp [ofMem, mem, ofBytesLE_bytesLE]

example : Std 4 := by simp [Std]
example : byteswap 4 0x12345678#32 = 0x78563412#32 := by decide
example : mem .little 4 (toBe .little 4 0x12345678#32) = [0x12#8, 0x34#8, 0x56#8, 0x78#8] := by decide

/-! ## `bit_unpack` -/

/-- **C03, unpack.** For element size `m` and `k` elements, on either platform, `bit_unpack` returns
`k` words whose base-`2^(8m)` numeral, most significant first, is the argument.  (The digits of a
numeral are unique, `numeral_inj`, so this determines the result.) -/
theorem C03_unpack_numeral (e : Endian) {m k : Nat} (hm : Std m) (hn : Std (k * m))
    (v : BitVec (8 * (k * m))) :
    (unpack e m k v).length = k ∧
      numeral (2 ^ (8 * m)) ((unpack e m k v).map BitVec.toNat) = v.toNat := by
  refine ⟨by simp [unpack, bitCastArray], ?_⟩
  have e1 : (unpack e m k v).map BitVec.toNat =
      (List.range k).map (fun i =>
        natLE ((((bytesLE (k * m) v).reverse).drop (i * m)).take m).reverse) := by
    simp only [unpack, bitCastArray, List.map_map]
    apply List.map_congr_left
    intro i hi
    have hi : i < k := by simpa using hi
    have hl : (((mem e (k * m) (toBe e (k * m) v)).drop (i * m)).take m).length = m := by
      rw [List.length_take, List.length_drop, mem_length]
      have : (i + 1) * m ≤ k * m := Nat.mul_le_mul_right m hi
      rw [Nat.add_mul] at this
      omega
    simp only [Function.comp]
    rw [fromBe_ofMem e hm hl, toNat_ofBytesLE (by rw [List.length_reverse]; exact hl),
      mem_toBe e hn]
  have hp : 2 ^ (8 * m) = 256 ^ m := by rw [Nat.pow_mul]
  rw [e1, hp, chunks_numeral k _ (by simp [bytesLE]), List.reverse_reverse, bytesLE, natLE_range,
    Nat.mod_eq_of_lt]
  have := v.isLt
  rwa [Nat.pow_mul] at this

/-- The result does not depend on the platform. -/
theorem C03_unpack_endian_independent {m k : Nat} (hm : Std m) (hn : Std (k * m))
    (v : BitVec (8 * (k * m))) : unpack .little m k v = unpack .big m k v := by
  obtain ⟨l1, n1⟩ := C03_unpack_numeral .little hm hn v
  obtain ⟨l2, n2⟩ := C03_unpack_numeral .big hm hn v
  have := numeral_inj (B := 2 ^ (8 * m)) (xs := (unpack .little m k v).map BitVec.toNat)
    (ys := (unpack .big m k v).map BitVec.toNat) (by simp [l1, l2])
    (by intro d hd; simp at hd; obtain ⟨a, _, rfl⟩ := hd; exact a.isLt)
    (by intro d hd; simp at hd; obtain ⟨a, _, rfl⟩ := hd; exact a.isLt) (n1.trans n2.symm)
  exact (List.map_inj_right (f := BitVec.toNat) (fun _ _ h => BitVec.eq_of_toNat_eq h)).mp this

/-! ## `bit_pack` -/

theorem or_shl {a b k : Nat} (hb : b < 2 ^ k) : (a <<< k) ||| b = a * 2 ^ k + b := by
  rw [Nat.shiftLeft_eq, Nat.mul_comm, Nat.two_pow_add_eq_or_of_lt hb]

/-- One step of a packing expression: shift left and or in a smaller part. -/
theorem toNat_or_shl {W k : Nat} (x y : BitVec W) {a : Nat} (hx : x.toNat = a * 2 ^ k)
    (hy : y.toNat < 2 ^ k) : (x ||| y).toNat = a * 2 ^ k + y.toNat := by
  rw [BitVec.toNat_or, hx, Nat.mul_comm, Nat.two_pow_add_eq_or_of_lt hy]

theorem toNat_shl_setWidth {w W k : Nat} (x : BitVec w) (h : w + k ≤ W) :
    (x.setWidth W <<< k).toNat = x.toNat * 2 ^ k := by
  have hx := x.isLt
  have h1 : x.toNat < 2 ^ W := Nat.lt_of_lt_of_le hx (Nat.pow_le_pow_right (by omega) (by omega))
  have h2 : x.toNat * 2 ^ k < 2 ^ W := by
    have : x.toNat * 2 ^ k < 2 ^ w * 2 ^ k := Nat.mul_lt_mul_of_pos_right hx (Nat.two_pow_pos k)
    rw [← Nat.pow_add] at this
    exact Nat.lt_of_lt_of_le this (Nat.pow_le_pow_right (by omega) h)
  rw [BitVec.toNat_shiftLeft, BitVec.toNat_setWidth, Nat.mod_eq_of_lt h1, Nat.shiftLeft_eq,
    Nat.mod_eq_of_lt h2]

theorem toNat_setWidth_of_le {w W : Nat} (x : BitVec w) (h : w ≤ W) :
    (x.setWidth W).toNat = x.toNat := by
  rw [BitVec.toNat_setWidth, Nat.mod_eq_of_lt]
  exact Nat.lt_of_lt_of_le x.isLt (Nat.pow_le_pow_right (by omega) h)

theorem pack16of8_toNat (a b : BitVec 8) :
    (pack16of8 a b).toNat = numeral (2 ^ 8) [a.toNat, b.toNat] := by
  have ha := a.isLt
  have hb := b.isLt
  unfold pack16of8
  rw [BitVec.toNat_setWidth, toNat_or_shl (k := 8) _ _ (toNat_shl_setWidth a (by omega))
    (by rw [toNat_setWidth_of_le b (by omega)]; exact hb), toNat_setWidth_of_le b (by omega)]
  simp only [numeral, List.foldl_cons, List.foldl_nil]
  omega

theorem pack32of16_toNat (a b : BitVec 16) :
    (pack32of16 a b).toNat = numeral (2 ^ 16) [a.toNat, b.toNat] := by
  have hb := b.isLt
  unfold pack32of16
  rw [toNat_or_shl (k := 16) _ _ (toNat_shl_setWidth a (by omega))
    (by rw [toNat_setWidth_of_le b (by omega)]; exact hb), toNat_setWidth_of_le b (by omega)]
  simp only [numeral, List.foldl_cons, List.foldl_nil]
  omega

theorem pack64of32_toNat (a b : BitVec 32) :
    (pack64of32 a b).toNat = numeral (2 ^ 32) [a.toNat, b.toNat] := by
  have hb := b.isLt
  unfold pack64of32
  rw [toNat_or_shl (k := 32) _ _ (toNat_shl_setWidth a (by omega))
    (by rw [toNat_setWidth_of_le b (by omega)]; exact hb), toNat_setWidth_of_le b (by omega)]
  simp only [numeral, List.foldl_cons, List.foldl_nil]
  omega

theorem pack32of8_toNat (a b c d : BitVec 8) :
    (pack32of8 a b c d).toNat = numeral (2 ^ 8) [a.toNat, b.toNat, c.toNat, d.toNat] := by
  have ha := a.isLt
  have hb := b.isLt
  have hc := c.isLt
  have hd := d.isLt
  unfold pack32of8
  have eb := toNat_shl_setWidth (W := 32) (k := 16) b (by omega)
  have ec := toNat_shl_setWidth (W := 32) (k := 8) c (by omega)
  have ed := toNat_setWidth_of_le (W := 32) d (by omega)
  have e1 := toNat_or_shl (k := 24) _ _ (toNat_shl_setWidth (W := 32) a (by omega))
    (show (b.setWidth 32 <<< 16).toNat < 2 ^ 24 by rw [eb]; omega)
  rw [eb] at e1
  have e2 := toNat_or_shl (k := 16) (a := a.toNat * 2 ^ 8 + b.toNat)
    ((a.setWidth 32 <<< 24) ||| (b.setWidth 32 <<< 16)) (c.setWidth 32 <<< 8)
    (by rw [e1]; omega) (by rw [ec]; omega)
  rw [ec] at e2
  have e3 := toNat_or_shl (k := 8) (a := (a.toNat * 2 ^ 8 + b.toNat) * 2 ^ 8 + c.toNat)
    ((a.setWidth 32 <<< 24) ||| (b.setWidth 32 <<< 16) ||| (c.setWidth 32 <<< 8)) (d.setWidth 32)
    (by rw [e2]; omega) (by rw [ed]; omega)
  rw [e3, ed]
  simp only [numeral, List.foldl_cons, List.foldl_nil]
  omega

theorem pack64of16_toNat (a b c d : BitVec 16) :
    (pack64of16 a b c d).toNat = numeral (2 ^ 16) [a.toNat, b.toNat, c.toNat, d.toNat] := by
  have ha := a.isLt
  have hb := b.isLt
  have hc := c.isLt
  have hd := d.isLt
  unfold pack64of16
  have eb := toNat_shl_setWidth (W := 64) (k := 32) b (by omega)
  have ec := toNat_shl_setWidth (W := 64) (k := 16) c (by omega)
  have ed := toNat_setWidth_of_le (W := 64) d (by omega)
  have e1 := toNat_or_shl (k := 48) _ _ (toNat_shl_setWidth (W := 64) a (by omega))
    (show (b.setWidth 64 <<< 32).toNat < 2 ^ 48 by rw [eb]; omega)
  rw [eb] at e1
  have e2 := toNat_or_shl (k := 32) (a := a.toNat * 2 ^ 16 + b.toNat)
    ((a.setWidth 64 <<< 48) ||| (b.setWidth 64 <<< 32)) (c.setWidth 64 <<< 16)
    (by rw [e1]; omega) (by rw [ec]; omega)
  rw [ec] at e2
  have e3 := toNat_or_shl (k := 16) (a := (a.toNat * 2 ^ 16 + b.toNat) * 2 ^ 16 + c.toNat)
    ((a.setWidth 64 <<< 48) ||| (b.setWidth 64 <<< 32) ||| (c.setWidth 64 <<< 16)) (d.setWidth 64)
    (by rw [e2]; omega) (by rw [ed]; omega)
  rw [e3, ed]
  simp only [numeral, List.foldl_cons, List.foldl_nil]
  omega

theorem pack64of8_toNat (a b c d e f g h : BitVec 8) :
    (pack64of8 a b c d e f g h).toNat = numeral (2 ^ 8)
      [a.toNat, b.toNat, c.toNat, d.toNat, e.toNat, f.toNat, g.toNat, h.toNat] := by
  have ha := a.isLt
  have hb := b.isLt
  have hc := c.isLt
  have hd := d.isLt
  have he := e.isLt
  have hf := f.isLt
  have hg := g.isLt
  have hh := h.isLt
  unfold pack64of8
  have s : ∀ (y : BitVec 8) (k : Nat), 8 + k ≤ 64 → (y.setWidth 64 <<< k).toNat = y.toNat * 2 ^ k :=
    fun y k hk => toNat_shl_setWidth y hk
  have eh := toNat_setWidth_of_le (W := 64) h (by omega)
  have e1 := toNat_or_shl (k := 56) _ _ (s a 56 (by omega))
    (show (b.setWidth 64 <<< 48).toNat < 2 ^ 56 by rw [s b 48 (by omega)]; omega)
  rw [s b 48 (by omega)] at e1
  have e2 := toNat_or_shl (k := 48) (a := a.toNat * 2 ^ 8 + b.toNat) _ (c.setWidth 64 <<< 40)
    (by rw [e1]; omega) (by rw [s c 40 (by omega)]; omega)
  rw [s c 40 (by omega)] at e2
  have e3 := toNat_or_shl (k := 40) (a := (a.toNat * 2 ^ 8 + b.toNat) * 2 ^ 8 + c.toNat) _
    (d.setWidth 64 <<< 32) (by rw [e2]; omega) (by rw [s d 32 (by omega)]; omega)
  rw [s d 32 (by omega)] at e3
  have e4 := toNat_or_shl (k := 32)
    (a := ((a.toNat * 2 ^ 8 + b.toNat) * 2 ^ 8 + c.toNat) * 2 ^ 8 + d.toNat) _
    (e.setWidth 64 <<< 24) (by rw [e3]; omega) (by rw [s e 24 (by omega)]; omega)
  rw [s e 24 (by omega)] at e4
  have e5 := toNat_or_shl (k := 24)
    (a := (((a.toNat * 2 ^ 8 + b.toNat) * 2 ^ 8 + c.toNat) * 2 ^ 8 + d.toNat) * 2 ^ 8 + e.toNat) _
    (f.setWidth 64 <<< 16) (by rw [e4]; omega) (by rw [s f 16 (by omega)]; omega)
  rw [s f 16 (by omega)] at e5
  have e6 := toNat_or_shl (k := 16)
    (a := ((((a.toNat * 2 ^ 8 + b.toNat) * 2 ^ 8 + c.toNat) * 2 ^ 8 + d.toNat) * 2 ^ 8 + e.toNat)
      * 2 ^ 8 + f.toNat) _
    (g.setWidth 64 <<< 8) (by rw [e5]; omega) (by rw [s g 8 (by omega)]; omega)
  rw [s g 8 (by omega)] at e6
  have e7 := toNat_or_shl (k := 8)
    (a := (((((a.toNat * 2 ^ 8 + b.toNat) * 2 ^ 8 + c.toNat) * 2 ^ 8 + d.toNat) * 2 ^ 8 + e.toNat)
      * 2 ^ 8 + f.toNat) * 2 ^ 8 + g.toNat) _
    (h.setWidth 64) (by rw [e6]; omega) (by rw [eh]; omega)
  rw [e7, eh]
  simp only [numeral, List.foldl_cons, List.foldl_nil]
  omega

/-- **C03, pack.** In each of the six shapes the packed number is the base-`2^w` numeral of the
arguments, most significant first. -/
theorem C03_pack_numeral :
    (∀ a b, (pack16of8 a b).toNat = numeral (2 ^ 8) ([a, b].map BitVec.toNat)) ∧
    (∀ a b, (pack32of16 a b).toNat = numeral (2 ^ 16) ([a, b].map BitVec.toNat)) ∧
    (∀ a b c d, (pack32of8 a b c d).toNat = numeral (2 ^ 8) ([a, b, c, d].map BitVec.toNat)) ∧
    (∀ a b, (pack64of32 a b).toNat = numeral (2 ^ 32) ([a, b].map BitVec.toNat)) ∧
    (∀ a b c d, (pack64of16 a b c d).toNat = numeral (2 ^ 16) ([a, b, c, d].map BitVec.toNat)) ∧
    (∀ a b c d e f g h, (pack64of8 a b c d e f g h).toNat =
      numeral (2 ^ 8) ([a, b, c, d, e, f, g, h].map BitVec.toNat)) :=
  ⟨pack16of8_toNat, pack32of16_toNat, pack32of8_toNat, pack64of32_toNat, pack64of16_toNat,
    pack64of8_toNat⟩

/-- Unpacking a packed number gives the parts back: any number that is the numeral of `parts`. -/
theorem unpack_of_numeral (e : Endian) {m k : Nat} (hm : Std m) (hn : Std (k * m))
    (v : BitVec (8 * (k * m))) {parts : List (BitVec (8 * m))} (hl : parts.length = k)
    (hv : v.toNat = numeral (2 ^ (8 * m)) (parts.map BitVec.toNat)) : unpack e m k v = parts := by
  obtain ⟨l1, n1⟩ := C03_unpack_numeral e hm hn v
  have := numeral_inj (B := 2 ^ (8 * m)) (xs := (unpack e m k v).map BitVec.toNat)
    (ys := parts.map BitVec.toNat) (by simp [l1, hl])
    (by intro d hd; simp at hd; obtain ⟨a, _, rfl⟩ := hd; exact a.isLt)
    (by intro d hd; simp at hd; obtain ⟨a, _, rfl⟩ := hd; exact a.isLt) (n1.trans hv)
  exact (List.map_inj_right (f := BitVec.toNat) (fun _ _ h => BitVec.eq_of_toNat_eq h)).mp this

/-- **C03, unpack after pack**, all six shapes, both platforms. -/
theorem C03_unpack_pack (e : Endian) :
    (∀ a b : BitVec 8, unpack e 1 2 (pack16of8 a b) = [a, b]) ∧
    (∀ a b : BitVec 16, unpack e 2 2 (pack32of16 a b) = [a, b]) ∧
    (∀ a b c d : BitVec 8, unpack e 1 4 (pack32of8 a b c d) = [a, b, c, d]) ∧
    (∀ a b : BitVec 32, unpack e 4 2 (pack64of32 a b) = [a, b]) ∧
    (∀ a b c d : BitVec 16, unpack e 2 4 (pack64of16 a b c d) = [a, b, c, d]) ∧
    (∀ b0 b1 b2 b3 b4 b5 b6 b7 : BitVec 8,
      unpack e 1 8 (pack64of8 b0 b1 b2 b3 b4 b5 b6 b7) = [b0, b1, b2, b3, b4, b5, b6, b7]) := by
  refine ⟨fun a b => ?_, fun a b => ?_, fun a b c d => ?_, fun a b => ?_, fun a b c d => ?_,
    fun b0 b1 b2 b3 b4 b5 b6 b7 => ?_⟩
  · exact unpack_of_numeral e (m := 1) (k := 2) (by simp [Std]) (by simp [Std]) _ rfl
      (pack16of8_toNat a b)
  · exact unpack_of_numeral e (m := 2) (k := 2) (by simp [Std]) (by simp [Std]) _ rfl
      (pack32of16_toNat a b)
  · exact unpack_of_numeral e (m := 1) (k := 4) (by simp [Std]) (by simp [Std]) _ rfl
      (pack32of8_toNat a b c d)
  · exact unpack_of_numeral e (m := 4) (k := 2) (by simp [Std]) (by simp [Std]) _ rfl
      (pack64of32_toNat a b)
  · exact unpack_of_numeral e (m := 2) (k := 4) (by simp [Std]) (by simp [Std]) _ rfl
      (pack64of16_toNat a b c d)
  · exact unpack_of_numeral e (m := 1) (k := 8) (by simp [Std]) (by simp [Std]) _ rfl
      (pack64of8_toNat b0 b1 b2 b3 b4 b5 b6 b7)

/-- **C03, pack after unpack**, all six shapes, both platforms. -/
theorem C03_pack_unpack (e : Endian) :
    (∀ v : BitVec 16, ∃ a b, unpack e 1 2 v = [a, b] ∧ pack16of8 a b = v) ∧
    (∀ v : BitVec 32, ∃ a b, unpack e 2 2 v = [a, b] ∧ pack32of16 a b = v) ∧
    (∀ v : BitVec 32, ∃ a b c d, unpack e 1 4 v = [a, b, c, d] ∧ pack32of8 a b c d = v) ∧
    (∀ v : BitVec 64, ∃ a b, unpack e 4 2 v = [a, b] ∧ pack64of32 a b = v) ∧
    (∀ v : BitVec 64, ∃ a b c d, unpack e 2 4 v = [a, b, c, d] ∧ pack64of16 a b c d = v) ∧
    (∀ v : BitVec 64, ∃ b0 b1 b2 b3 b4 b5 b6 b7, unpack e 1 8 v = [b0, b1, b2, b3, b4, b5, b6, b7] ∧
      pack64of8 b0 b1 b2 b3 b4 b5 b6 b7 = v) := by
  have len2 : ∀ {α : Type} {l : List α}, l.length = 2 → ∃ a b, l = [a, b] := by
    intro α l h
    match l, h with
    | [a, b], _ => exact ⟨a, b, rfl⟩
  have len4 : ∀ {α : Type} {l : List α}, l.length = 4 → ∃ a b c d, l = [a, b, c, d] := by
    intro α l h
    match l, h with
    | [a, b, c, d], _ => exact ⟨a, b, c, d, rfl⟩
  have len8 : ∀ {α : Type} {l : List α}, l.length = 8 → ∃ b0 b1 b2 b3 b4 b5 b6 b7,
      l = [b0, b1, b2, b3, b4, b5, b6, b7] := by
    intro α l h
    match l, h with
    | [b0, b1, b2, b3, b4, b5, b6, b7], _ => exact ⟨b0, b1, b2, b3, b4, b5, b6, b7, rfl⟩
  refine ⟨fun v => ?_, fun v => ?_, fun v => ?_, fun v => ?_, fun v => ?_, fun v => ?_⟩
  · obtain ⟨l, n⟩ := C03_unpack_numeral e (m := 1) (k := 2) (by simp [Std]) (by simp [Std]) v
    obtain ⟨a, b, h⟩ := len2 l
    rw [h] at n
    exact ⟨a, b, h, BitVec.eq_of_toNat_eq ((pack16of8_toNat a b).trans n)⟩
  · obtain ⟨l, n⟩ := C03_unpack_numeral e (m := 2) (k := 2) (by simp [Std]) (by simp [Std]) v
    obtain ⟨a, b, h⟩ := len2 l
    rw [h] at n
    exact ⟨a, b, h, BitVec.eq_of_toNat_eq ((pack32of16_toNat a b).trans n)⟩
  · obtain ⟨l, n⟩ := C03_unpack_numeral e (m := 1) (k := 4) (by simp [Std]) (by simp [Std]) v
    obtain ⟨a, b, c, d, h⟩ := len4 l
    rw [h] at n
    exact ⟨a, b, c, d, h, BitVec.eq_of_toNat_eq ((pack32of8_toNat a b c d).trans n)⟩
  · obtain ⟨l, n⟩ := C03_unpack_numeral e (m := 4) (k := 2) (by simp [Std]) (by simp [Std]) v
    obtain ⟨a, b, h⟩ := len2 l
    rw [h] at n
    exact ⟨a, b, h, BitVec.eq_of_toNat_eq ((pack64of32_toNat a b).trans n)⟩
  · obtain ⟨l, n⟩ := C03_unpack_numeral e (m := 2) (k := 4) (by simp [Std]) (by simp [Std]) v
    obtain ⟨a, b, c, d, h⟩ := len4 l
    rw [h] at n
    exact ⟨a, b, c, d, h, BitVec.eq_of_toNat_eq ((pack64of16_toNat a b c d).trans n)⟩
  · obtain ⟨l, n⟩ := C03_unpack_numeral e (m := 1) (k := 8) (by simp [Std]) (by simp [Std]) v
    obtain ⟨b0, b1, b2, b3, b4, b5, b6, b7, h⟩ := len8 l
    rw [h] at n
    exact ⟨b0, b1, b2, b3, b4, b5, b6, b7, h,
      BitVec.eq_of_toNat_eq ((pack64of8_toNat b0 b1 b2 b3 b4 b5 b6 b7).trans n)⟩

example : unpack .little 1 4 0x12345678#32 = [0x12#8, 0x34#8, 0x56#8, 0x78#8] := by decide
example : pack32of16 0x1234#16 0x5678#16 = 0x12345678#32 := by decide

end Verif.Endian
