import Verif.Byterator.Model
import Verif.Endian.Props
import Mathlib.Tactic.NormNum

/-!
# `byterator` (C35, C36, C37)
-/

namespace Verif.Byterator

open Verif.Endian

/-- Total size of a sequence of values. -/
def total (vs : List (Σ n : Nat, BitVec (8 * n))) : Nat := (vs.map (·.1)).sum

/-- A position inside the array or one past its end. -/
def Valid (m : Mem) (p : Int) : Prop := 0 ≤ p ∧ p ≤ m.bytes.length

/-! ## C35 -/

theorem store_ok {m : Mem} {p : Int} {bs : List (BitVec 8)} (h0 : 0 ≤ p) (h : p + bs.length ≤ m.bytes.length) :
    store m p bs = .ok { m with bytes := m.bytes.take p.toNat ++ bs ++ m.bytes.drop (p.toNat + bs.length) } :=
  if_pos ⟨h0, h⟩

theorem writeAll_ok (e : Endian) : ∀ (vs : List (Σ n : Nat, BitVec (8 * n))) (m : Mem) (p : Int), 0 ≤ p →
    p + total vs ≤ m.bytes.length →
    writeAll e m p vs = .ok (⟨m.base, m.bytes.take p.toNat ++ (vs.flatMap fun v => mem e v.1 v.2) ++
      m.bytes.drop (p.toNat + total vs)⟩, p + total vs) := by
  intro vs
  induction vs with
  | nil => intro m p _ _; simp [writeAll, total]
  | cons v vs ih =>
    intro m p h0 h
    have ht : total (v :: vs) = v.1 + total vs := by simp [total]
    rw [ht] at h
    have hl : (mem e v.1 v.2).length = v.1 := mem_length e v.2
    rw [writeAll, write, store_ok h0 (by rw [hl]; omega), Outcome.ok_bind]
    have hlen : (m.bytes.take p.toNat ++ mem e v.1 v.2 ++ m.bytes.drop (p.toNat + (mem e v.1 v.2).length)).length =
        m.bytes.length := by
      simp only [List.length_append, List.length_take, List.length_drop, hl]; omega
    rw [ptrAdd, if_pos (by simp only [hlen]; omega)]
    simp only [Outcome.ok_bind, Outcome.pure_eq_ok]
    rw [ih _ _ (by omega) (by simp only [hlen]; omega)]
    have hp : (p + (v.1 : Int)).toNat = p.toNat + v.1 := by omega
    congr 2
    · congr 1
      rw [hp, hl, List.flatMap_cons, ht]
      have h1 : (m.bytes.take p.toNat ++ mem e v.1 v.2).length = p.toNat + v.1 := by
        simp only [List.length_append, List.length_take, hl]; omega
      rw [List.take_append_of_le_length (by omega), List.take_of_length_le (by omega),
        List.drop_append, List.drop_of_length_le (by omega), h1, List.drop_drop, List.nil_append]
      simp only [List.append_assoc]
      congr 4
      omega
    · rw [ht]; omega

theorem load_ok {m : Mem} {p : Int} {n : Nat} (h0 : 0 ≤ p) (h : p + n ≤ m.bytes.length) :
    load m p n = .ok ((m.bytes.drop p.toNat).take n) := if_pos ⟨h0, h⟩

theorem readAll_ok (e : Endian) (m : Mem) : ∀ (vs : List (Σ n : Nat, BitVec (8 * n))) (p : Int), 0 ≤ p →
    p + total vs ≤ m.bytes.length →
    (m.bytes.drop p.toNat).take (total vs) = (vs.flatMap fun v => mem e v.1 v.2) →
    readAll e m p (vs.map (·.1)) = .ok (vs, p + total vs) := by
  intro vs
  induction vs with
  | nil => intro p _ _ _; simp [readAll, total]
  | cons v vs ih =>
    intro p h0 h hb
    have ht : total (v :: vs) = v.1 + total vs := by simp [total]
    rw [ht] at h hb
    have hl : (mem e v.1 v.2).length = v.1 := mem_length e v.2
    have hp : (p + (v.1 : Int)).toNat = p.toNat + v.1 := by omega
    rw [List.flatMap_cons, List.take_add, List.drop_drop] at hb
    have hlen : ((m.bytes.drop p.toNat).take v.1).length = (mem e v.1 v.2).length := by
      simp only [List.length_take, List.length_drop, hl]; omega
    obtain ⟨hb1, hb2⟩ := List.append_inj hb hlen
    rw [List.map_cons, readAll, read, peek, load_ok h0 (by omega)]
    simp only [Outcome.ok_bind, Outcome.pure_eq_ok]
    rw [hb1, ofMem_mem, ptrAdd, if_pos (by omega)]
    simp only [Outcome.ok_bind]
    rw [ih (p + v.1) (by omega) (by omega) (by rw [hp]; exact hb2)]
    simp only [Outcome.ok_bind, BitVec.setWidth_eq]
    congr 2
    rw [ht]; omega

/-- **C35.** Writing any sequence of values that fits and reading the same sizes back from the start
returns the same values; both advance the position by exactly the total size; the length and address of
the storage and every byte outside the written range are unchanged. -/
theorem C35_byterator_round_trip (e : Endian) (m : Mem) (p : Int) (h0 : 0 ≤ p)
    (vs : List (Σ n : Nat, BitVec (8 * n))) (h : p + total vs ≤ m.bytes.length) :
    ∃ m', writeAll e m p vs = .ok (m', p + total vs) ∧
      readAll e m' p (vs.map (·.1)) = .ok (vs, p + total vs) ∧
      m'.base = m.base ∧ m'.bytes.length = m.bytes.length ∧
      (∀ i : Nat, (i : Int) < p ∨ p + total vs ≤ i → m'.bytes[i]? = m.bytes[i]?) := by
  have hfl : ∀ vs : List (Σ n : Nat, BitVec (8 * n)),
      (vs.flatMap fun v => mem e v.1 v.2).length = total vs := by
    intro vs
    induction vs with
    | nil => rfl
    | cons v vs ih => rw [List.flatMap_cons, List.length_append, ih, mem_length]; simp [total]
  have hf := hfl vs
  have htk : (m.bytes.take p.toNat).length = p.toNat := by rw [List.length_take]; omega
  have hlen : (m.bytes.take p.toNat ++ (vs.flatMap fun v => mem e v.1 v.2) ++
      m.bytes.drop (p.toNat + total vs)).length = m.bytes.length := by
    simp only [List.length_append, htk, hf, List.length_drop]; omega
  refine ⟨_, writeAll_ok e vs m p h0 h, readAll_ok e _ vs p h0 (by simp only [hlen]; exact h) ?_, rfl, hlen, ?_⟩
  · simp only
    rw [List.append_assoc, List.drop_append, List.drop_of_length_le (by omega), List.nil_append, htk,
      Nat.sub_self, List.drop_zero, List.take_append_of_le_length (by omega), List.take_of_length_le (by omega)]
  · intro i hi
    simp only
    rcases hi with hi | hi
    · rw [List.append_assoc, List.getElem?_append_left (by omega), List.getElem?_take]
      rw [if_pos (by omega)]
    · rw [List.getElem?_append_right (by rw [List.length_append, htk, hf]; omega), List.getElem?_drop]
      congr 1
      rw [List.length_append, htk, hf]; omega

/-- Two 16-bit values and a byte written at offset 1 of an 8-byte array. -/
example : (1 : Int) + total [⟨2, 0x1234#16⟩, ⟨1, 0xff#8⟩, ⟨2, 0xabcd#16⟩] ≤
    (Mem.mk 100 (List.replicate 8 0#8)).bytes.length := by decide

/-- **C35, undefined cases.** From a valid position, a sequence of writes (or reads) is undefined
exactly when the values do not fit before the end of the storage. -/
theorem C35_byterator_ub_iff (e : Endian) (m : Mem) (p : Int) (hv : Valid m p) :
    (∀ vs, writeAll e m p vs = .ub ↔ (m.bytes.length : Int) < p + total vs) ∧
    (∀ ns, readAll e m p ns = .ub ↔ (m.bytes.length : Int) < p + (ns.sum : Nat)) := by
  have hw : ∀ vs (m : Mem) (p : Int), Valid m p → (m.bytes.length : Int) < p + total vs →
      writeAll e m p vs = .ub := by
    intro vs
    induction vs with
    | nil => intro m p hv h; simp only [total, List.map_nil, List.sum_nil] at h; have := hv.2; omega
    | cons v vs ih =>
      intro m p hv h
      have ht : total (v :: vs) = v.1 + total vs := by simp [total]
      have hl : (mem e v.1 v.2).length = v.1 := mem_length e v.2
      have h1 := hv.1
      by_cases hfit : p + v.1 ≤ m.bytes.length
      · have hlen : (m.bytes.take p.toNat ++ mem e v.1 v.2 ++ m.bytes.drop (p.toNat + (mem e v.1 v.2).length)).length =
            m.bytes.length := by
          simp only [List.length_append, List.length_take, List.length_drop, hl]; omega
        rw [writeAll, write, store_ok h1 (by rw [hl]; omega), Outcome.ok_bind, ptrAdd,
          if_pos (by simp only [hlen]; omega)]
        simp only [Outcome.ok_bind, Outcome.pure_eq_ok]
        refine ih _ _ ⟨by omega, by simp only [hlen]; omega⟩ (by simp only [hlen]; omega)
      · rw [writeAll, write, store, if_neg (by rw [hl]; omega)]; rfl
  have hr : ∀ ns (p : Int), Valid m p → (m.bytes.length : Int) < p + (ns.sum : Nat) →
      readAll e m p ns = .ub := by
    intro ns
    induction ns with
    | nil => intro p hv h; simp only [List.sum_nil] at h; have := hv.2; omega
    | cons n ns ih =>
      intro p hv h
      have h1 := hv.1
      rw [List.sum_cons] at h
      by_cases hfit : p + n ≤ m.bytes.length
      · rw [readAll, read, peek, load_ok h1 hfit]
        simp only [Outcome.ok_bind, Outcome.pure_eq_ok]
        rw [ptrAdd, if_pos (by omega)]
        simp only [Outcome.ok_bind]
        rw [ih (p + n) ⟨by omega, by omega⟩ (by omega)]; rfl
      · rw [readAll, read, peek, load, if_neg (by omega)]; rfl
  have hr2 : ∀ ns (p : Int), 0 ≤ p → p + (ns.sum : Nat) ≤ m.bytes.length → ∃ r, readAll e m p ns = .ok r := by
    intro ns
    induction ns with
    | nil => intro p _ _; exact ⟨_, rfl⟩
    | cons n ns ih =>
      intro p h1 h
      rw [List.sum_cons] at h
      obtain ⟨r, hr⟩ := ih (p + n) (by omega) (by omega)
      rw [readAll, read, peek, load_ok h1 (by omega)]
      simp only [Outcome.ok_bind, Outcome.pure_eq_ok]
      rw [ptrAdd, if_pos (by omega)]
      simp only [Outcome.ok_bind]
      rw [hr]; exact ⟨_, rfl⟩
  constructor
  · intro vs
    constructor
    · intro hub
      by_contra hn
      rw [writeAll_ok e vs m p hv.1 (by omega)] at hub
      exact absurd hub (by simp)
    · exact hw vs m p hv
  · intro ns
    constructor
    · intro hub
      by_contra hn
      obtain ⟨r, hr⟩ := hr2 ns p hv.1 (by omega)
      rw [hr] at hub
      exact absurd hub (by simp)
    · exact hr ns p hv

/-- **C35, peek.** `peek` is the value `read` returns, without moving (it has no new position), for
every size and result type; `read` advances by the size. -/
theorem C35_byterator_peek (e : Endian) (m : Mem) (p : Int) (n r : Nat) (v : BitVec r) (h0 : 0 ≤ p) :
    (peek e m p n r = .ok v ↔ read e m p n r = .ok (v, p + n)) := by
  unfold read
  by_cases h : p + n ≤ m.bytes.length
  · rw [peek, load_ok h0 h, ptrAdd, if_pos (by omega)]; simp
  · rw [peek, load, if_neg (by omega)]; simp

/-- **C35, single bytes.** What is written is the object representation: after writing an `n`-byte value,
dereferencing offset `k` of it gives byte `k` counted from the least significant on a little-endian machine
and from the most significant on a big-endian one. -/
theorem C35_byterator_bytes (m : Mem) (p : Int) (n : Nat) (v : BitVec (8 * n)) (h0 : 0 ≤ p)
    (h : p + n ≤ m.bytes.length) (k : Nat) (hk : k < n) :
    (∃ m', write .little m p n v = .ok (m', p + n) ∧
      ∃ b, deref m' (p + k) = .ok b ∧ b.toNat = v.toNat / 256 ^ k % 256) ∧
    (∃ m', write .big m p n v = .ok (m', p + n) ∧
      ∃ b, deref m' (p + k) = .ok b ∧ b.toNat = v.toNat / 256 ^ (n - 1 - k) % 256) := by
  obtain ⟨q, rfl⟩ : ∃ q : Nat, p = q := ⟨p.toNat, by omega⟩
  have hgen : ∀ e : Endian, ∃ m', write e m (q : Int) n v = .ok (m', (q : Int) + n) ∧
      deref m' ((q : Int) + k) = arrGet (mem e n v) k := by
    intro e
    have hl : (mem e n v).length = n := mem_length e v
    have htk : (m.bytes.take q).length = q := by rw [List.length_take]; omega
    have hlen : (m.bytes.take q ++ mem e n v ++ m.bytes.drop (q + n)).length = m.bytes.length := by
      simp only [List.length_append, htk, hl, List.length_drop]; omega
    refine ⟨{ m with bytes := m.bytes.take q ++ mem e n v ++ m.bytes.drop (q + n) }, ?_, ?_⟩
    · rw [write, store_ok h0 (by rw [hl]; omega), Outcome.ok_bind]
      simp only [Int.toNat_natCast, hl]
      rw [ptrAdd, if_pos (by simp only [hlen]; omega)]; rfl
    · show deref _ (Int.ofNat (q + k)) = _
      simp only [deref, arrGet]
      rw [List.append_assoc, List.getElem?_append_right (by omega), htk,
        List.getElem?_append_left (by omega), show q + k - q = k by omega]
  have hby : ∀ j, (byteAt v j).toNat = v.toNat / 256 ^ j % 256 := fun j => byteAt_toNat v j
  constructor
  · obtain ⟨m', h1, h2⟩ := hgen .little
    refine ⟨m', h1, byteAt v k, ?_, hby k⟩
    rw [h2, arrGet]
    simp [mem, bytesLE, hk]
  · obtain ⟨m', h1, h2⟩ := hgen .big
    refine ⟨m', h1, byteAt v (n - 1 - k), ?_, hby _⟩
    rw [h2, arrGet]
    have : n - 1 - k < n := by omega
    simp [mem, bytesLE, hk, List.getElem?_reverse, this]

/-! ## C36 -/

theorem and_not_low {k : Nat} (hk : k < 64) (x : BitVec 64) :
    x &&& ~~~(BitVec.ofNat 64 (2 ^ k) - 1#64) = (x >>> k) <<< k := by
  have h1 : BitVec.ofNat 64 (2 ^ k) = 1#64 <<< k := by
    apply BitVec.eq_of_toNat_eq
    rw [BitVec.toNat_ofNat, BitVec.toNat_shiftLeft, Nat.shiftLeft_eq]; simp
  apply BitVec.eq_of_getLsbD_eq
  intro i hi
  rw [BitVec.getLsbD_and, BitVec.getLsbD_not, h1, getLsbD_low_mask hk, BitVec.getLsbD_shiftLeft,
    BitVec.getLsbD_ushiftRight]
  by_cases hik : i < k
  · simp [hik]
  · rw [show k + (i - k) = i by omega]
    simp [hik, hi]

/-- **C36, the address, for power-of-two sizes.** As long as the aligned address does not wrap around
the address space, it is the least multiple of the size at or above the current address. -/
theorem C36_align_address (k : Nat) (hk : k < 64) (p : BitVec 64) (h : p.toNat + (2 ^ k - 1) < 2 ^ 64) :
    p.toNat ≤ (alignAddr p (2 ^ k)).toNat ∧ 2 ^ k ∣ (alignAddr p (2 ^ k)).toNat ∧
      ∀ a, p.toNat ≤ a → 2 ^ k ∣ a → (alignAddr p (2 ^ k)).toNat ≤ a := by
  have hpos : 0 < 2 ^ k := Nat.two_pow_pos k
  have hlt : 2 ^ k < 2 ^ 64 := Nat.pow_lt_pow_right (by omega) hk
  have hoff : (BitVec.ofNat 64 (2 ^ k) - 1#64).toNat = 2 ^ k - 1 := by
    rw [BitVec.toNat_sub_of_le]
    · rw [BitVec.toNat_ofNat, Nat.mod_eq_of_lt hlt]; rfl
    · rw [BitVec.le_def, BitVec.toNat_ofNat (2 ^ k) 64, Nat.mod_eq_of_lt hlt]; exact hpos
  have hv : (alignAddr p (2 ^ k)).toNat = (p.toNat + (2 ^ k - 1)) / 2 ^ k * 2 ^ k := by
    unfold alignAddr
    simp only
    rw [and_not_low hk, BitVec.toNat_shiftLeft, BitVec.toNat_ushiftRight, BitVec.toNat_add, hoff,
      Nat.mod_eq_of_lt h, Nat.shiftRight_eq_div_pow, Nat.shiftLeft_eq, Nat.mod_eq_of_lt]
    have := Nat.div_mul_le_self (p.toNat + (2 ^ k - 1)) (2 ^ k)
    omega
  rw [hv]
  refine ⟨?_, ⟨_, Nat.mul_comm _ _⟩, ?_⟩
  · have := Nat.lt_div_mul_add hpos (a := p.toNat + (2 ^ k - 1))
    omega
  · rintro a ha ⟨c, rfl⟩
    rw [Nat.mul_comm]
    apply Nat.mul_le_mul_left
    rw [← Nat.lt_succ_iff, Nat.div_lt_iff_lt_mul hpos]
    rw [Nat.succ_mul, Nat.mul_comm c]; omega

/-- **C36, partial.** For a type whose size is a power of two and equals its alignment,
`advance_to_alignment<V>(n)` goes to the least aligned address at or above the current one and then `n`
values further, provided these positions are in the storage; at an aligned address with `n = 0` it does
not move.  Missing: types whose size differs from their alignment, for which it is false
(`C36_align_uses_size_violated`). -/
theorem C36_advance_to_alignment_partial (m : Mem) (k : Nat) (hk : k < 64) (p : Int) (hv : Valid m p)
    (hm : m.base + m.bytes.length + (2 ^ k - 1) < 2 ^ 64) :
    ∃ d : Nat, (2 ^ k : Int) ∣ address m (p + d) ∧
      (∀ d' : Nat, (2 ^ k : Int) ∣ address m (p + d') → d ≤ d') ∧
      (∀ n : Int, p + d ≤ m.bytes.length →
        (0 ≤ p + d + n * 2 ^ k ∧ p + d + n * 2 ^ k ≤ m.bytes.length →
          advanceToAlignment m p (2 ^ k) n = .ok (p + d + n * 2 ^ k)) ∧
        (¬(0 ≤ p + d + n * 2 ^ k ∧ p + d + n * 2 ^ k ≤ m.bytes.length) →
          advanceToAlignment m p (2 ^ k) n = .ub)) ∧
      ((2 ^ k : Int) ∣ address m p → d = 0) := by
  obtain ⟨h0, h1⟩ := hv
  obtain ⟨q, rfl⟩ : ∃ q : Nat, p = q := ⟨p.toNat, by omega⟩
  have hA : BitVec.ofInt 64 (address m (q : Int)) = BitVec.ofNat 64 (m.base + q) := by
    unfold address
    rw [← BitVec.ofInt_natCast]; congr 1
  have hAn : (BitVec.ofNat 64 (m.base + q)).toNat = m.base + q := by
    rw [BitVec.toNat_ofNat, Nat.mod_eq_of_lt (by omega)]
  obtain ⟨a1, a2, a3⟩ := C36_align_address k hk (BitVec.ofNat 64 (m.base + q)) (by rw [hAn]; omega)
  rw [hAn] at a1 a3
  obtain ⟨d, hd⟩ : ∃ d, (alignAddr (BitVec.ofNat 64 (m.base + q)) (2 ^ k)).toNat = m.base + q + d :=
    ⟨_, (Nat.add_sub_cancel' a1).symm⟩
  rw [hd] at a2 a3
  have hcast : ∀ j : Nat, ((2 ^ k : Int) ∣ address m ((q : Int) + j) ↔ 2 ^ k ∣ m.base + q + j) := by
    intro j
    unfold address
    rw [show (m.base : Int) + ((q : Int) + j) = ((m.base + q + j : Nat) : Int) by push_cast; omega]
    exact_mod_cast Iff.rfl
  refine ⟨d, (hcast d).mpr a2, fun d' hd' => ?_, fun n hfit => ?_, fun hal => ?_⟩
  · have := a3 (m.base + q + d') (by omega) ((hcast d').mp hd'); omega
  · have e1 : advanceToAlignment m (q : Int) (2 ^ k) n = ptrAdd m ((q : Int) + d) (n * 2 ^ k) := by
      unfold advanceToAlignment
      simp only [hA, hd]
      rw [ptrAdd, if_pos (by omega), Outcome.ok_bind]
      congr 1
      omega
    rw [e1]
    constructor
    · intro h; exact if_pos h
    · intro h; exact if_neg h
  · have := a3 (m.base + q + 0) (by omega) ((hcast 0).mp (by simpa using hal)); omega

example : Valid (Mem.mk 100 (List.replicate 8 0#8)) 3 := ⟨by decide, by decide⟩

/-- **C36, outside.** If the next aligned address is beyond the end of the storage, moving there is
undefined. -/
theorem C36_align_outside (m : Mem) (k : Nat) (hk : k < 64) (p : Int) (hv : Valid m p)
    (hm : m.base + m.bytes.length + (2 ^ k - 1) < 2 ^ 64) (d : Nat)
    (hd : (2 ^ k : Int) ∣ address m (p + d)) (hmin : ∀ d' : Nat, (2 ^ k : Int) ∣ address m (p + d') → d ≤ d')
    (hout : (m.bytes.length : Int) < p + d) (n : Int) : advanceToAlignment m p (2 ^ k) n = .ub := by
  obtain ⟨h0, h1⟩ := hv
  obtain ⟨q, rfl⟩ : ∃ q : Nat, p = q := ⟨p.toNat, by omega⟩
  have hA : BitVec.ofInt 64 (address m (q : Int)) = BitVec.ofNat 64 (m.base + q) := by
    unfold address
    rw [← BitVec.ofInt_natCast]; congr 1
  have hAn : (BitVec.ofNat 64 (m.base + q)).toNat = m.base + q := by
    rw [BitVec.toNat_ofNat, Nat.mod_eq_of_lt (by omega)]
  obtain ⟨a1, a2, a3⟩ := C36_align_address k hk (BitVec.ofNat 64 (m.base + q)) (by rw [hAn]; omega)
  rw [hAn] at a1
  obtain ⟨d', hd'⟩ : ∃ d', (alignAddr (BitVec.ofNat 64 (m.base + q)) (2 ^ k)).toNat = m.base + q + d' :=
    ⟨_, (Nat.add_sub_cancel' a1).symm⟩
  rw [hd'] at a2
  have hle := hmin d' (by
    unfold address
    rw [show (m.base : Int) + ((q : Int) + d') = ((m.base + q + d' : Nat) : Int) by push_cast; omega]
    exact_mod_cast a2)
  unfold advanceToAlignment
  simp only [hA, hd']
  rw [ptrAdd, if_neg (by omega)]; rfl

example : advanceToAlignment ⟨100, List.replicate 3 0#8⟩ 1 4 0 = .ub := by decide

/-- **C36 is false for types larger than their alignment.** The code rounds up to `sizeof(V)`: with a
type of size 8 and alignment 4 (two `int`s), at every address that is a multiple of 4 but not of 8 the
pointer moves by 4 although it is aligned. -/
theorem C36_align_uses_size_violated (m : Mem) (p : Nat) (hb : (m.base + p) % 8 = 4)
    (hp : p + 4 ≤ m.bytes.length) (hm : m.base + m.bytes.length < 2 ^ 63) :
    (4 : Int) ∣ address m p ∧ advanceToAlignment m p 8 0 = .ok ((p : Int) + 4) := by
  obtain ⟨d, h1, h2, h3, _⟩ := C36_advance_to_alignment_partial m 3 (by omega) p ⟨by omega, by omega⟩ (by omega)
  norm_num at h1 h2 h3
  unfold address at h1 h2 ⊢
  have hd : d = 4 := by
    have := h2 4 (by omega)
    omega
  subst hd
  refine ⟨by omega, ?_⟩
  have := (h3 0 (by omega)).1 (by omega)
  simpa using this (by omega)

/-- **C36 is false for every type larger than its alignment.** With a type of size `2 ^ k`, the pointer stays at no address that is not a
multiple of the size, whatever the alignment of the type: it moves on, or the move is undefined for want of storage. -/
theorem C36_align_moves_violated (m : Mem) (k : Nat) (hk : k < 64) (p : Int) (hv : Valid m p)
    (hm : m.base + m.bytes.length + (2 ^ k - 1) < 2 ^ 64) (hn : ¬ (2 ^ k : Int) ∣ address m p) :
    (∃ q, p < q ∧ advanceToAlignment m p (2 ^ k) 0 = .ok q) ∨ advanceToAlignment m p (2 ^ k) 0 = .ub := by
  obtain ⟨d, h1, h2, h3, _⟩ := C36_advance_to_alignment_partial m k hk p hv hm
  have hd : 0 < d := by
    rcases Nat.eq_zero_or_pos d with h | h
    · subst h; simp at h1; exact absurd h1 hn
    · exact h
  by_cases hl : p + d ≤ m.bytes.length
  · left
    refine ⟨p + d, by omega, ?_⟩
    have := (h3 0 hl).1 ⟨by have := hv.1; omega, by omega⟩
    simpa using this
  · right; exact C36_align_outside m k hk p hv hm d h1 h2 (by omega) 0

example : Valid (Mem.mk 100 (List.replicate 8 0#8)) 0 ∧ (2 ^ 2 : Int) ∣ address (Mem.mk 100 (List.replicate 8 0#8)) 0 ∧
    ¬ (2 ^ 3 : Int) ∣ address (Mem.mk 100 (List.replicate 8 0#8)) 0 := ⟨⟨by decide, by decide⟩, by decide, by decide⟩

/-- **C36 is false for sizes that are not powers of two.** With a type of size 12 and alignment 4, at an
address that is 8 modulo 16 the pointer moves by 8 although it is aligned. -/
theorem C36_align_size_not_power_violated :
    advanceToAlignment ⟨4096, List.replicate 64 0#8⟩ 8 12 0 = .ok 16 ∧
      (4 : Int) ∣ address ⟨4096, List.replicate 64 0#8⟩ 8 := by decide

/-! ## C37 -/

/-- **C37, arithmetic.** Wherever the positions are in the storage: `(i + n) - i = n`;
`(i + n) + m = i + (n + m)`; `i + (j - i) = j`; `++`, `--`, `+=`, `-=`, `-` agree with `+`; the postfix
forms return the old position. -/
theorem C37_byterator_arithmetic (m : Mem) (i n k j : Int) (_hi : Valid m i) :
    (∀ q, plus m i n = .ok q → diff q i = n) ∧
    (∀ q, plus m i n = .ok q → plus m q k = plus m i (n + k)) ∧
    (Valid m j → plus m i (diff j i) = .ok j) ∧
    inc m i = plus m i 1 ∧ dec m i = plus m i (-1) ∧
    addAssign m i n = plus m i n ∧ subAssign m i n = plus m i (-n) ∧ minus m i n = plus m i (-n) ∧
    (∀ q, inc m i = .ok q → postInc m i = .ok (i, q) ∧ dec m q = .ok i) ∧
    (∀ q, dec m i = .ok q → postDec m i = .ok (i, q) ∧ inc m q = .ok i) ∧
    (plus m i n = .ub ↔ ¬ Valid m (i + n)) := by
  obtain ⟨h0, h1⟩ := _hi
  refine ⟨?_, ?_, ?_, rfl, rfl, rfl, rfl, rfl, ?_, ?_, ?_⟩
  · intro q h
    unfold plus addAssign ptrAdd at h
    split at h <;> simp at h
    subst h; unfold diff; omega
  · intro q h
    unfold plus addAssign ptrAdd at *
    split at h <;> simp at h
    subst h
    rw [show i + n + k = i + (n + k) by omega]
  · rintro ⟨h2, h3⟩
    unfold plus addAssign ptrAdd diff
    rw [if_pos (by omega)]; congr 1; omega
  · intro q h
    refine ⟨by simp [postInc, h], ?_⟩
    unfold inc ptrAdd at h
    split at h <;> simp at h
    subst h
    unfold dec ptrAdd
    rw [if_pos (by omega)]; congr 1; omega
  · intro q h
    refine ⟨by simp [postDec, h], ?_⟩
    unfold dec ptrAdd at h
    split at h <;> simp at h
    subst h
    unfold inc ptrAdd
    rw [if_pos (by omega)]; congr 1; omega
  · unfold plus addAssign ptrAdd Valid
    split <;> simp_all

/-- **C37, indexing.** `i[n]` is `*(i + n)`: it is the byte at that offset, and undefined exactly outside
the storage. -/
theorem C37_byterator_index (m : Mem) (i n : Int) :
    (∀ b, index m i n = .ok b ↔ ∃ q, plus m i n = .ok q ∧ deref m q = .ok b) ∧
    (index m i n = .ub ↔ ¬(0 ≤ i + n ∧ i + n < m.bytes.length)) := by
  unfold index plus addAssign ptrAdd
  rcases hq : i + n with q | q
  · simp only [deref, arrGet, Int.ofNat_eq_natCast]
    rcases Nat.lt_or_ge q m.bytes.length with hlt | hge
    · rw [List.getElem?_eq_getElem hlt]
      constructor
      · intro b
        rw [if_pos (by omega)]
        simp [deref, arrGet, hlt]
      · simp; omega
    · rw [List.getElem?_eq_none hge]
      constructor
      · intro b
        simp only [reduceCtorEq, false_iff, not_exists, not_and]
        intro q' h'
        split at h' <;> simp at h'
        subst h'
        simp [List.getElem?_eq_none hge]
      · simp; omega
  · simp only [deref]
    constructor
    · intro b
      rw [if_neg (by omega)]; simp
    · simp

/-- **C37, order.** `<` is the sign of the difference: irreflexive, transitive, total with `==`, and
adding a positive number moves up. -/
theorem C37_byterator_order (m : Mem) (i j k : Int) :
    (less i j = true ↔ 0 < diff j i) ∧ less i i = false ∧
    (less i j = true → less j k = true → less i k = true) ∧
    (less i j = true ∨ eq i j = true ∨ less j i = true) ∧
    ¬(less i j = true ∧ less j i = true) ∧
    (eq i j = true ↔ diff i j = 0) ∧
    (∀ n q, plus m i n = .ok q → (less i q = true ↔ 0 < n)) := by
  refine ⟨?_, ?_, ?_, ?_, ?_, ?_, ?_⟩
  · simp [less, diff]
  · simp [less]
  · simp [less]; omega
  · simp [less, eq]; omega
  · simp [less]; omega
  · simp [eq, diff]; omega
  · intro n q h
    unfold plus addAssign ptrAdd at h
    split at h <;> simp at h
    subst h
    simp [less]

/-- **C37, underlying iterators.** A byterator equals (is less than) an iterator of the underlying
array exactly when it equals (is less than) the byterator made from that iterator. -/
theorem C37_byterator_underlying (m : Mem) (i : Int) (sz k : Nat) (q : Int) (h : ofIter m sz k = .ok q) :
    eqIter m i sz k = eq i q ∧ lessIter m i sz k = less i q ∧ address m q = m.base + k * sz := by
  unfold ofIter ptrAdd at h
  split at h <;> simp at h
  subst h
  refine ⟨?_, ?_, ?_⟩
  · rw [Bool.eq_iff_iff]; simp [eqIter, eq, address]
  · rw [Bool.eq_iff_iff]; simp [lessIter, less, address]
  · simp [address]

example : ofIter ⟨100, List.replicate 8 0#8⟩ 4 2 = .ok 8 := by decide

end Verif.Byterator
