import Verif.Byterator.Signed
import Verif.Byterator.Props

/-!
# Signed values  (C35)
-/

namespace Verif.Byterator

open Verif.Endian

/-- What a write leaves in the storage can be loaded again. -/
theorem load_write (e : Endian) (m : Mem) (p : Int) (h0 : 0 ≤ p) (n : Nat) (v : BitVec (8 * n)) (h : p + n ≤ m.bytes.length) :
    ∃ m' bs, write e m p n v = .ok (m', p + n) ∧ load m' p n = .ok bs ∧ ofMem e n bs = v ∧ ptrAdd m' p n = .ok (p + n) ∧
      (∀ i : Nat, (i : Int) < p ∨ p + n ≤ i → m'.bytes[i]? = m.bytes[i]?) := by
  obtain ⟨m', hw, hr, hb, hl, ho⟩ := C35_byterator_round_trip e m p h0 [⟨n, v⟩] (by simpa [total] using h)
  simp only [total, List.map_cons, List.map_nil, List.sum_cons, List.sum_nil, Nat.add_zero] at hw hr ho
  simp only [writeAll] at hw
  obtain ⟨⟨m1, q⟩, e1, e2⟩ := Outcome.bind_eq_ok.mp hw
  simp at e2
  obtain ⟨rfl, rfl⟩ := e2
  simp only [readAll] at hr
  obtain ⟨⟨x, q⟩, e3, e4⟩ := Outcome.bind_eq_ok.mp hr
  simp at e4
  obtain ⟨rfl, rfl⟩ := e4
  simp only [read, peek] at e3
  obtain ⟨y, e5, e6⟩ := Outcome.bind_eq_ok.mp e3
  obtain ⟨bs, e7, e8⟩ := Outcome.bind_eq_ok.mp e5
  obtain ⟨q, e9, e10⟩ := Outcome.bind_eq_ok.mp e6
  simp at e8 e10
  obtain ⟨rfl, rfl⟩ := e10
  exact ⟨m1, bs, e1, e7, e8, e9, ho⟩

/-- **C35, signed values.** A signed value that is written and read again, as a type of at least its size, is the same number; as a narrower
type, the same number modulo the width of that type. -/
theorem C35_byterator_signed (e : Endian) (m : Mem) (p : Int) (h0 : 0 ≤ p) (n : Nat) (v : BitVec (8 * n))
    (h : p + n ≤ m.bytes.length) :
    ∃ m', write e m p n v = .ok (m', p + n) ∧
      (∀ r, 8 * n ≤ r → ∃ x, readSigned e m' p n r = .ok (x, p + n) ∧ peekSigned e m' p n r = .ok x ∧ x.toInt = v.toInt) ∧
      (∀ r, ∃ x, readSigned e m' p n r = .ok (x, p + n) ∧ (x.toNat : Int) = v.toInt % 2 ^ r) ∧
      ∀ i : Nat, (i : Int) < p ∨ p + n ≤ i → m'.bytes[i]? = m.bytes[i]? := by
  obtain ⟨m', bs, hw, hl, hv, hq, ho⟩ := load_write e m p h0 n v h
  have hp : ∀ r, peekSigned e m' p n r = .ok (v.signExtend r) := by intro r; simp [peekSigned, hl, hv]
  have hr : ∀ r, readSigned e m' p n r = .ok (v.signExtend r, p + n) := by intro r; simp [readSigned, hp, hq]
  refine ⟨m', hw, fun r hr' => ⟨_, hr r, hp r, ?_⟩, fun r => ⟨_, hr r, ?_⟩, ho⟩
  · rw [BitVec.toInt_signExtend_of_le hr']
  · simp only [BitVec.signExtend, BitVec.toNat_ofInt]
    rw [Int.toNat_of_nonneg (Int.emod_nonneg _ (by positivity))]
    push_cast; rfl

example : readSigned .little ⟨0, [0#8, 0xfe#8, 0xff#8]⟩ 1 2 32 = .ok (0xfffffffe#32, 3) := by decide

/-- **C35, signed arguments.** The functions that write an unsigned value of `n` bytes write a signed argument, of any width, modulo `256 ^ n`;
so reading it as a signed type gives the argument back if that type can hold it. -/
theorem C35_byterator_signed_argument (e : Endian) (m : Mem) (p : Int) (h0 : 0 ≤ p) (n r : Nat) (v : BitVec r)
    (h : p + n ≤ m.bytes.length) :
    ∃ m' x, writeAsSigned e m p n v = .ok (m', p + n) ∧ peek e m' p n (8 * n) = .ok x ∧ (x.toNat : Int) = v.toInt % 2 ^ (8 * n) ∧
      (0 < n → -2 ^ (8 * n - 1) ≤ v.toInt → v.toInt < 2 ^ (8 * n - 1) →
        ∃ y, peekSigned e m' p n (8 * n) = .ok y ∧ y.toInt = v.toInt) := by
  obtain ⟨m', bs, hw, hl, hv, hq, ho⟩ := load_write e m p h0 n (v.signExtend (8 * n)) h
  refine ⟨m', v.signExtend (8 * n), hw, by simp [peek, hl, hv], ?_, fun hn h1 h2 => ⟨v.signExtend (8 * n), by simp [peekSigned, hl, hv], ?_⟩⟩
  · simp only [BitVec.signExtend, BitVec.toNat_ofInt]
    rw [Int.toNat_of_nonneg (Int.emod_nonneg _ (by positivity))]
    push_cast; rfl
  · simp only [BitVec.signExtend, BitVec.toInt_ofInt]
    have hp : (2 : Int) ^ (8 * n) = 2 * 2 ^ (8 * n - 1) := by
      rw [← pow_succ']; congr 1; omega
    apply Int.bmod_eq_of_le <;> push_cast <;> rw [hp] <;> omega

example : (writeAsSigned .big ⟨0, [0#8, 0#8, 0#8]⟩ 1 2 (0xff#8)).bind (fun r => .ok r.1.bytes) = .ok [0#8, 0xff#8, 0xff#8] := by decide

end Verif.Byterator
