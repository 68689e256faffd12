import Verif.Byterator.Props

/-!
# `byterator` histories (C35, C36)

The storage is specified as a function from offsets to bytes; every operation is specified by what it
does to that function and to the position.
-/

namespace Verif.Byterator

open Verif.Endian

/-! ## Specification -/

/-- The byte at offset `k` of the object representation of an `n`-byte unsigned number. -/
def objByte (e : Endian) (n : Nat) (v : Nat) (k : Nat) : BitVec 8 :=
  match e with
  | .little => BitVec.ofNat 8 (v / 256 ^ k)
  | .big => BitVec.ofNat 8 (v / 256 ^ (n - 1 - k))

/-- Abstract state: the byte at every offset, and the position. -/
structure St where
  f : Nat → BitVec 8
  p : Int

/-- `d` is the distance from position `p` of storage at address `base` to the next multiple of `2^k`. -/
def ToAligned (base : Nat) (p : Int) (k d : Nat) : Prop :=
  (2 ^ k : Int) ∣ base + (p + d) ∧ ∀ d' : Nat, (2 ^ k : Int) ∣ base + (p + d') → d ≤ d'

/-- The range an operation touches or moves to lies in the `L` bytes of storage. -/
def Pre (L base : Nat) (s : St) : Op → Prop
  | .write n _ | .writeAs n _ _ | .read n _ | .peek n _ | .advanceBy n => s.p + n ≤ L
  | .advance d => 0 ≤ s.p + d ∧ s.p + d ≤ L
  | .inc => s.p < L
  | .dec => 0 < s.p
  | .deref | .assign _ => s.p < L
  | .index i => 0 ≤ s.p + i ∧ s.p + i < L
  | .align k n => ∃ d, ToAligned base s.p k d ∧ s.p + d ≤ L ∧ 0 ≤ s.p + d + n * 2 ^ k ∧
      s.p + d + n * 2 ^ k ≤ L

/-- Alignment is asked for an address that does not wrap around the address space. -/
def NoWrap (L base : Nat) : Op → Prop
  | .align k _ => k < 64 ∧ base + L + (2 ^ k - 1) < 2 ^ 64
  | _ => True

/-- `s'` is `s` with the number `v` stored in the `n` bytes at the position. -/
def Stored (e : Endian) (s s' : St) (n v : Nat) : Prop :=
  ∀ i : Nat, s'.f i = if s.p ≤ i ∧ i < s.p + n then objByte e n v (i - s.p.toNat) else s.f i

/-- `v < 2^(8 n)` is the number whose object representation is the `n` bytes at the position. -/
def Loaded (e : Endian) (s : St) (n v : Nat) : Prop :=
  v < 2 ^ (8 * n) ∧ ∀ k, k < n → objByte e n v k = s.f (s.p.toNat + k)

/-- Effect and result. -/
def Post (e : Endian) (base : Nat) (s : St) (o : Op) (s' : St) (r : Out) : Prop :=
  match o with
  | .write n v => Stored e s s' n v.toNat ∧ s'.p = s.p + n ∧ r = .unit
  | .writeAs n _ v => Stored e s s' n (v.toNat % 2 ^ (8 * n)) ∧ s'.p = s.p + n ∧ r = .unit
  | .read n w => s'.f = s.f ∧ s'.p = s.p + n ∧ ∃ v, Loaded e s n v ∧ r = .val (v % 2 ^ w)
  | .peek n w => s' = s ∧ ∃ v, Loaded e s n v ∧ r = .val (v % 2 ^ w)
  | .advance d => s'.f = s.f ∧ s'.p = s.p + d ∧ r = .unit
  | .advanceBy n => s'.f = s.f ∧ s'.p = s.p + n ∧ r = .unit
  | .inc => s'.f = s.f ∧ s'.p = s.p + 1 ∧ r = .unit
  | .dec => s'.f = s.f ∧ s'.p = s.p - 1 ∧ r = .unit
  | .deref => s' = s ∧ r = .val (s.f s.p.toNat).toNat
  | .assign b => (∀ i : Nat, s'.f i = if (i : Int) = s.p then b else s.f i) ∧ s'.p = s.p ∧ r = .unit
  | .index i => s' = s ∧ r = .val (s.f (s.p + i).toNat).toNat
  | .align k n => s'.f = s.f ∧ r = .unit ∧
      ∃ d, ToAligned base s.p k d ∧ s'.p = s.p + d + n * 2 ^ k

/-- Every operation of the history stays in the storage. -/
def Admissible (e : Endian) (L base : Nat) : St → List Op → Prop
  | _, [] => True
  | s, o :: os => NoWrap L base o ∧ Pre L base s o ∧
      ∀ s' r, Post e base s o s' r → Admissible e L base s' os

/-- Possible result of a history. -/
def SpecRun (e : Endian) (base : Nat) : St → List Op → St → List Out → Prop
  | s, [], s', rs => s' = s ∧ rs = []
  | s, o :: os, s', rs => ∃ s1 r rs', Post e base s o s1 r ∧ SpecRun e base s1 os s' rs' ∧ rs = r :: rs'

/-- The storage `m` holds the bytes of `s`, and the position is in it. -/
def Holds (L base : Nat) (m : Mem) (p : Int) (s : St) : Prop :=
  m.base = base ∧ m.bytes.length = L ∧ p = s.p ∧ 0 ≤ p ∧ p ≤ L ∧
    ∀ i, i < L → m.bytes[i]? = some (s.f i)

/-! ## Helpers -/

theorem byteAt_eq {w : Nat} (v : BitVec w) (k : Nat) : byteAt v k = BitVec.ofNat 8 (v.toNat / 256 ^ k) := by
  apply BitVec.eq_of_toNat_eq
  rw [byteAt_toNat, BitVec.toNat_ofNat]

theorem mem_get (e : Endian) {n : Nat} (v : BitVec (8 * n)) {k : Nat} (hk : k < n) :
    (mem e n v)[k]? = some (objByte e n v.toNat k) := by
  have h2 : n - 1 - k < n := by omega
  cases e
  · simp [mem, bytesLE, hk, objByte, byteAt_eq]
  · simp [mem, bytesLE, hk, List.getElem?_reverse, h2, objByte, byteAt_eq]

theorem mem_ofMem (e : Endian) {n : Nat} {l : List (BitVec 8)} (h : l.length = n) :
    mem e n (ofMem e n l) = l := by
  cases e
  · simp only [mem, ofMem]; exact bytesLE_ofBytesLE h
  · simp only [mem, ofMem]
    rw [bytesLE_ofBytesLE (by simpa using h), List.reverse_reverse]

theorem load_rep {e : Endian} {L base : Nat} {m : Mem} {p : Int} {s : St} (h : Holds L base m p s) {n : Nat}
    (hn : p + n ≤ L) : ∃ bs, load m p n = .ok bs ∧ Loaded e s n (ofMem e n bs).toNat := by
  obtain ⟨hb, hl, hp, h0, h1, hf⟩ := h
  have hlen : ((m.bytes.drop p.toNat).take n).length = n := by
    simp only [List.length_take, List.length_drop]; omega
  refine ⟨_, load_ok h0 (by omega), (ofMem e n _).isLt, fun k hk => ?_⟩
  have := mem_get e (ofMem e n ((m.bytes.drop p.toNat).take n)) hk
  rw [mem_ofMem e hlen, List.getElem?_take, if_pos hk, List.getElem?_drop, hf _ (by omega)] at this
  rw [← hp]
  simpa using this.symm

theorem write_rep {e : Endian} {L base : Nat} {m : Mem} {p : Int} {s : St} (h : Holds L base m p s) {n : Nat}
    (v : BitVec (8 * n)) (hn : p + n ≤ L) :
    ∃ m' s', write e m p n v = .ok (m', p + n) ∧ Stored e s s' n v.toNat ∧ s'.p = s.p + n ∧
      Holds L base m' (p + n) s' := by
  obtain ⟨hb, hl, hp, h0, h1, hf⟩ := h
  have hml : (mem e n v).length = n := mem_length e v
  have htk : (m.bytes.take p.toNat).length = p.toNat := by rw [List.length_take]; omega
  have hlen : (m.bytes.take p.toNat ++ mem e n v ++ m.bytes.drop (p.toNat + n)).length = m.bytes.length := by
    simp only [List.length_append, htk, hml, List.length_drop]; omega
  refine ⟨{ m with bytes := m.bytes.take p.toNat ++ mem e n v ++ m.bytes.drop (p.toNat + n) },
    ⟨fun i => if s.p ≤ i ∧ i < s.p + n then objByte e n v.toNat (i - s.p.toNat) else s.f i, s.p + n⟩,
    ?_, fun i => rfl, rfl, hb, by rw [hlen]; exact hl, by rw [hp], by omega, hn, ?_⟩
  · rw [write, store_ok h0 (by rw [hml]; omega), Outcome.ok_bind]
    simp only [hml]
    rw [ptrAdd, if_pos (by simp only [hlen]; omega)]; rfl
  · intro i hi
    simp only
    rw [← hp]
    by_cases h2 : (i : Int) < p
    · rw [List.append_assoc, List.getElem?_append_left (by omega), List.getElem?_take,
        if_pos (by omega), if_neg (by omega)]
      exact hf i hi
    · by_cases h3 : (i : Int) < p + n
      · rw [List.append_assoc, List.getElem?_append_right (by omega), htk,
          List.getElem?_append_left (by omega), mem_get e v (by omega), if_pos (by omega)]
      · rw [List.getElem?_append_right (by rw [List.length_append, htk, hml]; omega), List.getElem?_drop,
          if_neg (by omega), List.length_append, htk, hml,
          show p.toNat + n + (i - (p.toNat + n)) = i by omega]
        exact hf i hi

/-- Outside the storage after rounding up, the pointer is not a pointer into the storage. -/
theorem align_rep {L base : Nat} {m : Mem} {p : Int} {s : St} (h : Holds L base m p s) {k : Nat} (n : Int)
    (hk : k < 64) (hw : base + L + (2 ^ k - 1) < 2 ^ 64) :
    ∃ d, ToAligned base s.p k d ∧
      advanceToAlignment m p (2 ^ k) n = if s.p + d ≤ L ∧ 0 ≤ s.p + d + n * 2 ^ k ∧
        s.p + d + n * 2 ^ k ≤ L then .ok (s.p + d + n * 2 ^ k) else .ub := by
  obtain ⟨hb, hl, hp, h0, h1, hf⟩ := h
  subst hb; subst hl
  obtain ⟨d, a1, a2, a3, _⟩ := C36_advance_to_alignment_partial m k hk p ⟨h0, h1⟩ hw
  rw [← hp]
  refine ⟨d, ⟨a1, a2⟩, ?_⟩
  by_cases hfit : p + d ≤ m.bytes.length
  · by_cases h2 : 0 ≤ p + d + n * 2 ^ k ∧ p + d + n * 2 ^ k ≤ m.bytes.length
    · rw [if_pos ⟨hfit, h2⟩]; exact (a3 n hfit).1 h2
    · rw [if_neg (fun h => h2 h.2)]; exact (a3 n hfit).2 h2
  · rw [if_neg (fun h => hfit h.1)]
    exact C36_align_outside m k hk p ⟨h0, h1⟩ hw d a1 a2 (by omega) n

theorem step_refines {e : Endian} {L base : Nat} {m : Mem} {p : Int} {s : St} (h : Holds L base m p s)
    (o : Op) (hw : NoWrap L base o) (hp : Pre L base s o) :
    ∃ m' p' s' r, step e m p o = .ok ((m', p'), r) ∧ Post e base s o s' r ∧ Holds L base m' p' s' := by
  have h' := h
  obtain ⟨hb, hl, hps, h0, h1, hf⟩ := h'
  have move : ∀ d : Int, 0 ≤ p + d → p + d ≤ L → addAssign m p d = .ok (p + d) ∧
      Holds L base m (p + d) ⟨s.f, s.p + d⟩ := fun d g0 g1 =>
    ⟨if_pos ⟨g0, by omega⟩, hb, hl, by rw [hps], g0, g1, hf⟩
  have look : ∀ q : Int, 0 ≤ q → q < L → Byterator.deref m q = .ok (s.f q.toNat) := by
    intro q g0 g1
    obtain ⟨i, rfl⟩ : ∃ i : Nat, q = i := ⟨q.toNat, by omega⟩
    show arrGet m.bytes i = _
    rw [arrGet, hf i (by omega)]; rfl
  cases o with
  | write n v =>
    simp only [Pre] at hp
    obtain ⟨m', s', e1, hs, hp', hr⟩ := write_rep (e := e) h v (by omega)
    exact ⟨m', _, s', .unit, by simp [step, e1], ⟨hs, hp', rfl⟩, hr⟩
  | writeAs n r v =>
    simp only [Pre] at hp
    obtain ⟨m', s', e1, hs, hp', hr⟩ := write_rep (e := e) h (v.setWidth (8 * n)) (by omega)
    rw [BitVec.toNat_setWidth] at hs
    exact ⟨m', _, s', .unit, by simp [step, writeAs, e1], ⟨hs, hp', rfl⟩, hr⟩
  | read n w =>
    simp only [Pre] at hp
    obtain ⟨bs, e1, hld⟩ := load_rep (e := e) h (n := n) (by omega)
    obtain ⟨e2, hr⟩ := move n (by omega) (by omega)
    unfold addAssign at e2
    refine ⟨m, p + n, ⟨s.f, s.p + n⟩, .val ((ofMem e n bs).toNat % 2 ^ w), ?_, ⟨rfl, rfl, _, hld, rfl⟩, hr⟩
    simp [step, Byterator.read, Byterator.peek, e1, e2]
  | peek n w =>
    simp only [Pre] at hp
    obtain ⟨bs, e1, hld⟩ := load_rep (e := e) h (n := n) (by omega)
    refine ⟨m, p, s, .val ((ofMem e n bs).toNat % 2 ^ w), ?_, ⟨rfl, _, hld, rfl⟩, h⟩
    simp [step, Byterator.peek, e1]
  | advance d =>
    simp only [Pre] at hp
    obtain ⟨e2, hr⟩ := move d (by omega) (by omega)
    exact ⟨m, p + d, ⟨s.f, s.p + d⟩, .unit, by simp [step, e2], ⟨rfl, rfl, rfl⟩, hr⟩
  | advanceBy n =>
    simp only [Pre] at hp
    obtain ⟨e2, hr⟩ := move n (by omega) (by omega)
    exact ⟨m, p + n, ⟨s.f, s.p + n⟩, .unit, by simp [step, e2], ⟨rfl, rfl, rfl⟩, hr⟩
  | inc =>
    simp only [Pre] at hp
    obtain ⟨e2, hr⟩ := move 1 (by omega) (by omega)
    unfold addAssign at e2
    exact ⟨m, p + 1, ⟨s.f, s.p + 1⟩, .unit, by simp [step, Byterator.inc, e2], ⟨rfl, rfl, rfl⟩, hr⟩
  | dec =>
    simp only [Pre] at hp
    obtain ⟨e2, hr⟩ := move (-1) (by omega) (by omega)
    unfold addAssign at e2
    exact ⟨m, p + -1, ⟨s.f, s.p + -1⟩, .unit, by simp [step, Byterator.dec, e2], ⟨rfl, rfl, rfl⟩, hr⟩
  | deref =>
    simp only [Pre] at hp
    exact ⟨m, p, s, .val (s.f p.toNat).toNat, by simp [step, look p h0 (by omega)], ⟨rfl, by rw [hps]⟩, h⟩
  | assign b =>
    simp only [Pre] at hp
    obtain ⟨i, rfl⟩ : ∃ i : Nat, p = i := ⟨p.toNat, by omega⟩
    have e1 : Byterator.assign m (i : Int) b = .ok { m with bytes := m.bytes.set i b } := by
      show (arrSet m.bytes i b >>= fun bs => pure { m with bytes := bs }) = _
      rw [arrSet_of_lt (by omega)]; rfl
    refine ⟨{ m with bytes := m.bytes.set i b }, i,
      ⟨fun j => if (j : Int) = s.p then b else s.f j, s.p⟩, .unit, by simp [step, e1], ⟨fun _ => rfl, rfl, rfl⟩, hb, ?_, hps, h0, h1, ?_⟩
    · rw [List.length_set]; exact hl
    · intro j hj
      simp only
      rw [List.getElem?_set]
      by_cases hij : i = j
      · subst hij; rw [if_pos rfl, if_pos (by omega), if_pos hps]
      · rw [if_neg hij, if_neg (by omega)]; exact hf j hj
  | index i =>
    simp only [Pre] at hp
    refine ⟨m, p, s, .val (s.f (p + i).toNat).toNat, ?_, ⟨rfl, by rw [hps]⟩, h⟩
    simp [step, Byterator.index, look (p + i) (by omega) (by omega)]
  | align k n =>
    obtain ⟨d, ha, e1⟩ := align_rep h n hw.1 hw.2
    obtain ⟨d2, ha2, hfit⟩ := hp
    have hdd : d2 = d := Nat.le_antisymm (ha2.2 d ha.1) (ha.2 d2 ha2.1)
    subst hdd
    rw [if_pos hfit] at e1
    exact ⟨m, _, ⟨s.f, s.p + d2 + n * 2 ^ k⟩, .unit, by simp [step, e1], ⟨rfl, rfl, d2, ha, rfl⟩,
      hb, hl, rfl, hfit.2.1, hfit.2.2, hf⟩

/-! ## Theorems -/

/-- **C35 and C36, histories.** Any history of writes (also with conversion), reads, peeks, moves,
dereferences, byte assignments and alignments that stays in the storage is defined and behaves as a
function from offsets to bytes: a write changes exactly the bytes it covers, a read returns the number
stored there by whatever writes came last, and moves and reads change no byte. -/
theorem C35_byterator_histories (e : Endian) (L base : Nat) (os : List Op) :
    ∀ (m : Mem) (p : Int) (s : St), Holds L base m p s → Admissible e L base s os →
      ∃ m' p' s' rs, run e m p os = .ok ((m', p'), rs) ∧ SpecRun e base s os s' rs ∧
        Holds L base m' p' s' := by
  induction os with
  | nil => intro m p s h _; exact ⟨m, p, s, [], rfl, ⟨rfl, rfl⟩, h⟩
  | cons o os ih =>
    intro m p s h ha
    obtain ⟨m1, p1, s1, r, e1, hpost, h1⟩ := step_refines (e := e) h o ha.1 ha.2.1
    obtain ⟨m2, p2, s2, rs, e2, hrun, h2⟩ := ih m1 p1 s1 h1 (ha.2.2 s1 r hpost)
    exact ⟨m2, p2, s2, r :: rs, by simp [run, e1, e2], ⟨s1, r, rs, hpost, hrun, rfl⟩, h2⟩

/-- Write at offset 1, go back, overwrite the first byte, read both bytes, align to 4 bytes. -/
example : Admissible .little 5 100 ⟨fun _ => 0#8, 1⟩
    [.write 2 0x1234#16, .advance (-2), .assign 0xff#8, .read 2 32, .align 2 0] := by
  refine ⟨trivial, by simp [Pre], fun s1 r1 h1 => ⟨trivial, ?_, fun s2 r2 h2 => ⟨trivial, ?_,
    fun s3 r3 h3 => ⟨trivial, ?_, fun s4 r4 h4 => ⟨by simp [NoWrap], ?_, fun _ _ _ => trivial⟩⟩⟩⟩⟩ <;>
    simp only [Post] at * <;> simp only [Pre] <;> try omega
  have hp : s4.p = 3 := by omega
  rw [hp]
  refine ⟨1, ⟨by decide, fun d' hd' => ?_⟩, by decide, by decide, by decide⟩
  rcases d' with _ | d'
  · exact absurd hd' (by decide)
  · omega

/-- Every storage with a position in it is such a state, so the previous theorem applies to it. -/
theorem C35_byterator_holds (m : Mem) (p : Int) (h : Valid m p) :
    Holds m.bytes.length m.base m p ⟨fun i => (m.bytes[i]?).getD 0#8, p⟩ :=
  ⟨rfl, rfl, rfl, h.1, h.2, fun i hi => by simp [hi]⟩

/-- **C35 and C36, undefined cases.** In every such state an operation is undefined exactly when it
leaves the storage. -/
theorem C35_byterator_step_ub_iff (e : Endian) (L base : Nat) (m : Mem) (p : Int) (s : St)
    (h : Holds L base m p s) (o : Op) (hw : NoWrap L base o) :
    step e m p o = .ub ↔ ¬ Pre L base s o := by
  constructor
  · intro hub hp
    obtain ⟨_, _, _, _, e1, _⟩ := step_refines (e := e) h o hw hp
    rw [e1] at hub; simp at hub
  · intro hp
    have h' := h
    obtain ⟨hb, hl, hps, h0, h1, hf⟩ := h'
    have move : ∀ d : Int, ¬(0 ≤ p + d ∧ p + d ≤ L) → ptrAdd m p d = .ub := fun d g =>
      if_neg (by rw [hl]; exact g)
    have look : ∀ q : Int, ¬(0 ≤ q ∧ q < L) → Byterator.deref m q = .ub := by
      intro q g
      rcases q with i | i
      · simp only [Int.ofNat_eq_natCast] at g
        show arrGet m.bytes i = _
        rw [arrGet, List.getElem?_eq_none (by omega)]
      · rfl
    cases o with
    | write n v =>
      simp only [Pre] at hp
      simp [step, Byterator.write, store, mem_length, hl, show ¬(p + (n : Int) ≤ L) by omega]
    | writeAs n r v =>
      simp only [Pre] at hp
      simp [step, Byterator.writeAs, Byterator.write, store, mem_length, hl, show ¬(p + (n : Int) ≤ L) by omega]
    | read n w =>
      simp only [Pre] at hp
      simp [step, Byterator.read, Byterator.peek, load, hl, show ¬(p + (n : Int) ≤ L) by omega]
    | peek n w =>
      simp only [Pre] at hp
      simp [step, Byterator.peek, load, hl, show ¬(p + (n : Int) ≤ L) by omega]
    | advance d =>
      simp only [Pre] at hp
      simp [step, addAssign, move d (by omega)]
    | advanceBy n =>
      simp only [Pre] at hp
      simp [step, addAssign, move n (by omega)]
    | inc =>
      simp only [Pre] at hp
      simp [step, Byterator.inc, move 1 (by omega)]
    | dec =>
      simp only [Pre] at hp
      simp [step, Byterator.dec, move (-1) (by omega)]
    | deref =>
      simp only [Pre] at hp
      simp [step, look p (by omega)]
    | assign b =>
      simp only [Pre] at hp
      obtain ⟨i, rfl⟩ : ∃ i : Nat, p = i := ⟨p.toNat, by omega⟩
      have e1 : Byterator.assign m (i : Int) b = .ub := by
        show (arrSet m.bytes i b >>= fun bs => pure { m with bytes := bs }) = _
        rw [arrSet, if_neg (by omega)]; rfl
      simp [step, e1]
    | index i =>
      simp only [Pre] at hp
      simp [step, Byterator.index, look (p + i) (by omega)]
    | align k n =>
      obtain ⟨d, ha, e1⟩ := align_rep h n hw.1 hw.2
      rw [if_neg (fun hfit => hp ⟨d, ha, hfit⟩)] at e1
      simp [step, e1]

/-- Write a 16-bit value at offset 1, go back, overwrite one byte of it, read it back. -/
example : run .little ⟨100, List.replicate 4 0#8⟩ 1
    [.write 2 0x1234#16, .advance (-2), .assign 0xff#8, .read 2 32, .align 2 0, .deref] =
    .ub := by decide

example : run .little ⟨100, List.replicate 5 0#8⟩ 1
    [.write 2 0x1234#16, .advance (-2), .assign 0xff#8, .read 2 32, .align 2 0, .deref] =
    .ok ((⟨100, [0, 0xff, 0x12, 0, 0]⟩, 4), [.unit, .unit, .unit, .val 0x12ff, .unit, .val 0]) := by decide

end Verif.Byterator
