import Verif.Message.Model
import Verif.Byterator.PropsHistory

/-!
# C134: messages between hosts
-/

namespace Verif.Message

open Verif.Endian Verif.Byterator

/-! ## Specification -/

/-- Byte `i` of a field of `2^k` bytes with the number `v`. -/
def wire (o : Order) (k v i : Nat) : BitVec 8 :=
  match o with
  | .le => BitVec.ofNat 8 (v / 256 ^ i)
  | .be => BitVec.ofNat 8 (v / 256 ^ (2 ^ k - 1 - i))

/-- Where a field begins in storage at the address `base`, if what comes before it ends at `p`. -/
def start (base p : Nat) (s : Shape) : Nat :=
  if s.aligned then p + (2 ^ s.k - (base + p) % 2 ^ s.k) % 2 ^ s.k else p

/-- Where the message ends. -/
def finish (base : Nat) : Nat → List Shape → Nat
  | p, [] => p
  | p, s :: ss => finish base (start base p s + 2 ^ s.k) ss

/-- The bytes `b` contain the message. -/
def Contains (b : List (BitVec 8)) (base : Nat) : Nat → List Field → Prop
  | _, [] => True
  | p, f :: fs => (∀ i, i < 2 ^ f.k → b[start base p f.toShape + i]? = some (wire f.order f.k f.val.toNat i)) ∧
      Contains b base (start base p f.toShape + 2 ^ f.k) fs

/-- An offset in one of the fields. -/
def InField (base : Nat) : Nat → List Shape → Nat → Prop
  | _, [], _ => False
  | p, s :: ss, i => (start base p s ≤ i ∧ i < start base p s + 2 ^ s.k) ∨ InField base (start base p s + 2 ^ s.k) ss i

/-- Fields of one, two, four or eight bytes. -/
def Standard (ss : List Shape) : Prop := ∀ s ∈ ss, s.k ≤ 3

abbrev shapes (fs : List Field) : List Shape := fs.map (·.toShape)

/-! ## One field -/

theorem std_pow {k : Nat} (h : k ≤ 3) : Std (2 ^ k) := by
  have : k = 0 ∨ k = 1 ∨ k = 2 ∨ k = 3 := by omega
  rcases this with rfl | rfl | rfl | rfl <;> simp [Std]

theorem pow_le_eight {k : Nat} (h : k ≤ 3) : 2 ^ k ≤ 8 := Nat.pow_le_pow_right (by omega) h

theorem mem_toWire (e : Endian) (o : Order) {n : Nat} (h : Std n) (v : BitVec (8 * n)) :
    mem e n (toWire e o n v) = match o with | .le => bytesLE n v | .be => (bytesLE n v).reverse := by
  cases o
  · exact mem_toLe e h v
  · exact mem_toBe e h v

theorem wire_get (e : Endian) (o : Order) {k : Nat} (h : k ≤ 3) (v : BitVec (8 * 2 ^ k)) {i : Nat} (hi : i < 2 ^ k) :
    (mem e (2 ^ k) (toWire e o _ v))[i]? = some (wire o k v.toNat i) := by
  rw [mem_toWire e o (std_pow h)]
  cases o
  · exact mem_get .little v hi
  · exact mem_get .big v hi

theorem fromWire_toWire (e : Endian) (o : Order) {n : Nat} (h : Std n) (v : BitVec (8 * n)) :
    fromWire e o n (toWire e o n v) = v := by
  cases o
  · exact (C04_round_trip e h v).2.2.1
  · exact (C04_round_trip e h v).1

theorem start_ge (base p : Nat) (s : Shape) : p ≤ start base p s := by
  unfold start; split <;> omega

theorem finish_ge (base : Nat) (ss : List Shape) : ∀ p, p ≤ finish base p ss := by
  induction ss with
  | nil => intro p; exact Nat.le_refl p
  | cons s ss ih =>
    intro p
    exact Nat.le_trans (Nat.le_trans (start_ge base p s) (Nat.le_add_right _ _)) (ih _)

theorem inField_ge {base : Nat} {ss : List Shape} {i : Nat} : ∀ {p}, InField base p ss i → p ≤ i := by
  induction ss with
  | nil => intro p h; exact h.elim
  | cons s ss ih =>
    intro p h
    have := start_ge base p s
    rcases h with h | h
    · omega
    · have := ih h; have := Nat.two_pow_pos s.k; omega

/-- Padding leads to the least aligned address at or behind the position. -/
theorem padding {base p n : Nat} (hn : 0 < n) :
    n ∣ base + (p + (n - (base + p) % n) % n) ∧ ∀ d, n ∣ base + (p + d) → (n - (base + p) % n) % n ≤ d := by
  have h1 := Nat.mod_lt (base + p) hn
  have h2 := Nat.div_add_mod (base + p) n
  by_cases h0 : (base + p) % n = 0
  · rw [h0, Nat.sub_zero, Nat.mod_self]
    exact ⟨Nat.dvd_of_mod_eq_zero (by simpa using h0), fun d _ => Nat.zero_le d⟩
  · rw [Nat.mod_eq_of_lt (by omega)]
    constructor
    · refine ⟨(base + p) / n + 1, ?_⟩
      rw [Nat.mul_add, Nat.mul_one]; omega
    · intro d ⟨c, hc⟩
      rcases Nat.lt_or_ge d (n - (base + p) % n) with h | h
      · have : ((base + p) + d) % n = (base + p) % n + d := by
          rw [Nat.add_mod, Nat.mod_eq_of_lt (a := d) (by omega), Nat.mod_eq_of_lt (by omega)]
        rw [show base + p + d = n * c by omega, Nat.mul_mod_right] at this
        omega
      · exact h

theorem skip_eq {m : Mem} {p : Nat} (s : Shape) (hk : s.k ≤ 3) (hp : p ≤ m.bytes.length)
    (hm : m.base + m.bytes.length + 7 < 2 ^ 64) :
    skip m p s = if start m.base p s ≤ m.bytes.length then .ok (start m.base p s : Int) else .ub := by
  unfold skip start
  cases s.aligned
  · simp [hp]
  · have hv : Valid m (p : Int) := ⟨by omega, by exact_mod_cast hp⟩
    have h8 := pow_le_eight hk
    have hm' : m.base + m.bytes.length + (2 ^ s.k - 1) < 2 ^ 64 := by omega
    obtain ⟨d, a1, a2, a3, _⟩ := C36_advance_to_alignment_partial m s.k (by omega) p hv hm'
    have hc : ∀ j : Nat, ((2 ^ s.k : Int) ∣ address m ((p : Int) + j) ↔ 2 ^ s.k ∣ m.base + (p + j)) := by
      intro j
      unfold address
      rw [show (m.base : Int) + ((p : Int) + j) = ((m.base + (p + j) : Nat) : Int) by push_cast; omega]
      exact_mod_cast Iff.rfl
    obtain ⟨b1, b2⟩ := padding (base := m.base) (p := p) (n := 2 ^ s.k) (Nat.two_pow_pos _)
    have hd : d = (2 ^ s.k - (m.base + p) % 2 ^ s.k) % 2 ^ s.k :=
      Nat.le_antisymm (a2 _ ((hc _).mpr b1)) (b2 d ((hc d).mp a1))
    rw [← hd]
    simp only [↓reduceIte]
    split
    · rename_i h
      have := (a3 0 (by exact_mod_cast h)).1 (by constructor <;> omega)
      rw [this]; push_cast; congr 1; omega
    · rename_i h
      exact C36_align_outside m s.k (by omega) p hv hm' d a1 a2 (by omega) 0

theorem write_eq (e : Endian) {m : Mem} {p n : Nat} (v : BitVec (8 * n)) :
    write e m p n v = if p + n ≤ m.bytes.length then
      .ok (⟨m.base, m.bytes.take p ++ mem e n v ++ m.bytes.drop (p + n)⟩, ((p + n : Nat) : Int)) else .ub := by
  have hl : (mem e n v).length = n := mem_length e v
  by_cases h : p + n ≤ m.bytes.length
  · rw [if_pos h, write, store_ok (by omega) (by rw [hl]; exact_mod_cast h), Outcome.ok_bind]
    simp only [hl, Int.toNat_natCast]
    rw [ptrAdd, if_pos]
    · simp
    · simp only [List.length_append, List.length_take, List.length_drop, hl]
      omega
  · rw [if_neg h, write, store, if_neg (by rw [hl]; omega)]
    rfl

theorem put_get {b x : List (BitVec 8)} {a n : Nat} (hx : x.length = n) (h : a + n ≤ b.length) (i : Nat) :
    (b.take a ++ x ++ b.drop (a + n))[i]? = if a ≤ i ∧ i < a + n then x[i - a]? else b[i]? := by
  have ht : (b.take a).length = a := by rw [List.length_take]; omega
  by_cases h1 : i < a
  · rw [List.append_assoc, List.getElem?_append_left (by omega), List.getElem?_take, if_pos h1, if_neg (by omega)]
  · by_cases h2 : i < a + n
    · rw [List.append_assoc, List.getElem?_append_right (by omega), ht, List.getElem?_append_left (by omega),
        if_pos (by omega)]
    · rw [List.getElem?_append_right (by rw [List.length_append, ht, hx]; omega), List.getElem?_drop,
        List.length_append, ht, hx, if_neg (by omega)]
      congr 1; omega

theorem put_length {b x : List (BitVec 8)} {a n : Nat} (hx : x.length = n) (h : a + n ≤ b.length) :
    (b.take a ++ x ++ b.drop (a + n)).length = b.length := by
  simp only [List.length_append, List.length_take, List.length_drop, hx]; omega

/-! ## Writing -/

theorem contains_congr {b b' : List (BitVec 8)} {base : Nat} {fs : List Field} :
    ∀ {p}, (∀ i, p ≤ i → b[i]? = b'[i]?) → Contains b base p fs → Contains b' base p fs := by
  induction fs with
  | nil => intro p _ _; trivial
  | cons f fs ih =>
    intro p h hc
    have hs := start_ge base p f.toShape
    have h2 := Nat.two_pow_pos f.k
    exact ⟨fun i hi => by rw [← h _ (by omega)]; exact hc.1 i hi, ih (fun i hi => h i (by omega)) hc.2⟩

/-- **C134, writing.** On a host of either byte order, a message that fits in the storage is written so that the storage contains the bytes of
its fields in the orders asked for, each at its place; everything else, padding included, is unchanged.  If it does not fit, writing it is
undefined. -/
theorem C134_encode (e : Endian) (fs : List Field) (hfs : Standard (shapes fs)) :
    ∀ (m : Mem) (p : Nat), p ≤ m.bytes.length → m.base + m.bytes.length + 7 < 2 ^ 64 →
      if finish m.base p (shapes fs) ≤ m.bytes.length then
        ∃ b, encode e m p fs = .ok (⟨m.base, b⟩, (finish m.base p (shapes fs) : Int)) ∧ b.length = m.bytes.length ∧
          Contains b m.base p fs ∧ ∀ i, ¬ InField m.base p (shapes fs) i → b[i]? = m.bytes[i]?
      else encode e m p fs = .ub := by
  induction fs with
  | nil =>
    intro m p hp _
    simp only [shapes, List.map_nil, finish, hp, ↓reduceIte]
    exact ⟨m.bytes, rfl, rfl, trivial, fun _ _ => rfl⟩
  | cons f fs ih =>
    intro m p hp hm
    have hk : f.k ≤ 3 := hfs f.toShape (by simp [shapes])
    have ih := ih (fun s hs => hfs s (by simp only [shapes, List.map_cons, List.mem_cons]; exact Or.inr hs))
    simp only [encode, skip_eq f.toShape hk hp hm, shapes, List.map_cons, finish]
    have hpos := Nat.two_pow_pos f.k
    have hge := finish_ge m.base (shapes fs) (start m.base p f.toShape + 2 ^ f.k)
    by_cases h1 : start m.base p f.toShape ≤ m.bytes.length
    · rw [if_pos h1, Outcome.ok_bind, write_eq]
      by_cases h2 : start m.base p f.toShape + 2 ^ f.k ≤ m.bytes.length
      · rw [if_pos h2, Outcome.ok_bind]
        have hl := mem_length e (toWire e f.order _ f.val)
        have hlen := put_length hl h2
        have := ih ⟨m.base, m.bytes.take (start m.base p f.toShape) ++ mem e _ (toWire e f.order _ f.val) ++
          m.bytes.drop (start m.base p f.toShape + 2 ^ f.k)⟩ (start m.base p f.toShape + 2 ^ f.k)
          (by simp only [hlen]; exact h2) (by simp only [hlen]; exact hm)
        simp only [hlen] at this
        split
        · rename_i h3
          rw [if_pos h3] at this
          obtain ⟨b, e1, e2, e3, e4⟩ := this
          refine ⟨b, e1, e2, ⟨fun i hi => ?_, e3⟩, fun i hi => ?_⟩
          · rw [e4 _ (fun h => by have := inField_ge h; omega), put_get hl h2, if_pos (by omega), Nat.add_sub_cancel_left]
            exact wire_get e f.order hk f.val hi
          · rw [e4 i (fun h => hi (Or.inr h)), put_get hl h2, if_neg (fun h => hi (Or.inl h))]
        · rename_i h3
          rw [if_neg h3] at this
          exact this
      · rw [if_neg h2, if_neg (by show ¬ finish m.base _ (shapes fs) ≤ _; omega)]
        rfl
    · rw [if_neg h1, if_neg (by show ¬ finish m.base _ (shapes fs) ≤ _; omega)]
      rfl

/-- **C134, hosts.** The program that writes a message does the same on hosts of both byte orders, on every storage. -/
theorem C134_encode_hosts (fs : List Field) (hfs : Standard (shapes fs)) :
    ∀ (m : Mem) (p : Int), encode .little m p fs = encode .big m p fs := by
  induction fs with
  | nil => intro m p; rfl
  | cons f fs ih =>
    intro m p
    have hk : f.k ≤ 3 := hfs f.toShape (by simp [shapes])
    have ih := ih (fun s hs => hfs s (by simp only [shapes, List.map_cons, List.mem_cons]; exact Or.inr hs))
    simp only [encode, write, mem_toWire _ f.order (std_pow hk), ih]

/-! ## Reading -/

theorem read_eq (e : Endian) {m : Mem} {p n r : Nat} (h : p + n ≤ m.bytes.length) :
    read e m p n r = .ok ((ofMem e n ((m.bytes.drop p).take n)).setWidth r, ((p + n : Nat) : Int)) := by
  rw [Byterator.read, peek, load_ok (by omega) (by exact_mod_cast h)]
  simp only [Outcome.ok_bind, Outcome.pure_eq_ok, Int.toNat_natCast]
  rw [ptrAdd, if_pos (by constructor <;> omega)]
  simp

/-- **C134, reading.** From storage that contains a message, a host of either byte order reads the numbers of its fields. -/
theorem C134_decode (e : Endian) (m : Mem) (hm : m.base + m.bytes.length + 7 < 2 ^ 64) (fs : List Field) (hfs : Standard (shapes fs)) :
    ∀ (p : Nat), finish m.base p (shapes fs) ≤ m.bytes.length → Contains m.bytes m.base p fs →
      decode e m p (shapes fs) = .ok (fs.map (·.val.toNat), (finish m.base p (shapes fs) : Int)) := by
  induction fs with
  | nil => intro p _ _; rfl
  | cons f fs ih =>
    intro p hf hc
    have hk : f.k ≤ 3 := hfs f.toShape (by simp [shapes])
    have ih := ih (fun s hs => hfs s (by simp only [shapes, List.map_cons, List.mem_cons]; exact Or.inr hs))
    have hpos := Nat.two_pow_pos f.k
    have hge := finish_ge m.base (shapes fs) (start m.base p f.toShape + 2 ^ f.k)
    simp only [shapes, List.map_cons, finish] at hf
    have hge' : start m.base p f.toShape + 2 ^ f.k ≤ m.bytes.length := Nat.le_trans hge hf
    have hs := start_ge m.base p f.toShape
    have hb : (m.bytes.drop (start m.base p f.toShape)).take (2 ^ f.k) = mem e _ (toWire e f.order _ f.val) := by
      apply List.ext_getElem?
      intro i
      have hl := mem_length e (toWire e f.order _ f.val)
      by_cases hi : i < 2 ^ f.k
      · rw [List.getElem?_take, if_pos hi, List.getElem?_drop, wire_get e f.order hk f.val hi]
        exact hc.1 i hi
      · rw [List.getElem?_take, if_neg hi, List.getElem?_eq_none (by omega)]
    simp only [shapes, List.map_cons, decode, finish]
    rw [skip_eq f.toShape hk (by omega) hm, if_pos (by omega), Outcome.ok_bind, read_eq e hge', Outcome.ok_bind, ih _ hf hc.2]
    simp only [Outcome.ok_bind, Outcome.pure_eq_ok, hb, ofMem_mem, BitVec.setWidth_eq, fromWire_toWire e f.order (std_pow hk)]

/-! ## From one host to another -/

theorem contains_move {b b' : List (BitVec 8)} {base base' : Nat} {fs : List Field} :
    ∀ {p p' : Nat}, (∀ f ∈ fs, f.aligned = true → (base + p) % 8 = (base' + p') % 8) → Standard (shapes fs) →
      (∀ j, p + j < finish base p (shapes fs) → b'[p' + j]? = b[p + j]?) → Contains b base p fs →
      Contains b' base' p' fs ∧ finish base' p' (shapes fs) + p = finish base p (shapes fs) + p' := by
  induction fs with
  | nil => intro p p' _ _ _ _; exact ⟨trivial, by simp [shapes, finish]; omega⟩
  | cons f fs ih =>
    intro p p' ha hfs hb hc
    have hk : f.k ≤ 3 := hfs f.toShape (by simp [shapes])
    have hfs' : Standard (shapes fs) :=
      fun s hs => hfs s (by simp only [shapes, List.map_cons, List.mem_cons]; exact Or.inr hs)
    have hs : ∃ d, start base p f.toShape = p + d ∧ start base' p' f.toShape = p' + d := by
      unfold start
      cases hal : f.aligned
      · exact ⟨0, by simp, by simp⟩
      · have h8 := ha f (by simp) hal
        have hd : 2 ^ f.k ∣ 8 := ⟨2 ^ (3 - f.k), by rw [← Nat.pow_add, show f.k + (3 - f.k) = 3 by omega]⟩
        have hmod : (base + p) % 2 ^ f.k = (base' + p') % 2 ^ f.k := by
          rw [← Nat.mod_mod_of_dvd (base + p) hd, h8, Nat.mod_mod_of_dvd _ hd]
        exact ⟨(2 ^ f.k - (base + p) % 2 ^ f.k) % 2 ^ f.k, by simp, by simp [hmod]⟩
    obtain ⟨d, e1, e2⟩ := hs
    have hpos := Nat.two_pow_pos f.k
    have hge := finish_ge base (shapes fs) (start base p f.toShape + 2 ^ f.k)
    simp only [shapes, List.map_cons, finish] at hb
    rw [e1] at hge hb
    obtain ⟨c1, c2⟩ := hc
    rw [e1] at c1 c2
    have := ih (p := p + d + 2 ^ f.k) (p' := p' + d + 2 ^ f.k) (fun g hg hal => by
        have := ha g (by simp [hg]) hal; omega) hfs'
      (fun j hj => by
        have := hb (d + 2 ^ f.k + j) (by simp only [← Nat.add_assoc]; exact hj)
        simpa only [← Nat.add_assoc] using this) c2
    refine ⟨⟨fun i hi => ?_, ?_⟩, ?_⟩
    · rw [e2]
      have := hb (d + i) (by have : finish base (p + d + 2 ^ f.k) (shapes fs) = finish base (p + d + 2 ^ f.k) (List.map (·.toShape) fs) := rfl
                             omega)
      simp only [← Nat.add_assoc] at this
      rw [this]; exact c1 i hi
    · rw [e2]; exact this.1
    · simp only [shapes, List.map_cons, finish, e1, e2]
      have h3 := this.2
      simp only [shapes] at h3
      omega

/-- **C134, from one host to another.** A message is written on one host, its bytes are copied to some place in the storage of another and read
there.  Whatever the byte orders of the hosts, the numbers read are those written, provided that no field is aligned or the
addresses of the two messages are equal modulo the largest alignment. -/
theorem C134_between_hosts_partial (e e' : Endian) (fs : List Field) (hfs : Standard (shapes fs)) {m m' r : Mem} {p p' : Nat} {q : Int}
    (hp : p ≤ m.bytes.length) (hm : m.base + m.bytes.length + 7 < 2 ^ 64) (hr : r.base + r.bytes.length + 7 < 2 ^ 64)
    (hal : ∀ f ∈ fs, f.aligned = true → (m.base + p) % 8 = (r.base + p') % 8)
    (hw : encode e m p fs = .ok (m', q))
    (hcopy : ∀ j : Nat, p + j < q → r.bytes[p' + j]? = m'.bytes[p + j]?) (hfit : p' + (q.toNat - p) ≤ r.bytes.length) :
    ∃ q', decode e' r p' (shapes fs) = .ok (fs.map (·.val.toNat), q') ∧ q' - p' = q - p := by
  have h := C134_encode e fs hfs m p hp hm
  split at h
  · obtain ⟨b, e1, e2, e3, e4⟩ := h
    rw [e1] at hw
    simp only [Outcome.ok.injEq, Prod.mk.injEq] at hw
    obtain ⟨rfl, rfl⟩ := hw
    have hge := finish_ge m.base (shapes fs) p
    obtain ⟨c1, c2⟩ := contains_move (b' := r.bytes) (base' := r.base) (p' := p') hal hfs
      (fun j hj => hcopy j (by exact_mod_cast hj)) e3
    refine ⟨_, C134_decode e' r hr fs hfs p' (by omega) c1, by omega⟩
  · rw [h] at hw; cases hw

/-- A message of a byte, an aligned big endian number and a little endian number. -/
def sample : List Field := [⟨⟨.le, 0, false⟩, 0x7f#8⟩, ⟨⟨.be, 1, true⟩, 0x1234#16⟩, ⟨⟨.le, 2, false⟩, 0xdeadbeef#32⟩]

/-- It is written at an odd place on a little endian host, and read at another odd place on a big endian host. -/
example : Standard (shapes sample) ∧
    (∀ f ∈ sample, f.aligned = true → (1001 + 2) % 8 = (5000 + 3) % 8) ∧
    encode .little ⟨1001, List.replicate 9 0xaa#8⟩ 2 sample =
      .ok (⟨1001, [0xaa#8, 0xaa#8, 0x7f#8, 0x12#8, 0x34#8, 0xef#8, 0xbe#8, 0xad#8, 0xde#8]⟩, 9) ∧
    decode .big ⟨5000, [0#8, 0#8, 0#8, 0x7f#8, 0x12#8, 0x34#8, 0xef#8, 0xbe#8, 0xad#8, 0xde#8]⟩ 3 (shapes sample) =
      .ok ([0x7f, 0x1234, 0xdeadbeef], 10) := by
  refine ⟨by unfold Standard; decide, by decide, by decide, by decide⟩

/-- **C134 (negation), alignment.** Padding depends on the address, not on the place in the message: a byte followed by an aligned 16-bit
number, written at an even address and read at an odd one.  The number read consists of the padding byte and the first byte of the
number written, whatever they are. -/
theorem C134_alignment_violated (e e' : Endian) (x : BitVec 8) (v : BitVec 16) (pad : BitVec 8) {base base' : Nat} (h : base % 2 = 0)
    (h' : base' % 2 = 1) (hb : base + 11 < 2 ^ 64) (hb' : base' + 11 < 2 ^ 64) :
    encode e ⟨base, [0#8, pad, 0#8, 0#8]⟩ 0 [⟨⟨.be, 0, false⟩, x⟩, ⟨⟨.be, 1, true⟩, v⟩] =
      .ok (⟨base, [x, pad, BitVec.ofNat 8 (v.toNat / 256), BitVec.ofNat 8 v.toNat]⟩, 4) ∧
    decode e' ⟨base', [x, pad, BitVec.ofNat 8 (v.toNat / 256), BitVec.ofNat 8 v.toNat]⟩ 0 [⟨.be, 0, false⟩, ⟨.be, 1, true⟩] =
      .ok ([x.toNat, pad.toNat * 256 + v.toNat / 256], 3) := by
  constructor
  · have hfs : Standard (shapes [⟨⟨.be, 0, false⟩, x⟩, ⟨⟨.be, 1, true⟩, v⟩]) := by
      intro s hs; simp [shapes] at hs; rcases hs with rfl | rfl <;> simp
    have := C134_encode e [⟨⟨.be, 0, false⟩, x⟩, ⟨⟨.be, 1, true⟩, v⟩] hfs ⟨base, [0#8, pad, 0#8, 0#8]⟩ 0 (by simp) (by simpa using hb)
    have hfin : finish base 0 (shapes [⟨⟨.be, 0, false⟩, x⟩, ⟨⟨.be, 1, true⟩, v⟩]) = 4 := by
      simp [finish, start]; omega
    simp only [hfin] at this
    simp only [List.length_cons, List.length_nil, Nat.reduceLeDiff, ↓reduceIte] at this
    obtain ⟨b, e1, e2, ⟨e3, e4, _⟩, e5⟩ := this
    have hst : (2 - (base + 1) % 2) % 2 = 1 := by omega
    simp only [start, Bool.false_eq_true, ↓reduceIte, Nat.zero_add, Nat.pow_zero, Nat.pow_one, hst] at e3 e4 e5
    match b, e2 with
    | [b0, b1, b2, b3], _ =>
      have r0 := e3 0 (by omega)
      have r2 := e4 0 (by omega)
      have r3 := e4 1 (by omega)
      have r1 := e5 1 (by simp [InField, start, hst])
      simp [wire] at r0 r1 r2 r3
      rw [show ((0 : Int)) = ((0 : Nat) : Int) from rfl, e1]
      subst r0 r1 r2 r3
      simp
  · have hfs : Standard (shapes [⟨⟨.be, 0, false⟩, x⟩, ⟨⟨.be, 1, true⟩, BitVec.ofNat 16 (pad.toNat * 256 + v.toNat / 256)⟩]) := by
      intro s hs; simp [shapes] at hs; rcases hs with rfl | rfl <;> simp
    have hst : (2 - (base' + 1) % 2) % 2 = 0 := by omega
    have hfin : finish base' 0 (shapes [⟨⟨.be, 0, false⟩, x⟩, ⟨⟨.be, 1, true⟩, BitVec.ofNat 16 (pad.toNat * 256 + v.toNat / 256)⟩]) = 3 := by
      simp [finish, start]; omega
    have hlt : pad.toNat * 256 + v.toNat / 256 < 65536 := by
      have := pad.isLt; have := v.isLt; omega
    have := C134_decode e' ⟨base', [x, pad, BitVec.ofNat 8 (v.toNat / 256), BitVec.ofNat 8 v.toNat]⟩ (by simpa using hb')
      [⟨⟨.be, 0, false⟩, x⟩, ⟨⟨.be, 1, true⟩, BitVec.ofNat 16 (pad.toNat * 256 + v.toNat / 256)⟩] hfs 0 (by rw [hfin]; simp) (by
        refine ⟨fun i hi => ?_, fun i hi => ?_, trivial⟩
        · have : i = 0 := by simpa using hi
          subst this; simp [start, wire]
        · have : i = 0 ∨ i = 1 := by simp at hi; omega
          simp only [start, Bool.false_eq_true, ↓reduceIte, Nat.zero_add, Nat.pow_zero, Nat.pow_one, hst]
          rcases this with rfl | rfl
          · simp [wire, Nat.mod_eq_of_lt hlt]
            apply BitVec.eq_of_toNat_eq
            simp
            have := v.isLt; have := pad.isLt; omega
          · simp [wire, Nat.mod_eq_of_lt hlt]
            apply BitVec.eq_of_toNat_eq
            simp)
    rw [hfin] at this
    simpa [Nat.mod_eq_of_lt hlt] using this

/-- An even and an odd address. -/
example : (1000 : Nat) % 2 = 0 ∧ (1001 : Nat) % 2 = 1 := by decide

/-- **C134 (negation), conversions left out.** A number that is written without a conversion and read on a host of the other byte order comes
back with its bytes reversed, so it is another number unless they read the same backwards. -/
theorem C134_native_violated {n : Nat} (h : Std n) (v : BitVec (8 * n)) {m : Mem} {p : Nat} (hp : p + n ≤ m.bytes.length) :
    ∃ m' q, write .little m p n v = .ok (m', q) ∧ peek .big m' p n (8 * n) = .ok (byteswap n v) ∧
      (byteswap n v = v ↔ ∀ k, k < n → byteAt v k = byteAt v (n - 1 - k)) := by
  refine ⟨_, _, by rw [write_eq, if_pos hp], ?_, ?_⟩
  · rw [peek, load_ok (by omega) (by simp only [put_length (mem_length .little v) hp]; exact_mod_cast hp)]
    simp only [Outcome.ok_bind, Outcome.pure_eq_ok, Int.toNat_natCast, BitVec.setWidth_eq]
    have hb : ((m.bytes.take p ++ mem .little n v ++ m.bytes.drop (p + n)).drop p).take n = bytesLE n v := by
      have ht : (m.bytes.take p).length = p := by rw [List.length_take]; omega
      have hl : (mem .little n v).length = n := mem_length .little v
      rw [List.append_assoc, List.drop_append, List.drop_of_length_le (by omega), List.nil_append, ht, Nat.sub_self, List.drop_zero,
        List.take_append_of_le_length (by omega), List.take_of_length_le (by omega)]
      rfl
    rw [hb]
    congr 1
    show ofBytesLE n (bytesLE n v).reverse = _
    rw [← bytesLE_byteswap h, ofBytesLE_bytesLE]
  · have hs := (C04_byteswap h v).2
    constructor
    · intro he k hk; rw [← hs k hk, he]
    · intro hk
      have hb : bytesLE n (byteswap n v) = bytesLE n v := by
        simp only [bytesLE]
        apply List.map_congr_left
        intro k hk'
        rw [hs k (by simpa using hk'), ← hk k (by simpa using hk')]
      rw [← ofBytesLE_bytesLE (byteswap n v), hb, ofBytesLE_bytesLE]

/-- A number whose bytes do not read the same backwards. -/
example : byteAt 0x1234#16 0 ≠ byteAt 0x1234#16 1 ∧ byteswap 2 0x1234#16 = 0x3412#16 := by decide

end Verif.Message
