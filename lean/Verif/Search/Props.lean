import Verif.Search.Spec
import Verif.Bitset.PropsVisit
import Verif.CxQueue.Lemmas
import Verif.Loops.Props

/-!
# C147: breadth-first search
-/

namespace Verif.Search

open Verif.BitOps (StdWidth)
open Verif.Bitset (Words bits storageSize storage_bounds)
open Verif.CxQueue (Cfg Queue Rep)

theorem pushAll_ok {c : Cfg Nat} (hN : c.N < szMod) (p : Nat) : ∀ (ms : List Nat) (b : Bool) {q : Queue Nat} {l : List Nat},
    Rep c.N q l → l.length + ms.length ≤ c.N →
    ∃ q', (ms.map fun i => (i, b)).foldl (pushOne c) (.ok (q, p)) = .ok (q', p) ∧ Rep c.N q' (l ++ ms) := by
  intro ms b
  induction ms with
  | nil => intro q l h _; exact ⟨q, rfl, by simpa using h⟩
  | cons m ms ih =>
    intro q l h hl
    simp only [List.length_cons] at hl
    obtain ⟨q1, e1, h1⟩ := CxQueue.rep_push hN h (by omega) m
    obtain ⟨q2, e2, h2⟩ := ih h1 (by simp; omega)
    refine ⟨q2, ?_, by simpa using h2⟩
    rw [List.map_cons, List.foldl_cons, ← e2]
    congr 1
    simp [pushOne, e1]

/-- The invariant: nodes `P` were taken from the queue, `Q` is in it, and all nodes within `d` edges are among them. -/
structure Inv (w : Nat) (c : Cfg Nat) (e : Nat → Nat → Bool) (s : Nat) (seen : Words w) (todo : Queue Nat) (P Q : List Nat) (d : Nat) : Prop where
  words : seen.length = storageSize w c.N
  rep : Rep c.N todo Q
  nodup : (P ++ Q).Nodup
  lt : ∀ n, n ∈ P ++ Q → n < c.N
  mem : ∀ n, n < c.N → (bits seen n = true ↔ n ∈ P ++ Q)
  start : s ∈ P ++ Q
  done : ∀ n, n ∈ P → Within c.N e s d n
  todo : ∀ n, n ∈ Q → Within c.N e s (d + 1) n
  all : ∀ n, Within c.N e s d n → n ∈ P ++ Q
  closed : ∀ n, n ∈ P → ∀ m, m < c.N → e n m = true → m ∈ P ++ Q
  sorted : (P ++ Q).Pairwise (Nearer c.N e s)

theorem within_mono {N e s j k n} (h : Within N e s j n) (hj : j ≤ k) : Within N e s k n := by
  obtain ⟨i, hi, h⟩ := h; exact ⟨i, by omega, h⟩

/-- Going on to the next distance, when the first node of the queue is not within this one. -/
theorem Inv.next {w c e s} {seen : Words w} {todo P x Q d} (h : Inv w c e s seen todo P (x :: Q) d) (hx : ¬ Within c.N e s d x) :
    Inv w c e s seen todo P (x :: Q) (d + 1) := by
  have hQ : ∀ n, n ∈ x :: Q → ¬ Within c.N e s d n := by
    intro n hn hw
    rcases List.mem_cons.1 hn with rfl | hn
    · exact hx hw
    · have := (List.pairwise_cons.1 (List.pairwise_append.1 h.sorted).2.1).1 n hn
      obtain ⟨k, hk, hwk⟩ := hw
      exact hx (within_mono (this k hwk) hk)
  refine ⟨h.words, h.rep, h.nodup, h.lt, h.mem, h.start, fun n hn => within_mono (h.done n hn) (by omega),
    fun n hn => within_mono (h.todo n hn) (by omega), ?_, h.closed, h.sorted⟩
  rintro n ⟨k, hk, hw⟩
  cases hw with
  | nil => exact h.start
  | @snoc b k _ hb he hm =>
    have hin := h.all b ⟨k, by omega, hb⟩
    rcases List.mem_append.1 hin with hp | hq
    · exact h.closed b hp n hm he
    · exact absurd ⟨k, by omega, hb⟩ (hQ b hq)

theorem length_le {N : Nat} {l : List Nat} (hn : l.Nodup) (hl : ∀ n, n ∈ l → n < N) : l.length ≤ N := by
  have := Loops.nodup_length_le (l := List.range N) hn (by simpa using hl)
  simpa using this

/-- One turn of the loop. -/
theorem turn_ok {w : Nat} (hw : StdWidth w) {c : Cfg Nat} (hN : c.N < szMod) {e s} {g : List (Words w)} (hg : Graph c.N e g)
    {seen : Words w} {todo P x Q d} (h : Inv w c e s seen todo P (x :: Q) d) (hx : Within c.N e s d x) (p : Nat) :
    ∃ todo1 todo2 succ fresh seen' F, CxQueue.pop c todo = .ok ((todo1, x), 0) ∧ arrGet g x = .ok succ ∧
      Bitset.sub c.N succ seen = .ok fresh ∧
      Bitset.forEach .setBit c.N (pushOne c) fresh (.ok (todo1, p)) = .ok (.ok (todo2, p)) ∧
      Bitset.or c.N seen fresh = .ok seen' ∧ Inv w c e s seen' todo2 (P ++ [x]) (Q ++ F) d := by
  have hw0 := Bitset.StdWidth.pos hw
  have hB := storage_bounds hw0 c.N
  have hxN : x < c.N := h.lt x (by simp)
  obtain ⟨todo1, e1, h1⟩ := CxQueue.rep_pop hN h.rep
  obtain ⟨hgl, hg⟩ := hg
  obtain ⟨succ, hsu⟩ : ∃ t, g[x]? = some t := ⟨g[x]'(by omega), List.getElem?_eq_getElem (by omega)⟩
  obtain ⟨hsl, hse⟩ := hg x succ hsu
  have hsb : ∀ b, b < c.N → bits succ b = e x b := by
    intro b hb
    have := hse b hb
    rw [Bitset.get_bits hw0 (by rw [hsl]; omega)] at this
    injection this
  obtain ⟨fresh, e2, hfl, hfb⟩ := Bitset.sub_spec hw0 (N := c.N) hsl h.words
  obtain ⟨b, hb, e3⟩ := Bitset.C11_bitset_for_each_partial hw (N := c.N) (by omega) hfl .setBit (pushOne c) (.ok (todo1, p))
  obtain ⟨seen', e4, hl4, hb4⟩ := Bitset.or_spec (N := c.N) h.words hfl
  have hbb : ∀ i, i < c.N → b i = (e x i && !(bits seen i)) := by
    intro i hi
    have := hb i hi
    rw [Bitset.get_bits hw0 (by rw [hfl]; omega)] at this
    injection this with this
    rw [← this, hfb, hsb i hi]
  have hF : ∀ m, m ∈ (List.range c.N).filter b ↔ m < c.N ∧ e x m = true ∧ m ∉ P ++ x :: Q := by
    intro m
    simp only [List.mem_filter, List.mem_range]
    constructor
    · rintro ⟨hm, hbm⟩
      rw [hbb m hm] at hbm
      simp only [Bool.and_eq_true, Bool.not_eq_true'] at hbm
      refine ⟨hm, hbm.1, fun hin => ?_⟩
      rw [(h.mem m hm).2 hin] at hbm
      cases hbm.2
    · rintro ⟨hm, he, hin⟩
      refine ⟨hm, ?_⟩
      rw [hbb m hm, he]
      cases hs : bits seen m with
      | true => exact absurd ((h.mem m hm).1 hs) hin
      | false => rfl
  generalize hFd : (List.range c.N).filter b = F at hF
  have hFn : F.Nodup := by rw [← hFd]; exact List.Pairwise.filter _ List.nodup_range
  have hnd : (P ++ x :: Q ++ F).Nodup := by
    rw [List.nodup_append]
    refine ⟨h.nodup, hFn, fun a ha m hm => ?_⟩
    rintro rfl
    exact ((hF a).1 hm).2.2 ha
  have hlt : ∀ n, n ∈ P ++ x :: Q ++ F → n < c.N := by
    intro n hn
    rcases List.mem_append.1 hn with hn | hn
    · exact h.lt n hn
    · exact ((hF n).1 hn).1
  have hlen := length_le hnd hlt
  obtain ⟨todo2, e5, h5⟩ := pushAll_ok hN p F true h1 (by simp at hlen; omega)
  have hmem : ∀ n, n ∈ P ++ [x] ++ (Q ++ F) ↔ n ∈ P ++ x :: Q ++ F := by intro n; simp
  have heq : P ++ [x] ++ (Q ++ F) = P ++ x :: Q ++ F := by simp
  refine ⟨todo1, todo2, succ, fresh, seen', F, e1, arrGet_ok.2 hsu, e2, ?_, e4, hl4, h5, ?_, ?_, ?_, ?_, ?_, ?_, ?_, ?_, ?_⟩
  · rw [e3]
    simp only [Bitset.Spec.calls]
    rw [hFd, e5]
  · rw [heq]; exact hnd
  · rw [heq]; exact hlt
  · intro n hn
    rw [hb4, hfb, hsb n hn, hmem]
    rw [List.mem_append, hF n, ← h.mem n hn]
    cases bits seen n <;> simp [hn]
  · rw [heq]; exact List.mem_append_left _ h.start
  · intro n hn
    rcases List.mem_append.1 hn with hn | hn
    · exact h.done n hn
    · rw [List.mem_singleton] at hn; subst hn; exact hx
  · intro n hn
    rcases List.mem_append.1 hn with hn | hn
    · exact h.todo n (List.mem_cons_of_mem _ hn)
    · obtain ⟨hn1, hn2, _⟩ := (hF n).1 hn
      obtain ⟨k, hk, hwk⟩ := hx
      exact ⟨k + 1, by omega, .snoc hwk hn2 hn1⟩
  · intro n hn
    rw [heq]; exact List.mem_append_left _ (h.all n hn)
  · intro n hn m hm he
    rw [heq]
    rcases List.mem_append.1 hn with hn | hn
    · exact List.mem_append_left _ (h.closed n hn m hm he)
    · rw [List.mem_singleton] at hn; subst hn
      by_cases hin : m ∈ P ++ n :: Q
      · exact List.mem_append_left _ hin
      · exact List.mem_append_right _ ((hF m).2 ⟨hm, he, hin⟩)
  · have hfar : ∀ m, m ∈ F → ∀ k, Walk c.N e s m k → d + 1 ≤ k := by
      intro m hm k hk
      apply Classical.byContradiction
      intro hlt
      exact ((hF m).1 hm).2.2 (h.all m ⟨k, by omega, hk⟩)
    have hFw : ∀ n, n ∈ F → Within c.N e s (d + 1) n := by
      intro n hn
      obtain ⟨hn1, hn2, _⟩ := (hF n).1 hn
      obtain ⟨k, hk, hwk⟩ := hx
      exact ⟨k + 1, by omega, .snoc hwk hn2 hn1⟩
    rw [heq, List.pairwise_append]
    refine ⟨h.sorted, ?_, ?_⟩
    · apply List.pairwise_of_forall_mem_list
      intro a ha m hm k hk
      exact within_mono (hFw a ha) (hfar m hm k hk)
    · intro a ha m hm k hk
      have := hfar m hm k hk
      rcases List.mem_append.1 ha with ha | ha
      · exact within_mono (h.done a ha) (by omega)
      · exact within_mono (h.todo a ha) this

theorem loop_ok {w : Nat} (hw : StdWidth w) {c : Cfg Nat} (hN : c.N < szMod) {e s} {g : List (Words w)} (hg : Graph c.N e g) (p : Nat) :
    ∀ (fuel : Nat) {seen : Words w} {todo P Q d}, Inv w c e s seen todo P Q d → c.N < fuel + P.length →
    ∃ seen' todo' O d', loop c g fuel seen todo p = .ok ⟨seen', O, p⟩ ∧ Inv w c e s seen' todo' (P ++ O) [] d' := by
  intro fuel
  induction fuel with
  | zero =>
    intro seen todo P Q d h hf
    have := length_le h.nodup h.lt
    simp at this
    omega
  | succ fuel ih =>
    intro seen todo P Q d h hf
    cases Q with
    | nil =>
      exact ⟨seen, todo, [], d, by simp [loop, h.rep.size], by simpa using h⟩
    | cons x Q =>
      have key : ∀ {d}, Inv w c e s seen todo P (x :: Q) d → Within c.N e s d x →
          ∃ seen' todo' O d', loop c g (fuel + 1) seen todo p = .ok ⟨seen', O, p⟩ ∧ Inv w c e s seen' todo' (P ++ O) [] d' := by
        intro d h hx
        obtain ⟨todo1, todo2, succ, fresh, seen', F, e1, e2, e3, e4, e5, h'⟩ := turn_ok hw hN hg h hx p
        obtain ⟨seen2, todo3, O, d', e6, h6⟩ := ih h' (by simp; omega)
        refine ⟨seen2, todo3, x :: O, d', ?_, by simpa using h6⟩
        have : todo.size ≠ 0 := by rw [h.rep.size]; simp
        simp [loop, this, e1, e2, e3, e4, e5, e6]
      by_cases hx : Within c.N e s d x
      · exact key h hx
      · exact key (h.next hx) (h.todo x (by simp))

/-- For every size of the bitset and of the queue, every width of words, overflow policy and panic handler, every graph and every start:
the search ends, within `N + 1` tests of the loop's condition, without undefined behaviour and without a panic;
exactly the nodes that can be reached are visited, each once, nearest first; and `seen` has exactly those positions set. -/
theorem C147_search {w : Nat} (hw : StdWidth w) {c : Cfg Nat} (hN : c.N < szMod) {e : Nat → Nat → Bool} {g : List (Words w)}
    (hg : Graph c.N e g) (d : Nat) {s : Nat} (hs : s < c.N) {fuel : Nat} (hf : c.N < fuel) :
    ∃ r, search c g d s fuel = .ok r ∧ r.panics = 0 ∧ r.order.Nodup ∧
      (∀ n, n ∈ r.order ↔ n < c.N ∧ ∃ k, Walk c.N e s n k) ∧
      r.order.Pairwise (Nearer c.N e s) ∧
      (∀ n, n < c.N → Bitset.get r.seen n = .ok (decide (n ∈ r.order))) := by
  have hw0 := Bitset.StdWidth.pos hw
  have hB := storage_bounds hw0 c.N
  have hel : (Bitset.empty w c.N).length = storageSize w c.N := by simp [Bitset.empty]
  obtain ⟨seen, e1, hl1, hb1⟩ := Bitset.set_spec hw0 (s := Bitset.empty w c.N) (i := s) (by rw [hel]; omega) true
  obtain ⟨todo, e2, h2⟩ := CxQueue.rep_push hN (CxQueue.rep_init c.N d) (by simpa using by omega) s
  have hz : ∀ i, bits (Bitset.empty w c.N) i = false := by
    intro i
    simp only [bits, Bitset.wd, Bitset.empty]
    rw [List.getElem?_replicate]
    split <;> simp
  have h0 : Inv w c e s seen todo [] [s] 0 := by
    refine ⟨by rw [hl1, hel], by simpa using h2, by simp, by simpa using hs, ?_, by simp, by simp, ?_, ?_, by simp, by simp⟩
    · intro n hn
      rw [hb1, hz]
      by_cases hns : n = s <;> simp [hns]
    · intro n hn
      rw [List.mem_singleton] at hn; subst hn
      exact ⟨0, by omega, .nil⟩
    · rintro n ⟨k, hk, hwk⟩
      cases hwk with
      | nil => simp
      | snoc _ _ _ => omega
  obtain ⟨seen', todo', O, d', e3, h3⟩ := loop_ok hw hN hg 0 fuel h0 (by simpa using hf)
  simp only [List.nil_append, List.append_nil] at h3
  have hO : O ++ [] = O := List.append_nil O
  refine ⟨⟨seen', O, 0⟩, by simp [search, e1, e2, e3], rfl, by have := h3.nodup; rwa [hO] at this, fun n => ⟨fun hn => ?_, ?_⟩,
    by have := h3.sorted; rwa [hO] at this, fun n hn => ?_⟩
  · obtain ⟨k, _, hk⟩ := h3.done n hn
    exact ⟨h3.lt n (by simpa using hn), k, hk⟩
  · rintro ⟨hn, k, hk⟩
    clear hn
    induction hk with
    | nil => simpa using h3.start
    | @snoc b k m hb he hm ih => simpa using h3.closed b ih m hm he
  · have := h3.mem n hn
    rw [Bitset.get_bits hw0 (by rw [h3.words]; omega)]
    rw [hO] at this
    congr 1
    by_cases hin : n ∈ O
    · simp [hin, this.2 hin]
    · simp only [hin, decide_false]
      cases hb : bits seen' n with
      | true => exact absurd (this.1 hb) hin
      | false => rfl

/-- A graph of five nodes with a cycle, two ways to a node and a node that cannot be reached; unused positions of the words are set. -/
example : Graph (w := 8) 5 (fun a b => decide ((a, b) ∈ [(0, 2), (0, 3), (2, 1), (3, 1), (1, 0), (4, 4)]))
    [[0xEC#8], [0x01#8], [0xE2#8], [0x02#8], [0x10#8]] := by
  refine ⟨rfl, fun a t ht => ?_⟩
  match a, ht with
  | 0, ht | 1, ht | 2, ht | 3, ht | 4, ht =>
    cases ht
    refine ⟨by decide, fun b hb => ?_⟩
    match b, hb with
    | 0, _ | 1, _ | 2, _ | 3, _ | 4, _ => decide
  | a + 5, ht => cases ht

/-- It is visited in the order of the distances, although node 1 has a smaller number than nodes 2 and 3. -/
example : (match search (w := 8) ⟨5, .safe, .noreturn, id⟩ [[0xEC#8], [0x01#8], [0xE2#8], [0x02#8], [0x10#8]] 0 0 6 with
    | .ok r => r.order
    | _ => []) = [0, 2, 3, 1] := by decide +kernel

end Verif.Search
