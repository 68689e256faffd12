import Verif.FList.Spec
import Verif.IList.Run

namespace Verif.FList

open Verif.IList (Ptr Node Heap Policy Handler rd setNext setPrev rd_ok rd_eq setNext_eq setPrev_eq
  eq_nil_or_snoc)

/-- The nodes of `L` are linked in order and the last one's `next` is `q`. -/
def Links (h : Heap) : List Nat → Ptr → Prop
  | [], _ => True
  | a :: L, q => (∃ p, h[a]? = some ⟨p, L.head?.or q⟩) ∧ Links h L q

theorem links_append (h : Heap) (A : List Nat) : ∀ (B : List Nat) (q : Ptr),
    Links h (A ++ B) q ↔ Links h A (B.head?.or q) ∧ Links h B q := by
  induction A with
  | nil => intro B q; simp [Links]
  | cons a A ih =>
    intro B q
    simp only [List.cons_append, Links, ih]
    have e1 : ((A ++ B).head?.or q) = (A.head?.or (B.head?.or q)) := by
      cases A <;> simp
    rw [e1, and_assoc]

theorem links_frame {h h' : Heap} (L : List Nat) : ∀ {q : Ptr},
    (∀ a ∈ L, h'[a]? = h[a]?) → Links h L q → Links h' L q := by
  induction L with
  | nil => intros; trivial
  | cons a L ih =>
    intro q hf hl
    exact ⟨by rw [hf a (by simp)]; exact hl.1, ih (fun b hb => hf b (by simp [hb])) hl.2⟩

theorem links_lt {h : Heap} (L : List Nat) : ∀ {q : Ptr}, Links h L q → ∀ a ∈ L, a < h.length := by
  induction L with
  | nil => intro q _ a ha; simp at ha
  | cons b L ih =>
    intro q hl a ha
    simp at ha
    rcases ha with rfl | ha
    · obtain ⟨p, e⟩ := hl.1
      exact (List.getElem?_eq_some_iff.mp e).1
    · exact ih hl.2 a ha

/-- The list object `l` over heap `h` represents `L`. -/
structure WF (h : Heap) (l : Lst) (L : List Nat) : Prop where
  nodup : L.Nodup
  head : l.head = L.head?
  tail : l.tail = L.getLast?
  links : Links h L none

theorem wf_len {h : Heap} {l : Lst} {L : List Nat} (w : WF h l L) : L.length ≤ h.length := by
  have := w.nodup.length_le_of_subset (l₂ := List.range h.length)
    (by intro a ha; simp; exact links_lt L w.links a ha)
  simpa using this

/-- The links of `n` are null, as far as the policy looks. -/
def Null (c : Cfg) (h : Heap) (n : Nat) : Prop :=
  ∃ p, h[n]? = some ⟨p, none⟩ ∧ (c.hasPrev = true → p = none)

theorem check_ok {c : Cfg} {h : Heap} {n : Nat} (hc : c.policy = .checked → Null c h n) :
    check c h n = .ok 0 := by
  unfold check
  cases hp : c.policy with
  | unchecked => rfl
  | checked =>
    obtain ⟨p, e, hpp⟩ := hc hp
    cases hh : c.hasPrev with
    | false => simp [validForPush, rd_ok e, hh]
    | true => simp [validForPush, rd_ok e, hh, hpp hh]

theorem walk_ok {h : Heap} (L : List Nat) : ∀ {fuel : Nat}, Links h L none →
    L.length ≤ fuel → walk h fuel L.head? = .ok L := by
  induction L with
  | nil => intro fuel _ _; cases fuel <;> rfl
  | cons a L ih =>
    intro fuel hl hf
    cases fuel with
    | zero => simp at hf
    | succ fuel =>
      simp at hf
      have := ih hl.2 hf
      obtain ⟨p, e⟩ := hl.1
      simp [walk, rd_ok e, this]

/-- What an operation guarantees about the heap. -/
structure Done (c : Cfg) (h : Heap) (L : List Nat) (o : Op) (h' : Heap) (l' : Lst)
    (L' : List Nat) : Prop where
  wf : WF h' l' L'
  len : h'.length = h.length
  frame : ∀ a, a ∉ L → o.added ≠ some a → h'[a]? = h[a]?
  freed : c.policy = .checked → ∀ a ∈ L, a ∉ L' → Null c h' a

theorem pushFront_ok {c : Cfg} {h : Heap} {l : Lst} {L : List Nat} (w : WF h l L) {n : Nat}
    (hlt : n < h.length) (hn : n ∉ L) (hc : c.policy = .checked → Null c h n) :
    ∃ h' l', pushFront c h l n = .ok ((h', l'), 0) ∧
      Done c h L (.pushFront n) h' l' (n :: L) := by
  obtain ⟨hnd, hh, ht, hl⟩ := w
  have hchk := check_ok hc
  refine ⟨h.set n ⟨h[n].prev, l.head⟩, ⟨some n, if l.tail = none then some n else l.tail⟩, ?_,
    ⟨List.nodup_cons.mpr ⟨hn, hnd⟩, rfl, ?_, ⟨⟨h[n].prev, ?_⟩, ?_⟩⟩, by simp, ?_, ?_⟩
  · simp [pushFront, hchk, uncheckedPushFront, setNext_eq, hlt]
  · rw [ht, List.getLast?_cons]; cases L.getLast? <;> simp
  · simp [hlt, hh]
  · refine links_frame L ?_ hl
    intro a ha
    rw [List.getElem?_set_ne (by rintro rfl; exact hn ha)]
  · intro a _ hna
    simp [Op.added] at hna
    rw [List.getElem?_set_ne hna]
  · intro _ a ha hna; simp at hna; exact absurd ha hna.2

theorem pushBack_ok {c : Cfg} {h : Heap} {l : Lst} {L : List Nat} (w : WF h l L) {n : Nat}
    (hlt : n < h.length) (hn : n ∉ L) (hc : c.policy = .checked → Null c h n) :
    ∃ h' l', pushBack c h l n = .ok ((h', l'), 0) ∧ Done c h L (.pushBack n) h' l' (L ++ [n]) := by
  obtain ⟨hnd, hh, ht, hl⟩ := w
  have hchk := check_ok hc
  rcases eq_nil_or_snoc L with rfl | ⟨A, y, rfl⟩
  · simp at hh ht
    refine ⟨h.set n ⟨h[n].prev, none⟩, ⟨some n, some n⟩, ?_, ⟨by simp, rfl, rfl, ?_⟩, by simp, ?_, ?_⟩
    · simp [pushBack, hchk, uncheckedPushBack, hh, ht, setNext_eq, hlt]
    · exact ⟨⟨h[n].prev, by simp [hlt]⟩, trivial⟩
    · intro a _ ha; simp [Op.added] at ha; simp [ha]
    · intro _ a ha; simp at ha
  · simp at ht hn
    have hyn : ¬ y = n := fun e => hn.2 e.symm
    rw [links_append] at hl
    obtain ⟨p, hy⟩ := hl.2.1
    simp at hy
    obtain ⟨hyl, hgy⟩ := List.getElem?_eq_some_iff.mp hy
    have hhn : ¬ l.head = none := by rw [hh]; simp
    rw [List.nodup_append] at hnd
    refine ⟨(h.set y ⟨p, some n⟩).set n ⟨h[n].prev, none⟩, ⟨l.head, some n⟩, ?_,
      ⟨?_, ?_, by simp, ?_⟩, by simp, ?_, ?_⟩
    · simp [pushBack, hchk, uncheckedPushBack, ht, hhn, setNext_eq, hlt, hgy, hyn, hyl]
    · simp [List.nodup_append]; grind
    · rw [hh]; cases A <;> simp
    · rw [List.append_assoc, links_append]
      refine ⟨links_frame A ?_ hl.1, ⟨p, by simp [hn.2, hyl]⟩, ⟨h[n].prev, by simp [hlt]⟩, trivial⟩
      intro a ha
      have h1 : n ≠ a := fun e => hn.1 (e ▸ ha)
      have h2 : y ≠ a := fun e => hnd.2.2 a ha y (by simp) e.symm
      rw [List.getElem?_set_ne h1, List.getElem?_set_ne h2]
    · intro a ha hna
      simp [Op.added] at hna
      simp at ha
      rw [List.getElem?_set_ne hna, List.getElem?_set_ne (fun e => ha.2 e.symm)]
    · intro _ a ha hna; simp at ha hna; grind

/-- `on_pop` on an existing node: its links become null, everything else stays. -/
theorem onPop_ok {c : Cfg} {h : Heap} {x : Nat} (hx : x < h.length) :
    ∃ h', onPop c h (some x) = .ok h' ∧ h'.length = h.length ∧
      (∀ a, a ≠ x → h'[a]? = h[a]?) ∧ (c.policy = .checked → Null c h' x) := by
  cases hp : c.policy with
  | unchecked => exact ⟨h, by simp [onPop, hp], rfl, fun _ _ => rfl, fun e => by cases e⟩
  | checked =>
    cases hh : c.hasPrev with
    | false =>
      refine ⟨h.set x ⟨h[x].prev, none⟩, by simp [onPop, hp, hh, setNext_eq, hx], by simp, ?_, ?_⟩
      · intro a ha; rw [List.getElem?_set_ne (fun e => ha e.symm)]
      · intro _; exact ⟨h[x].prev, by simp [hx], by simp [hh]⟩
    | true =>
      refine ⟨h.set x ⟨none, none⟩, by simp [onPop, hp, hh, setNext_eq, setPrev_eq, hx], by simp, ?_, ?_⟩
      · intro a ha; rw [List.getElem?_set_ne (fun e => ha e.symm)]
      · intro _; exact ⟨none, by simp [hx], by simp⟩

theorem popFront_ok {c : Cfg} {h : Heap} {l : Lst} {x : Nat} {xs : List Nat}
    (w : WF h l (x :: xs)) :
    ∃ h' l', popFront c h l = .ok ((h', l'), some x) ∧
      Done c h (x :: xs) .popFront h' l' xs := by
  obtain ⟨hnd, hh, ht, hl⟩ := w
  simp at hh
  obtain ⟨p, hx⟩ := hl.1
  simp at hx
  obtain ⟨hxl, hgx⟩ := List.getElem?_eq_some_iff.mp hx
  have hnd' := List.nodup_cons.mp hnd
  obtain ⟨h', e, hlen, hfr, hnull⟩ := onPop_ok (c := c) hxl
  refine ⟨h', if xs.head? = none then ⟨none, none⟩ else ⟨xs.head?, l.tail⟩, ?_,
    ⟨hnd'.2, ?_, ?_, ?_⟩, hlen, ?_, ?_⟩
  · simp [popFront, hh, rd_ok hx, e]
    cases xs <;> simp
  · cases xs <;> simp
  · cases xs with
    | nil => simp
    | cons y ys => simp [ht, List.getLast?_cons]
  · refine links_frame xs ?_ hl.2
    intro a ha
    exact hfr a (by rintro rfl; exact hnd'.1 ha)
  · intro a ha _
    simp at ha
    exact hfr a ha.1
  · intro hp a ha hna
    simp at ha
    rcases ha with rfl | ha
    · exact hnull hp
    · exact absurd ha hna

theorem onClearLoop_ok {c : Cfg} (hc : c.policy = .checked) (L : List Nat) :
    ∀ {h : Heap} {fuel : Nat}, Links h L none →
    L.Nodup → L.length ≤ fuel → ∃ h', onClearLoop c fuel h L.head? = .ok h' ∧
      h'.length = h.length ∧ (∀ a, a ∉ L → h'[a]? = h[a]?) ∧ (∀ a ∈ L, Null c h' a) := by
  induction L with
  | nil =>
    intro h fuel _ _ _
    exact ⟨h, by cases fuel <;> rfl, rfl, fun _ _ => rfl, by simp⟩
  | cons x xs ih =>
    intro h fuel hl hnd hf
    cases fuel with
    | zero => simp at hf
    | succ fuel =>
      obtain ⟨p, hx⟩ := hl.1
      simp at hx
      obtain ⟨hxl, hgx⟩ := List.getElem?_eq_some_iff.mp hx
      have hnd' := List.nodup_cons.mp hnd
      simp at hf
      have go : ∀ h1 : Heap, h1.length = h.length → (∀ a, a ≠ x → h1[a]? = h[a]?) →
          Null c h1 x → onClearLoop c (fuel + 1) h (some x) = onClearLoop c fuel h1 xs.head? →
          ∃ h', onClearLoop c (fuel + 1) h (some x) = .ok h' ∧
            h'.length = h.length ∧ (∀ a, a ∉ x :: xs → h'[a]? = h[a]?) ∧
            (∀ a ∈ x :: xs, Null c h' a) := by
        intro h1 hlen1 hfr1 hn1 he
        obtain ⟨h', e, hlen, hout, hin⟩ := ih (h := h1) (fuel := fuel)
          (links_frame xs (fun a ha => hfr1 a (by rintro rfl; exact hnd'.1 ha)) hl.2) hnd'.2 hf
        refine ⟨h', by rw [he]; exact e, by omega, ?_, ?_⟩
        · intro a ha
          simp at ha
          rw [hout a ha.2, hfr1 a ha.1]
        · intro a ha
          simp at ha
          rcases ha with rfl | ha
          · obtain ⟨q, e1, e2⟩ := hn1
            exact ⟨q, by rw [hout a hnd'.1]; exact e1, e2⟩
          · exact hin a ha
      cases hh : c.hasPrev with
      | false =>
        refine go (h.set x ⟨h[x].prev, none⟩) (by simp) ?_ ?_ ?_
        · intro a ha; rw [List.getElem?_set_ne (fun e => ha e.symm)]
        · exact ⟨h[x].prev, by simp [hxl], by simp [hh]⟩
        · simp [onClearLoop, hh, setNext_eq, rd_eq, hxl, hgx]
      | true =>
        refine go (h.set x ⟨none, none⟩) (by simp) ?_ ?_ ?_
        · intro a ha; rw [List.getElem?_set_ne (fun e => ha e.symm)]
        · exact ⟨none, by simp [hxl], by simp⟩
        · simp [onClearLoop, hh, setNext_eq, setPrev_eq, rd_eq, hxl, hgx]

theorem clear_ok {c : Cfg} {h : Heap} {l : Lst} {L : List Nat} (w : WF h l L) :
    ∃ h' l', clear c h l = .ok (h', l') ∧ Done c h L .clear h' l' [] := by
  cases hp : c.policy with
  | unchecked =>
    exact ⟨h, ⟨none, none⟩, by simp [clear, hp], ⟨by simp, rfl, rfl, trivial⟩, rfl,
      fun _ _ _ => rfl, fun h => by rw [hp] at h; exact absurd h (by decide)⟩
  | checked =>
    obtain ⟨h', e, hlen, hout, hin⟩ := onClearLoop_ok hp L (fuel := h.length + 1) w.links w.nodup
      (by have := wf_len w; omega)
    refine ⟨h', ⟨none, none⟩, ?_, ⟨by simp, rfl, rfl, trivial⟩, hlen, fun a ha _ => hout a ha,
      fun _ a ha _ => hin a ha⟩
    rw [← w.head] at e
    simp [clear, hp, e]

theorem step_ok {c : Cfg} {h : Heap} {l : Lst} {L L' : List Nat} {o : Op} {r : Out}
    (w : WF h l L) (hs : specStep L o = some (L', r))
    (hadd : ∀ n, o.added = some n → n < h.length ∧ n ∉ L ∧ (c.policy = .checked → Null c h n)) :
    ∃ h' l', step c h l o = .ok ((h', l'), r, 0) ∧ Done c h L o h' l' L' := by
  have same : ∀ o : Op, Done c h L o h l L := fun o =>
    ⟨w, rfl, fun _ _ _ => rfl, fun _ a ha ha' => absurd ha ha'⟩
  cases o with
  | pushFront n =>
    obtain ⟨h1, h2, h3⟩ := hadd n rfl
    simp [specStep] at hs
    obtain ⟨rfl, rfl⟩ := hs
    obtain ⟨h', l', e, d⟩ := pushFront_ok w h1 h2 h3
    exact ⟨h', l', by simp [step, e], d⟩
  | pushBack n =>
    obtain ⟨h1, h2, h3⟩ := hadd n rfl
    simp [specStep] at hs
    obtain ⟨rfl, rfl⟩ := hs
    obtain ⟨h', l', e, d⟩ := pushBack_ok w h1 h2 h3
    exact ⟨h', l', by simp [step, e], d⟩
  | popFront =>
    cases L with
    | nil => simp [specStep] at hs
    | cons x xs =>
      simp [specStep] at hs
      obtain ⟨rfl, rfl⟩ := hs
      obtain ⟨h', l', e, d⟩ := popFront_ok (c := c) w
      exact ⟨h', l', by simp [step, e], d⟩
  | clear =>
    simp [specStep] at hs
    obtain ⟨rfl, rfl⟩ := hs
    obtain ⟨h', l', e, d⟩ := clear_ok (c := c) w
    exact ⟨h', l', by simp [step, e], d⟩
  | empty =>
    simp [specStep] at hs
    obtain ⟨rfl, rfl⟩ := hs
    refine ⟨h, l, ?_, same _⟩
    simp [step, w.head]
  | front =>
    cases L with
    | nil => simp [specStep] at hs
    | cons x xs =>
      simp [specStep] at hs
      obtain ⟨rfl, rfl⟩ := hs
      refine ⟨h, l, ?_, same _⟩
      obtain ⟨p, hx⟩ := w.links.1
      have := rd_ok hx
      have hh := w.head
      simp at hh
      simp [step, hh, refTo, this]
  | back =>
    rcases eq_nil_or_snoc L with rfl | ⟨A, y, rfl⟩
    · simp [specStep] at hs
    · simp [specStep] at hs
      obtain ⟨rfl, rfl⟩ := hs
      refine ⟨h, l, ?_, same _⟩
      have hl := w.links
      rw [links_append] at hl
      obtain ⟨p, hx⟩ := hl.2.1
      have := rd_ok hx
      have ht := w.tail
      simp at ht
      simp [step, ht, refTo, this]
  | iterate =>
    simp [specStep] at hs
    obtain ⟨rfl, rfl⟩ := hs
    refine ⟨h, l, ?_, same _⟩
    simp [step, w.head, walk_ok L w.links (wf_len w)]

/-- The world represents the family of sequences. -/
structure WorldOk {ι : Type} (c : Cfg) (w : World ι) (ls : ι → List Nat) : Prop where
  wf : ∀ i, WF w.heap (w.lists i) (ls i)
  disj : ∀ i j, i ≠ j → ∀ a, a ∈ ls i → a ∉ ls j
  free : c.policy = .checked → ∀ a, a < w.heap.length → (∀ j, a ∉ ls j) → Null c w.heap a

theorem specStep_mem {L L' : List Nat} {o : Op} {r : Out} (hs : specStep L o = some (L', r)) :
    ∀ a ∈ L', a ∈ L ∨ o.added = some a := by
  intro a ha
  cases o with
  | pushFront n => simp [specStep] at hs; simp [← hs.1] at ha; simp [Op.added]; grind
  | pushBack n => simp [specStep] at hs; simp [← hs.1] at ha; simp [Op.added]; grind
  | popFront =>
    cases L with
    | nil => simp [specStep] at hs
    | cons x xs => simp [specStep] at hs; simp [hs.1, ha]
  | clear => simp [specStep] at hs; obtain ⟨rfl, _⟩ := hs; simp at ha
  | empty => simp [specStep] at hs; rw [hs.1]; exact .inl ha
  | front =>
    cases L with
    | nil => simp [specStep] at hs
    | cons x xs => simp [specStep] at hs; rw [← hs.1] at ha; exact .inl ha
  | back =>
    rcases eq_nil_or_snoc L with rfl | ⟨A, y, rfl⟩
    · simp [specStep] at hs
    · simp [specStep] at hs; rw [← hs.1] at ha; exact .inl ha
  | iterate => simp [specStep] at hs; rw [hs.1]; exact .inl ha

theorem specStep_added {L L' : List Nat} {o : Op} {r : Out} (hs : specStep L o = some (L', r))
    {n : Nat} (ho : o.added = some n) : n ∈ L' := by
  cases o <;> simp [Op.added] at ho
  · simp [specStep] at hs; simp [← hs.1, ho]
  · simp [specStep] at hs; simp [← hs.1, ho]

theorem stepW_ok {ι : Type} [DecidableEq ι] {c : Cfg} {w : World ι} {ls : ι → List Nat}
    (hw : WorldOk c w ls) {i : ι} {o : Op} {L' : List Nat} {r : Out}
    (hs : specStep (ls i) o = some (L', r)) (hn1 : NodeOk w.heap.length ls o) :
    ∃ w', stepW c w i o = .ok (w', r, 0) ∧ w'.heap.length = w.heap.length ∧
      WorldOk c w' (fun j => if j = i then L' else ls j) ∧
      (∀ a, a ∉ ls i → o.added ≠ some a → w'.heap[a]? = w.heap[a]?) := by
  obtain ⟨h', l', e, d⟩ := step_ok (c := c) (hw.wf i) hs
    (fun n hadd => ⟨(hn1 n hadd).1, (hn1 n hadd).2 i, fun hp => hw.free hp n (hn1 n hadd).1
      (hn1 n hadd).2⟩)
  refine ⟨⟨h', fun j => if j = i then l' else w.lists j⟩, ?_, d.len, ⟨?_, ?_, ?_⟩, d.frame⟩
  · simp [stepW, e]
  · intro j
    by_cases hj : j = i
    · subst hj; simpa using d.wf
    · simp only [hj, ↓reduceIte]
      have wj := hw.wf j
      refine ⟨wj.nodup, wj.head, wj.tail, links_frame _ ?_ wj.links⟩
      intro a ha
      refine d.frame a (hw.disj j i hj a ha) ?_
      intro hadd
      exact (hn1 a hadd).2 j ha
  · intro j k hjk a
    by_cases hj : j = i
    · have hk : ¬ k = i := fun hk => hjk (hj.trans hk.symm)
      simp only [hj, hk, ↓reduceIte]
      intro ha
      rcases specStep_mem hs a ha with hm | hadd
      · exact hw.disj i k (fun h => hk h.symm) a hm
      · exact (hn1 a hadd).2 k
    · simp only [hj, ↓reduceIte]
      intro ha
      by_cases hk : k = i
      · simp only [hk, ↓reduceIte]
        intro hm
        rcases specStep_mem hs a hm with hm | hadd
        · exact hw.disj j i hj a ha hm
        · exact (hn1 a hadd).2 j ha
      · simp only [hk, ↓reduceIte]
        exact hw.disj j k hjk a ha
  · intro hp a ha hfree
    have hi := hfree i
    simp only [↓reduceIte] at hi
    by_cases hm : a ∈ ls i
    · exact d.freed hp a hm hi
    · have hadd : o.added ≠ some a := fun h => hi (specStep_added hs h)
      unfold Null
      show ∃ p, h'[a]? = _ ∧ _
      rw [d.frame a hm hadd]
      refine hw.free hp a (by rw [← d.len]; exact ha) ?_
      intro j
      by_cases hj : j = i
      · subst hj; exact hm
      · have := hfree j; simpa [hj] using this

theorem runW_ok {ι : Type} [DecidableEq ι] {c : Cfg} {size : Nat} {ls ls' : ι → List Nat}
    {ops : List (ι × Op)} {rs : List Out} (hs : SpecRun size ls ops ls' rs) :
    ∀ {w : World ι}, WorldOk c w ls → w.heap.length = size →
      ∃ w', runW c w ops = .ok (w', rs, 0) ∧ WorldOk c w' ls' ∧ w'.heap.length = size := by
  induction hs with
  | nil ls => intro w hw hl; exact ⟨w, rfl, hw, hl⟩
  | cons h hn hr ih =>
    intro w hw hl
    subst hl
    obtain ⟨w1, e1, hl1, hw1, _⟩ := stepW_ok hw h hn
    obtain ⟨w2, e2, hw2, hl2⟩ := ih hw1 hl1
    exact ⟨w2, by simp [runW, e1, e2], hw2, hl2⟩

/-- A history with one more operation. -/
theorem runW_snoc {ι : Type} [DecidableEq ι] (c : Cfg) (i : ι) (o : Op) : ∀ (ops : List (ι × Op)) (w : World ι),
    runW c w (ops ++ [(i, o)]) = runW c w ops >>= fun x =>
      stepW c x.1 i o >>= fun y => .ok (y.1, x.2.1 ++ [y.2.1], x.2.2 + y.2.2) := by
  intro ops
  induction ops with
  | nil =>
    intro w
    simp only [List.nil_append, runW, Outcome.ok_bind]
    cases stepW c w i o <;> simp
  | cons a ops ih =>
    intro w
    obtain ⟨j, o'⟩ := a
    simp only [List.cons_append, runW]
    cases stepW c w j o' with
    | ok y =>
      simp only [Outcome.ok_bind, ih]
      cases runW c y.1 ops with
      | ok z =>
        simp only [Outcome.ok_bind, Outcome.pure_eq_ok]
        cases stepW c z.1 i o <;> simp [Nat.add_assoc]
      | ub => simp
      | panic => simp
    | ub => simp
    | panic => simp

end Verif.FList
