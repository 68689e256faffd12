import Verif.IList.Spec

namespace Verif.IList

/-- `Links h p L q`: the nodes of `L` are linked in order, the first one's `prev` is `p` and
the last one's `next` is `q`. -/
def Links (h : Heap) (p : Ptr) : List Nat → Ptr → Prop
  | [], _ => True
  | a :: L, q => h[a]? = some ⟨p, L.head?.or q⟩ ∧ Links h (some a) L q

theorem links_append (h : Heap) (A : List Nat) : ∀ (p : Ptr) (B : List Nat) (q : Ptr),
    Links h p (A ++ B) q ↔ Links h p A (B.head?.or q) ∧ Links h (A.getLast?.or p) B q := by
  induction A with
  | nil => intro p B q; simp [Links]
  | cons a A ih =>
    intro p B q
    simp only [List.cons_append, Links, ih]
    have e1 : ((A ++ B).head?.or q) = (A.head?.or (B.head?.or q)) := by
      cases A <;> simp
    have e2 : (A.getLast?.or (some a)) = ((a :: A).getLast?.or p) := by
      rw [List.getLast?_cons]; cases A.getLast? <;> simp
    rw [e1, e2, and_assoc]

theorem links_frame {h h' : Heap} (L : List Nat) : ∀ {p q : Ptr},
    (∀ a ∈ L, h'[a]? = h[a]?) → Links h p L q → Links h' p L q := by
  induction L with
  | nil => intros; trivial
  | cons a L ih =>
    intro p q hf hl
    exact ⟨by rw [hf a (by simp)]; exact hl.1, ih (fun b hb => hf b (by simp [hb])) hl.2⟩

theorem links_lt {h : Heap} (L : List Nat) : ∀ {p q : Ptr}, Links h p L q →
    ∀ a ∈ L, a < h.length := by
  induction L with
  | nil => intro p q _ a ha; simp at ha
  | cons b L ih =>
    intro p q hl a ha
    simp at ha
    rcases ha with rfl | ha
    · exact (List.getElem?_eq_some_iff.mp hl.1).1
    · exact ih hl.2 a ha

/-- The list object `l` over heap `h` represents the sequence `L`. -/
structure WF (h : Heap) (l : Lst) (L : List Nat) : Prop where
  nodup : L.Nodup
  head : l.head = L.head?
  tail : l.tail = L.getLast?
  links : Links h none L none

theorem wf_len {h : Heap} {l : Lst} {L : List Nat} (w : WF h l L) : L.length ≤ h.length := by
  have := w.nodup.length_le_of_subset (l₂ := List.range h.length)
    (by intro a ha; simp; exact links_lt L w.links a ha)
  simpa using this

theorem rd_ok {h : Heap} {a : Nat} {n : Node} (e : h[a]? = some n) : rd h (some a) = .ok n := by
  simp [rd, arrGet_ok.mpr e]

theorem setNext_ok {h : Heap} {a : Nat} {n : Node} {v : Ptr} (e : h[a]? = some n) :
    setNext h (some a) v = .ok (h.set a ⟨n.prev, v⟩) := by
  have hlt := (List.getElem?_eq_some_iff.mp e).1
  simp [setNext, arrGet_ok.mpr e, hlt]

theorem setPrev_ok {h : Heap} {a : Nat} {n : Node} {v : Ptr} (e : h[a]? = some n) :
    setPrev h (some a) v = .ok (h.set a ⟨v, n.next⟩) := by
  have hlt := (List.getElem?_eq_some_iff.mp e).1
  simp [setPrev, arrGet_ok.mpr e, hlt]

theorem check_ok {c : Cfg} {h : Heap} {n : Nat}
    (hc : c.policy = .checked → h[n]? = some ⟨none, none⟩) : check c h n = .ok 0 := by
  unfold check
  cases hp : c.policy with
  | unchecked => rfl
  | checked => simp [validForPush, rd_ok (hc hp)]

theorem walk_ok {h : Heap} (L : List Nat) : ∀ {p : Ptr} {fuel : Nat}, Links h p L none →
    L.length ≤ fuel → walk h fuel L.head? = .ok L := by
  induction L with
  | nil => intro p fuel _ _; cases fuel <;> rfl
  | cons a L ih =>
    intro p fuel hl hf
    cases fuel with
    | zero => simp at hf
    | succ fuel =>
      simp at hf
      have := ih hl.2 hf
      simp [walk, rd_ok hl.1, this]

theorem walkBack_ok {h : Heap} (L : List Nat) : ∀ {q : Ptr} {fuel : Nat},
    Links h none L.reverse q → L.length ≤ fuel → walkBack h fuel L.head? = .ok L := by
  induction L with
  | nil => intro p fuel _ _; cases fuel <;> rfl
  | cons a L ih =>
    intro q fuel hl hf
    cases fuel with
    | zero => simp at hf
    | succ fuel =>
      simp at hf
      rw [List.reverse_cons, links_append] at hl
      have := ih hl.1 hf
      have h2 := hl.2.1
      simp at h2
      simp [walkBack, rd_ok h2, this]

/-- What an operation guarantees about the heap. -/
structure Done (c : Cfg) (h : Heap) (L : List Nat) (o : Op) (h' : Heap) (l' : Lst)
    (L' : List Nat) : Prop where
  wf : WF h' l' L'
  len : h'.length = h.length
  frame : ∀ a, a ∉ L → o.added ≠ some a → h'[a]? = h[a]?
  freed : c.policy = .checked → ∀ a ∈ L, a ∉ L' → h'[a]? = some ⟨none, none⟩

theorem rd_eq (h : Heap) (a : Nat) :
    rd h (some a) = match h[a]? with | some n => .ok n | none => .ub := by
  cases e : h[a]? <;> simp [rd, arrGet, e]

theorem setNext_eq (h : Heap) (a : Nat) (v : Ptr) : setNext h (some a) v =
    match h[a]? with | some n => .ok (h.set a ⟨n.prev, v⟩) | none => .ub := by
  cases e : h[a]? with
  | none => simp [setNext, arrGet, e]
  | some n => exact setNext_ok e

theorem setPrev_eq (h : Heap) (a : Nat) (v : Ptr) : setPrev h (some a) v =
    match h[a]? with | some n => .ok (h.set a ⟨v, n.next⟩) | none => .ub := by
  cases e : h[a]? with
  | none => simp [setPrev, arrGet, e]
  | some n => exact setPrev_ok e

theorem lt_of_some {h : Heap} {a : Nat} {n : Node} (e : h[a]? = some n) : a < h.length :=
  (List.getElem?_eq_some_iff.mp e).1

theorem pushFront_ok {c : Cfg} {h : Heap} {l : Lst} {L : List Nat} (w : WF h l L) {n : Nat}
    (hlt : n < h.length) (hn : n ∉ L) (hc : c.policy = .checked → h[n]? = some ⟨none, none⟩) :
    ∃ h' l', pushFront c h l n = .ok ((h', l'), 0) ∧
      Done c h L (.pushFront n) h' l' (n :: L) := by
  obtain ⟨hnd, hh, ht, hl⟩ := w
  obtain ⟨nd, hnn⟩ : ∃ nd, h[n]? = some nd := ⟨_, List.getElem?_eq_getElem hlt⟩
  have hchk := check_ok hc
  cases L with
  | nil =>
    simp at hh ht
    refine ⟨h.set n ⟨none, none⟩, ⟨some n, some n⟩, ?_, ⟨by simp, rfl, rfl, ?_⟩, by simp, ?_, ?_⟩
    · simp [pushFront, hchk, uncheckedPushFront, hh, ht, setNext_eq, setPrev_eq, hlt]
    · simp [Links, hlt]
    · intro a _ ha; simp [Op.added] at ha; simp [ha]
    · intro _ a ha; simp at ha
  | cons x xs =>
    simp at hh hn
    have hxn : ¬ x = n := fun e => hn.1 e.symm
    have hx := hl.1
    simp at hx
    obtain ⟨hxl, hgx⟩ := List.getElem?_eq_some_iff.mp hx
    have htn : ¬ l.tail = none := by rw [ht]; simp
    refine ⟨(h.set x ⟨some n, xs.head?⟩).set n ⟨none, some x⟩, ⟨some n, l.tail⟩, ?_,
      ⟨by simp; exact ⟨hn, by simpa using hnd⟩, rfl, ?_, ?_⟩, ?_, ?_, ?_⟩
    · simp [pushFront, hchk, uncheckedPushFront, hh, htn, setNext_eq, setPrev_eq, hlt,
        hxn, hxl, hgx]
    · rw [ht, List.getLast?_cons (a := n), List.getLast?_cons]; simp
    · refine ⟨by simp [hlt], by simp [hn.1, hxl], ?_⟩
      refine links_frame xs ?_ hl.2
      intro a ha
      have h1 : n ≠ a := fun e => hn.2 (e ▸ ha)
      have h2 : x ≠ a := fun e => (List.nodup_cons.mp hnd).1 (e ▸ ha)
      rw [List.getElem?_set_ne h1, List.getElem?_set_ne h2]
    · simp
    · intro a ha hna
      simp [Op.added] at hna
      simp at ha
      rw [List.getElem?_set_ne hna, List.getElem?_set_ne (fun e => ha.1 e.symm)]
    · intro _ a ha hna; simp at ha hna; grind

theorem eq_nil_or_snoc (L : List Nat) : L = [] ∨ ∃ A y, L = A ++ [y] := by
  cases L with
  | nil => exact .inl rfl
  | cons a L =>
    exact .inr ⟨_, _, (List.dropLast_concat_getLast (List.cons_ne_nil a L)).symm⟩

theorem pushBack_ok {c : Cfg} {h : Heap} {l : Lst} {L : List Nat} (w : WF h l L) {n : Nat}
    (hlt : n < h.length) (hn : n ∉ L) (hc : c.policy = .checked → h[n]? = some ⟨none, none⟩)
    {o : Op} (ho : o.added = some n) :
    ∃ h' l', pushBack c h l n = .ok ((h', l'), 0) ∧ Done c h L o h' l' (L ++ [n]) := by
  obtain ⟨hnd, hh, ht, hl⟩ := w
  obtain ⟨nd, hnn⟩ : ∃ nd, h[n]? = some nd := ⟨_, List.getElem?_eq_getElem hlt⟩
  have hchk := check_ok hc
  rcases eq_nil_or_snoc L with rfl | ⟨A, y, rfl⟩
  · simp at hh ht
    refine ⟨h.set n ⟨none, none⟩, ⟨some n, some n⟩, ?_, ⟨by simp, rfl, rfl, ?_⟩, by simp, ?_, ?_⟩
    · simp [pushBack, hchk, uncheckedPushBack, hh, ht, setNext_eq, setPrev_eq, hlt]
    · simp [Links, hlt]
    · intro a _ ha; simp [ho] at ha; simp [ha]
    · intro _ a ha; simp at ha
  · simp at ht hn
    have hyn : ¬ y = n := fun e => hn.2 e.symm
    rw [links_append] at hl
    have hy := hl.2.1
    simp at hy
    obtain ⟨hyl, hgy⟩ := List.getElem?_eq_some_iff.mp hy
    have hhn : ¬ l.head = none := by rw [hh]; simp
    rw [List.nodup_append] at hnd
    refine ⟨(h.set y ⟨A.getLast?, some n⟩).set n ⟨some y, none⟩, ⟨l.head, some n⟩, ?_,
      ⟨?_, ?_, by simp, ?_⟩, by simp, ?_, ?_⟩
    · simp [pushBack, hchk, uncheckedPushBack, ht, hhn, setNext_eq, setPrev_eq, hlt, hgy, hyn, hyl]
    · simp [List.nodup_append]; grind
    · rw [hh]; cases A <;> simp
    · rw [List.append_assoc, links_append]
      refine ⟨links_frame A ?_ hl.1, by simp [hn.2, hyl], by simp [hlt], trivial⟩
      intro a ha
      have h1 : n ≠ a := fun e => hn.1 (e ▸ ha)
      have h2 : y ≠ a := fun e => hnd.2.2 a ha y (by simp) e.symm
      rw [List.getElem?_set_ne h1, List.getElem?_set_ne h2]
    · intro a ha hna
      simp [ho] at hna
      simp at ha
      rw [List.getElem?_set_ne hna, List.getElem?_set_ne (fun e => ha.2 e.symm)]
    · intro _ a ha hna; simp at ha hna; grind

theorem insert_end_ok {c : Cfg} {h : Heap} {l : Lst} {L : List Nat} (w : WF h l L) {n : Nat}
    (hlt : n < h.length) (hn : n ∉ L) (hc : c.policy = .checked → h[n]? = some ⟨none, none⟩)
    (hnext : L ≠ [] → ∃ p, h[n]? = some ⟨p, none⟩) :
    ∃ h' l', insert c h l none n = .ok ((h', l'), 0) ∧
      Done c h L (.insert none n) h' l' (L ++ [n]) := by
  have w' := w
  obtain ⟨hnd, hh, ht, hl⟩ := w
  obtain ⟨nd, hnn⟩ : ∃ nd, h[n]? = some nd := ⟨_, List.getElem?_eq_getElem hlt⟩
  have hchk := check_ok hc
  rcases eq_nil_or_snoc L with rfl | ⟨A, y, rfl⟩
  · simp at hh ht
    obtain ⟨h', l', e, d⟩ := pushBack_ok w' hlt hn hc (o := .insert none n) rfl
    exact ⟨h', l', by simp [insert, hh, e], d⟩
  · obtain ⟨p, hp⟩ := hnext (by simp)
    obtain ⟨_, hgn⟩ := List.getElem?_eq_some_iff.mp hp
    simp at ht hn
    have hyn : ¬ y = n := fun e => hn.2 e.symm
    have hny : ¬ n = y := hn.2
    rw [links_append] at hl
    have hy := hl.2.1
    simp at hy
    obtain ⟨hyl, hgy⟩ := List.getElem?_eq_some_iff.mp hy
    have hhn : ¬ l.head = none := by rw [hh]; simp
    rw [List.nodup_append] at hnd
    refine ⟨(h.set n ⟨some y, none⟩).set y ⟨A.getLast?, some n⟩, ⟨l.head, some n⟩, ?_,
      ⟨?_, ?_, by simp, ?_⟩, by simp, ?_, ?_⟩
    · simp [insert, hhn, hchk, uncheckedInsert, ht, setNext_eq, setPrev_eq, rd_eq, hgn, hlt, hgy, hyl, hny]
    · simp [List.nodup_append]; grind
    · rw [hh]; cases A <;> simp
    · rw [List.append_assoc, links_append]
      refine ⟨links_frame A ?_ hl.1, by simp [hyl], by simp [hyn, hlt], trivial⟩
      intro a ha
      have h1 : n ≠ a := fun e => hn.1 (e ▸ ha)
      have h2 : y ≠ a := fun e => hnd.2.2 a ha y (by simp) e.symm
      rw [List.getElem?_set_ne h2, List.getElem?_set_ne h1]
    · intro a ha hna
      simp [Op.added] at hna
      simp at ha
      rw [List.getElem?_set_ne (fun e => ha.2 e.symm), List.getElem?_set_ne hna]
    · intro _ a ha hna; simp at ha hna; grind

theorem insert_mid_ok {c : Cfg} {h : Heap} {l : Lst} {A B : List Nat} {x : Nat}
    (w : WF h l (A ++ x :: B)) {n : Nat}
    (hlt : n < h.length) (hn : n ∉ A ++ x :: B)
    (hc : c.policy = .checked → h[n]? = some ⟨none, none⟩) :
    ∃ h' l', insert c h l (some x) n = .ok ((h', l'), 0) ∧
      Done c h (A ++ x :: B) (.insert (some x) n) h' l' (A ++ n :: x :: B) := by
  obtain ⟨hnd, hh, ht, hl⟩ := w
  obtain ⟨nd, hnn⟩ : ∃ nd, h[n]? = some nd := ⟨_, List.getElem?_eq_getElem hlt⟩
  have hchk := check_ok hc
  have hhn : ¬ l.head = none := by rw [hh]; cases A <;> simp
  simp at hn
  have hnx : ¬ n = x := hn.2.1
  have hxn : ¬ x = n := fun e => hn.2.1 e.symm
  rw [links_append] at hl
  obtain ⟨hlA, hlx, hlB⟩ := hl
  simp at hlx hlA
  rcases eq_nil_or_snoc A with rfl | ⟨A, y, rfl⟩
  · simp at hh hlx hnd
    obtain ⟨hxl, hgx⟩ := List.getElem?_eq_some_iff.mp hlx
    refine ⟨(h.set n ⟨none, some x⟩).set x ⟨some n, B.head?⟩, ⟨some n, l.tail⟩, ?_,
      ⟨?_, rfl, ?_, ?_⟩, by simp, ?_, ?_⟩
    · simp [insert, hhn, hchk, uncheckedInsert, setNext_eq, setPrev_eq, rd_eq, hlt, hgx, hxl, hnx, hxn]
    · simp; grind
    · rw [ht]; simp [List.getLast?_cons]
    · refine ⟨by simp [hxn, hlt], by simp [hxl], links_frame B ?_ hlB⟩
      intro a ha
      have h1 : n ≠ a := fun e => hn.2.2 (e ▸ ha)
      have h2 : x ≠ a := fun e => hnd.1 (e ▸ ha)
      rw [List.getElem?_set_ne h2, List.getElem?_set_ne h1]
    · intro a ha hna
      simp [Op.added] at hna
      simp at ha
      rw [List.getElem?_set_ne (fun e => ha.1 e.symm), List.getElem?_set_ne hna]
    · intro _ a ha hna; simp at ha hna; grind
  · simp at hlx
    obtain ⟨hxl, hgx⟩ := List.getElem?_eq_some_iff.mp hlx
    simp at hn
    have hny : ¬ n = y := hn.1.2
    have hyn : ¬ y = n := fun e => hn.1.2 e.symm
    rw [links_append] at hlA
    obtain ⟨hlA, hly, _⟩ := hlA
    simp at hly
    obtain ⟨hyl, hgy⟩ := List.getElem?_eq_some_iff.mp hly
    have hnd' := hnd
    simp only [List.append_assoc, List.nodup_append, List.nodup_cons] at hnd'
    have hyx : ¬ y = x := by grind
    have hxy : ¬ x = y := fun e => hyx e.symm
    refine ⟨((h.set n ⟨some y, some x⟩).set x ⟨some n, B.head?⟩).set y ⟨A.getLast?, some n⟩, l, ?_,
      ⟨?_, ?_, ?_, ?_⟩, by simp, ?_, ?_⟩
    · simp [insert, hhn, hchk, uncheckedInsert, setNext_eq, setPrev_eq, rd_eq, hlt, hgx, hxl, hnx, hxn,
        hny, hyn, hgy, hyl, hxy, hyx]
    · exact List.perm_middle.nodup_iff.mpr (List.nodup_cons.mpr ⟨by simp; grind, hnd⟩)
    · rw [hh]; cases A <;> simp
    · rw [ht]; simp [List.getLast?_cons]
    · rw [List.append_assoc, links_append]
      refine ⟨links_frame A ?_ hlA, by simp [hyl], by simp [hlt, hxn, hyn], by simp [hxl, hyx],
        links_frame B ?_ hlB⟩
      · intro a ha
        rw [List.getElem?_set_ne (by grind), List.getElem?_set_ne (by grind),
          List.getElem?_set_ne (by grind)]
      · intro a ha
        rw [List.getElem?_set_ne (by grind), List.getElem?_set_ne (by grind),
          List.getElem?_set_ne (by grind)]
    · intro a ha hna
      simp [Op.added] at hna
      simp at ha
      rw [List.getElem?_set_ne (by grind), List.getElem?_set_ne (by grind),
          List.getElem?_set_ne (by grind)]
    · intro _ a ha hna; simp at ha hna; grind

theorem onPop_checked {c : Cfg} (hp : c.policy = .checked) {h : Heap} {a : Nat}
    (ha : a < h.length) : onPop c h (some a) = .ok (h.set a ⟨none, none⟩) := by
  simp [onPop, hp, setPrev_eq, setNext_eq, ha]

theorem onPop_unchecked {c : Cfg} (hp : c.policy = .unchecked) {h : Heap} {p : Ptr} :
    onPop c h p = .ok h := by
  simp [onPop, hp]

/-- `on_pop` of a node outside `L'` keeps `L'` and finishes an operation that took `x` out. -/
theorem done_onPop {c : Cfg} {h h1 : Heap} {l' : Lst} {L L' : List Nat} {x : Nat} {o : Op}
    (w : WF h1 l' L') (hlen : h1.length = h.length) (hx : x ∈ L) (hx' : x ∉ L')
    (hsub : ∀ a ∈ L, a ∉ L' → a = x) (hf : ∀ a, a ∉ L → h1[a]? = h[a]?) (hxl : x < h.length) :
    ∃ h', onPop c h1 (some x) = .ok h' ∧ Done c h L o h' l' L' := by
  cases hp : c.policy with
  | unchecked =>
    exact ⟨h1, onPop_unchecked hp, w, hlen, fun a ha _ => hf a ha,
      fun h => by rw [hp] at h; exact absurd h (by decide)⟩
  | checked =>
    refine ⟨_, onPop_checked hp (by omega), ⟨w.nodup, w.head, w.tail, ?_⟩, by simp [hlen], ?_, ?_⟩
    · refine links_frame L' ?_ w.links
      intro a ha
      rw [List.getElem?_set_ne (by rintro rfl; exact hx' ha)]
    · intro a ha _
      rw [List.getElem?_set_ne (by rintro rfl; exact ha hx)]
      exact hf a ha
    · intro _ a ha ha'
      rw [hsub a ha ha']
      simp [hlen, hxl]

theorem popFront_ok {c : Cfg} {h : Heap} {l : Lst} {x : Nat} {xs : List Nat}
    (w : WF h l (x :: xs)) :
    ∃ h' l', popFront c h l = .ok ((h', l'), some x) ∧
      Done c h (x :: xs) .popFront h' l' xs := by
  obtain ⟨hnd, hh, ht, hl⟩ := w
  simp at hh
  have hx := hl.1
  simp at hx
  obtain ⟨hxl, hgx⟩ := List.getElem?_eq_some_iff.mp hx
  have hnd' := List.nodup_cons.mp hnd
  cases xs with
  | nil =>
    have w1 : WF h ⟨none, none⟩ [] := ⟨by simp, rfl, rfl, trivial⟩
    obtain ⟨h', e, d⟩ := done_onPop (c := c) (h := h) (x := x) (L := [x]) (o := .popFront) w1 rfl
      (by simp) (by simp) (by simp) (fun _ _ => rfl) hxl
    refine ⟨h', _, ?_, d⟩
    simp at hgx
    simp [popFront, hh, rd_eq, hxl, hgx, e]
  | cons y ys =>
    have hy := hl.2.1
    simp at hy
    obtain ⟨hyl, hgy⟩ := List.getElem?_eq_some_iff.mp hy
    have w1 : WF (h.set y ⟨none, ys.head?⟩) ⟨some y, l.tail⟩ (y :: ys) := by
      refine ⟨hnd'.2, rfl, ?_, by simp [hyl], ?_⟩
      · rw [ht, List.getLast?_cons (a := x), List.getLast?_cons]; simp
      · refine links_frame ys ?_ hl.2.2
        intro a ha
        rw [List.getElem?_set_ne (by rintro rfl; exact (List.nodup_cons.mp hnd'.2).1 ha)]
    obtain ⟨h', e, d⟩ := done_onPop (c := c) (h := h) (x := x) (L := x :: y :: ys) (o := .popFront) w1
      (by simp) (by simp) hnd'.1 (by grind)
      (by intro a ha; rw [List.getElem?_set_ne (by simp at ha; grind)]) hxl
    refine ⟨h', _, ?_, d⟩
    simp at hgx
    simp [popFront, hh, rd_eq, hxl, hgx, setPrev_eq, hyl, hgy, e]

theorem popBack_ok {c : Cfg} {h : Heap} {l : Lst} {x : Nat} {A : List Nat}
    (w : WF h l (A ++ [x])) :
    ∃ h' l', popBack c h l = .ok ((h', l'), some x) ∧
      Done c h (A ++ [x]) .popBack h' l' A := by
  obtain ⟨hnd, hh, ht, hl⟩ := w
  simp at ht
  rw [links_append] at hl
  have hx := hl.2.1
  simp at hx
  obtain ⟨hxl, hgx⟩ := List.getElem?_eq_some_iff.mp hx
  have hnd' := List.nodup_append.mp hnd
  have hxA : x ∉ A := fun hm => hnd'.2.2 x hm x (by simp) rfl
  rcases eq_nil_or_snoc A with rfl | ⟨B, y, rfl⟩
  · have w1 : WF h ⟨none, none⟩ [] := ⟨by simp, rfl, rfl, trivial⟩
    obtain ⟨h', e, d⟩ := done_onPop (c := c) (h := h) (x := x) (L := [x]) (o := .popBack) w1 rfl
      (by simp) (by simp) (by simp) (fun _ _ => rfl) hxl
    refine ⟨h', _, ?_, d⟩
    simp at hgx
    simp [popBack, ht, rd_eq, hxl, hgx, e]
  · have hlA := hl.1
    rw [links_append] at hlA
    have hy := hlA.2.1
    simp at hy
    obtain ⟨hyl, hgy⟩ := List.getElem?_eq_some_iff.mp hy
    have hndB := List.nodup_append.mp hnd'.1
    have w1 : WF (h.set y ⟨B.getLast?, none⟩) ⟨l.head, some y⟩ (B ++ [y]) := by
      refine ⟨hnd'.1, ?_, by simp, ?_⟩
      · rw [hh]; cases B <;> simp
      · rw [links_append]
        refine ⟨links_frame B ?_ hlA.1, by simp [hyl], trivial⟩
        intro a ha
        rw [List.getElem?_set_ne (fun e => hndB.2.2 a ha y (by simp) e.symm)]
    obtain ⟨h', e, d⟩ := done_onPop (c := c) (h := h) (x := x) (L := B ++ [y] ++ [x])
      (o := .popBack) w1
      (by simp) (by simp) hxA (by grind)
      (by intro a ha; rw [List.getElem?_set_ne (by simp at ha; grind)]) hxl
    refine ⟨h', _, ?_, d⟩
    simp at hgx
    simp [popBack, ht, rd_eq, hxl, hgx, setNext_eq, hyl, hgy, e]

theorem remove_ok {c : Cfg} {h : Heap} {l : Lst} {x : Nat} {A B : List Nat}
    (w : WF h l (A ++ x :: B)) :
    ∃ h' l', remove c h l x = .ok (h', l') ∧
      Done c h (A ++ x :: B) (.remove x) h' l' (A ++ B) := by
  obtain ⟨hnd, hh, ht, hl⟩ := w
  rw [links_append] at hl
  obtain ⟨hlA, hlx, hlB⟩ := hl
  simp at hlx hlA
  obtain ⟨hxl, hgx⟩ := List.getElem?_eq_some_iff.mp hlx
  have hndp := List.nodup_cons.mp (List.perm_middle.nodup_iff.mp hnd)
  obtain ⟨hxAB, hndAB⟩ := hndp
  have key : ∀ (h1 : Heap) (l1 : Lst), WF h1 l1 (A ++ B) → h1.length = h.length →
      (∀ a, a ∉ A ++ x :: B → h1[a]? = h[a]?) →
      ∃ h', onPop c h1 (some x) = .ok h' ∧ Done c h (A ++ x :: B) (.remove x) h' l1 (A ++ B) :=
    fun h1 l1 w1 hlen hf => done_onPop w1 hlen (by simp) hxAB (by grind) hf hxl
  rcases eq_nil_or_snoc A with rfl | ⟨A, y, rfl⟩
  · simp at hgx
    cases B with
    | nil =>
      obtain ⟨h', e, d⟩ := key h ⟨none, none⟩ ⟨by simp, rfl, rfl, trivial⟩ rfl (fun _ _ => rfl)
      refine ⟨h', _, ?_, d⟩
      simp at hgx
      simp [remove, rd_eq, hxl, hgx, e]
    | cons z zs =>
      have hz := hlB.1
      simp at hz hgx
      obtain ⟨hzl, hgz⟩ := List.getElem?_eq_some_iff.mp hz
      obtain ⟨h', e, d⟩ := key (h.set z ⟨none, zs.head?⟩) ⟨some z, l.tail⟩
        ⟨hndAB, rfl, by rw [ht]; simp [List.getLast?_cons], by simp [hzl],
          links_frame zs (by intro a ha; rw [List.getElem?_set_ne (by simp at hndAB; grind)]) hlB.2⟩
        (by simp) (by intro a ha; rw [List.getElem?_set_ne (by simp at ha; grind)])
      refine ⟨h', _, ?_, d⟩
      simp [remove, rd_eq, hxl, hgx, e, setPrev_eq, hzl, hgz]
  · rw [links_append] at hlA
    have hy := hlA.2.1
    simp at hy hgx
    obtain ⟨hyl, hgy⟩ := List.getElem?_eq_some_iff.mp hy
    have hndA := List.nodup_append.mp hndAB
    have hndA2 := List.nodup_append.mp hndA.1
    cases B with
    | nil =>
      obtain ⟨h', e, d⟩ := key (h.set y ⟨A.getLast?, none⟩) ⟨l.head, some y⟩
        ⟨hndAB, by rw [hh]; cases A <;> simp, by simp, by
          simp only [List.append_nil]
          rw [links_append]
          exact ⟨links_frame A (by
              intro a ha
              rw [List.getElem?_set_ne (fun e => hndA2.2.2 a ha y (by simp) e.symm)]) hlA.1,
            by simp [hyl], trivial⟩⟩
        (by simp) (by intro a ha; rw [List.getElem?_set_ne (by simp at ha; grind)])
      refine ⟨h', _, ?_, d⟩
      simp at hgx
      simp [remove, rd_eq, hxl, hgx, e, setNext_eq, hyl, hgy]
    | cons z zs =>
      have hz := hlB.1
      simp at hz hgx
      obtain ⟨hzl, hgz⟩ := List.getElem?_eq_some_iff.mp hz
      have hyz : ¬ y = z := fun e => hndA.2.2 y (by simp) z (by simp) e
      have hzy : ¬ z = y := fun e => hyz e.symm
      obtain ⟨h', e, d⟩ := key ((h.set y ⟨A.getLast?, some z⟩).set z ⟨some y, zs.head?⟩) l
        ⟨hndAB, by rw [hh]; cases A <;> simp, by rw [ht]; simp [List.getLast?_cons], by
          rw [List.append_assoc, links_append]
          refine ⟨links_frame A ?_ hlA.1, by simp [hyl, hzy], by simp [hzl], links_frame zs ?_ hlB.2⟩
          · intro a ha
            rw [List.getElem?_set_ne (fun e => hndA.2.2 a (by simp [ha]) z (by simp) e.symm),
              List.getElem?_set_ne (fun e => hndA2.2.2 a ha y (by simp) e.symm)]
          · intro a ha
            rw [List.getElem?_set_ne (by rintro rfl; exact (List.nodup_cons.mp hndA.2.1).1 ha),
              List.getElem?_set_ne (fun e => hndA.2.2 y (by simp) a (by simp [ha]) e)]⟩
        (by simp) (by
          intro a ha
          rw [List.getElem?_set_ne (by simp at ha; grind), List.getElem?_set_ne (by simp at ha; grind)])
      refine ⟨h', _, ?_, d⟩
      simp [remove, rd_eq, hxl, hgx, e, setNext_eq, setPrev_eq, hyl, hgy, hzl, hgz, hyz]

theorem onClearLoop_ok (L : List Nat) : ∀ {h : Heap} {p : Ptr} {fuel : Nat}, Links h p L none →
    L.Nodup → L.length ≤ fuel → ∃ h', onClearLoop fuel h L.head? = .ok h' ∧
      h'.length = h.length ∧ (∀ a, a ∉ L → h'[a]? = h[a]?) ∧
      (∀ a ∈ L, h'[a]? = some ⟨none, none⟩) := by
  induction L with
  | nil =>
    intro h p fuel _ _ _
    exact ⟨h, by cases fuel <;> rfl, rfl, fun _ _ => rfl, by simp⟩
  | cons x xs ih =>
    intro h p fuel hl hnd hf
    cases fuel with
    | zero => simp at hf
    | succ fuel =>
      have hx := hl.1
      simp at hx
      obtain ⟨hxl, hgx⟩ := List.getElem?_eq_some_iff.mp hx
      have hnd' := List.nodup_cons.mp hnd
      simp at hf
      obtain ⟨h', e, hlen, hout, hin⟩ := ih (h := h.set x ⟨none, none⟩) (p := some x) (fuel := fuel)
        (links_frame xs (by intro a ha; rw [List.getElem?_set_ne (by rintro rfl; exact hnd'.1 ha)]) hl.2)
        hnd'.2 hf
      refine ⟨h', ?_, by simpa using hlen, ?_, ?_⟩
      · simp [onClearLoop, setPrev_eq, setNext_eq, rd_eq, hxl, hgx, e]
      · intro a ha
        simp at ha
        rw [hout a ha.2, List.getElem?_set_ne (fun e => ha.1 e.symm)]
      · intro a ha
        simp at ha
        rcases ha with rfl | ha
        · rw [hout a hnd'.1]; simp [hxl]
        · exact hin a ha

theorem clear_ok {c : Cfg} {h : Heap} {l : Lst} {L : List Nat} (w : WF h l L) :
    ∃ h' l', clear c h l = .ok (h', l') ∧ Done c h L .clear h' l' [] := by
  cases hp : c.policy with
  | unchecked =>
    exact ⟨h, ⟨none, none⟩, by simp [clear, hp], ⟨by simp, rfl, rfl, trivial⟩, rfl,
      fun _ _ _ => rfl, fun h => by rw [hp] at h; exact absurd h (by decide)⟩
  | checked =>
    obtain ⟨h', e, hlen, hout, hin⟩ := onClearLoop_ok L (fuel := h.length + 1) w.links w.nodup
      (by have := wf_len w; omega)
    refine ⟨h', ⟨none, none⟩, ?_, ⟨by simp, rfl, rfl, trivial⟩, hlen, fun a ha _ => hout a ha,
      fun _ a ha _ => hin a ha⟩
    rw [← w.head] at e
    simp [clear, hp, e]

end Verif.IList
