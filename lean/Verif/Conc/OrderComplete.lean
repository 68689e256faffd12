import Verif.Conc.OrderLemmas

/-!
# Every schedule is an execution

The converse of `Execution.scheduled`: the axioms of `Verif.Conc.Order` leave out no interleaving of indivisible steps, so the
theorems about executions are about at least those.
-/

namespace Verif.Conc

variable {w : Nat} {α : Type}

theorem Performs.congr {val val' : Nat → BitVec w} {m : Nat} (hv : ∀ n, n ≤ m → val' n = val n) {p q : Prog w α} {as : List Acc}
    (h : Performs val p as q) (hb : (∀ j, .write j ∈ as → j < m) ∧ (∀ p, .read p ∈ as → p ≤ m)) : Performs val' p as q := by
  induction h with
  | nil => exact .nil _
  | cons f k a as q hw hr h ih =>
    have hpos : val' a.pos = val a.pos := by
      cases ha : a with
      | write j => exact hv _ (Nat.le_of_lt (hb.1 j (by simp [ha])))
      | read p => exact hv _ (hb.2 p (by simp [ha]))
    refine .cons f k a as q ?_ hr ?_
    · intro j hj
      have := hb.1 j (by simp [hj])
      rw [hv _ this, hv _ (Nat.le_of_lt this)]
      exact hw j hj
    · rw [hpos]
      exact ih ⟨fun j hj => hb.1 j (List.mem_cons_of_mem _ hj), fun p hp => hb.2 p (List.mem_cons_of_mem _ hp)⟩

theorem Performs.extend {val : Nat → BitVec w} {p : Prog w α} {as : List Acc} {a : Acc} {f : BitVec w → BitVec w}
    {k : BitVec w → Prog w α} (h : Performs val p as (.atomically f k)) (hw : ∀ j, a = .write j → val (j + 1) = f (val j))
    (hr : ∀ p, a = .read p → ∀ c, f c = c) : Performs val p (as ++ [a]) (k (val a.pos)) := by
  generalize hq : Prog.atomically f k = q at h
  induction h with
  | nil p => subst hq; exact .cons f k a [] _ hw hr (.nil _)
  | cons f' k' b as q hw' hr' _ ih => exact .cons f' k' b _ _ hw' hr' (ih hq)

theorem pairwise_snoc {as : List Acc} {a : Acc} (h : as.Pairwise Coherent) (ha : ∀ b ∈ as, Coherent b a) :
    (as ++ [a]).Pairwise Coherent := by
  rw [List.pairwise_append]
  refine ⟨h, by simp, ?_⟩
  intro b hb c hc
  simp only [List.mem_singleton] at hc
  subst hc
  exact ha b hb

theorem mem_set_append {accs : List (List Acc)} {t : Nat} {as bs : List Acc} {a b : Acc} (ht : accs[t]? = some as)
    (hbs : bs ∈ accs.set t (as ++ [a])) (hb : b ∈ bs) : b = a ∨ ∃ bs' ∈ accs, b ∈ bs' := by
  rcases List.mem_or_eq_of_mem_set hbs with h3 | rfl
  · exact Or.inr ⟨bs, h3, hb⟩
  · rcases List.mem_append.1 hb with h4 | h4
    · exact Or.inr ⟨as, List.mem_of_getElem? ht, h4⟩
    · simp only [List.mem_singleton] at h4; exact Or.inl h4

theorem getElem?_set_append {accs : List (List Acc)} {t u i : Nat} {as bs : List Acc} {a b : Acc} (ht : accs[t]? = some as)
    (hu : (accs.set t (as ++ [a]))[u]? = some bs) (hi : bs[i]? = some b) :
    (u = t ∧ i = as.length ∧ b = a) ∨ ∃ bs', accs[u]? = some bs' ∧ bs'[i]? = some b := by
  have htl : t < accs.length := (List.getElem?_eq_some_iff.1 ht).1
  by_cases hut : u = t
  · subst hut
    rw [List.getElem?_set_self htl, Option.some.injEq] at hu
    subst hu
    by_cases hlt : i < as.length
    · rw [List.getElem?_append_left hlt] at hi
      exact Or.inr ⟨as, ht, hi⟩
    · left
      have := (List.getElem?_eq_some_iff.1 hi).1
      simp only [List.length_append, List.length_singleton] at this
      have hi' : i = as.length := by omega
      subst hi'
      simp only [List.getElem?_concat_length, Option.some.injEq] at hi
      exact ⟨rfl, rfl, hi.symm⟩
  · rw [List.getElem?_set_ne (Ne.symm hut)] at hu
    exact Or.inr ⟨bs, hu, hi⟩

/-- A thread may go on with its next access as a write: it is the last in the modification order. -/
theorem Execution.extend_write {progs : List (Prog w α)} {c0 : BitVec w} {m : Nat} {val : Nat → BitVec w} {accs : List (List Acc)}
    {ends : List (Prog w α)} (h : Execution progs c0 m val accs ends) {t : Nat} {as : List Acc} {f : BitVec w → BitVec w}
    {k : BitVec w → Prog w α} (ha : accs[t]? = some as) (he : ends[t]? = some (.atomically f k)) :
    Execution progs c0 (m + 1) (fun n => if n ≤ m then val n else f (val m)) (accs.set t (as ++ [.write m])) (ends.set t (k (val m))) := by
  have hv : ∀ n, n ≤ m → (fun n => if n ≤ m then val n else f (val m)) n = val n := fun n hn => by simp [hn]
  have hta : t < accs.length := (List.getElem?_eq_some_iff.1 ha).1
  have hte : t < ends.length := (List.getElem?_eq_some_iff.1 he).1
  refine ⟨by simp [h.initial], by simp [h.threads], by simp [h.threads'], ?_, ?_, ?_, ?_, ?_⟩
  · intro u p bs q hp hb hq
    by_cases hut : u = t
    · subst hut
      rw [List.getElem?_set_self hta, Option.some.injEq] at hb
      rw [List.getElem?_set_self hte, Option.some.injEq] at hq
      subst hb hq
      have h1 := (h.performs u p as _ hp ha he).congr hv (h.bounded _ (List.mem_of_getElem? ha))
      have h2 := h1.extend (a := .write m) (fun j hj => by cases hj; simp [show ¬ m + 1 ≤ m by omega]) (fun p hp => by cases hp)
      simpa [Acc.pos] using h2
    · rw [List.getElem?_set_ne (Ne.symm hut)] at hb hq
      exact (h.performs u p bs q hp hb hq).congr hv (h.bounded _ (List.mem_of_getElem? hb))
  · intro bs hbs
    refine ⟨fun j hj => ?_, fun p hp => ?_⟩
    · rcases mem_set_append ha hbs hj with h1 | ⟨bs', h1, h2⟩
      · cases h1; omega
      · have := (h.bounded bs' h1).1 j h2; omega
    · rcases mem_set_append ha hbs hp with h1 | ⟨bs', h1, h2⟩
      · cases h1
      · have := (h.bounded bs' h1).2 p h2; omega
  · intro j hj
    rcases Nat.lt_or_ge j m with h1 | h1
    · obtain ⟨bs, h2, h3⟩ := h.every j h1
      obtain ⟨u, hu, rfl⟩ := List.getElem_of_mem h2
      by_cases hut : u = t
      · subst hut
        rw [List.getElem?_eq_getElem hu, Option.some.injEq] at ha
        refine ⟨as ++ [.write m], List.mem_set hu _, ?_⟩
        rw [ha] at h3
        exact List.mem_append_left _ h3
      · refine ⟨accs[u], ?_, h3⟩
        have : (accs.set t (as ++ [.write m]))[u]? = some accs[u] := by
          rw [List.getElem?_set_ne (Ne.symm hut), List.getElem?_eq_getElem hu]
        exact List.mem_of_getElem? this
    · have : j = m := by omega
      subst this
      exact ⟨as ++ [.write j], List.mem_set hta _, by simp⟩
  · intro u u' i i' bs bs' j hu hu' hi hi'
    rcases getElem?_set_append ha hu hi with ⟨h1, h2, h3⟩ | ⟨x, h1, h2⟩ <;>
      rcases getElem?_set_append ha hu' hi' with ⟨h4, h5, h6⟩ | ⟨y, h4, h5⟩
    · exact ⟨by omega, by omega⟩
    · cases h3
      have := (h.bounded y (List.mem_of_getElem? h4)).1 _ (List.mem_of_getElem? h5); omega
    · cases h6
      have := (h.bounded x (List.mem_of_getElem? h1)).1 _ (List.mem_of_getElem? h2); omega
    · exact h.once u u' i i' x y j h1 h4 h2 h5
  · intro bs hbs
    rcases List.mem_or_eq_of_mem_set hbs with h1 | rfl
    · exact h.coherent _ h1
    · have hb := h.bounded _ (List.mem_of_getElem? ha)
      refine pairwise_snoc (h.coherent _ (List.mem_of_getElem? ha)) ?_
      intro b hb'
      cases b with
      | write j => exact hb.1 j hb'
      | read p => exact hb.2 p hb'

/-- A thread whose next access changes nothing may go on with a load of the last value. -/
theorem Execution.extend_read {progs : List (Prog w α)} {c0 : BitVec w} {m : Nat} {val : Nat → BitVec w} {accs : List (List Acc)}
    {ends : List (Prog w α)} (h : Execution progs c0 m val accs ends) {t : Nat} {as : List Acc} {f : BitVec w → BitVec w}
    {k : BitVec w → Prog w α} (ha : accs[t]? = some as) (he : ends[t]? = some (.atomically f k)) (hf : ∀ c, f c = c) :
    Execution progs c0 m val (accs.set t (as ++ [.read m])) (ends.set t (k (val m))) := by
  have hta : t < accs.length := (List.getElem?_eq_some_iff.1 ha).1
  have hte : t < ends.length := (List.getElem?_eq_some_iff.1 he).1
  refine ⟨h.initial, by simp [h.threads], by simp [h.threads'], ?_, ?_, ?_, ?_, ?_⟩
  · intro u p bs q hp hb hq
    by_cases hut : u = t
    · subst hut
      rw [List.getElem?_set_self hta, Option.some.injEq] at hb
      rw [List.getElem?_set_self hte, Option.some.injEq] at hq
      subst hb hq
      exact (h.performs u p as _ hp ha he).extend (a := .read m) (fun j hj => by cases hj) (fun _ _ => hf)
    · rw [List.getElem?_set_ne (Ne.symm hut)] at hb hq
      exact h.performs u p bs q hp hb hq
  · intro bs hbs
    refine ⟨fun j hj => ?_, fun p hp => ?_⟩
    · rcases mem_set_append ha hbs hj with h1 | ⟨bs', h1, h2⟩
      · cases h1
      · exact (h.bounded bs' h1).1 j h2
    · rcases mem_set_append ha hbs hp with h1 | ⟨bs', h1, h2⟩
      · cases h1; exact Nat.le_refl _
      · exact (h.bounded bs' h1).2 p h2
  · intro j hj
    obtain ⟨bs, h2, h3⟩ := h.every j hj
    obtain ⟨u, hu, rfl⟩ := List.getElem_of_mem h2
    by_cases hut : u = t
    · subst hut
      rw [List.getElem?_eq_getElem hu, Option.some.injEq] at ha
      refine ⟨as ++ [.read m], List.mem_set hu _, ?_⟩
      rw [ha] at h3
      exact List.mem_append_left _ h3
    · refine ⟨accs[u], ?_, h3⟩
      have : (accs.set t (as ++ [.read m]))[u]? = some accs[u] := by
        rw [List.getElem?_set_ne (Ne.symm hut), List.getElem?_eq_getElem hu]
      exact List.mem_of_getElem? this
  · intro u u' i i' bs bs' j hu hu' hi hi'
    rcases getElem?_set_append ha hu hi with ⟨_, _, h3⟩ | ⟨x, h1, h2⟩
    · cases h3
    · rcases getElem?_set_append ha hu' hi' with ⟨_, _, h6⟩ | ⟨y, h4, h5⟩
      · cases h6
      · exact h.once u u' i i' x y j h1 h4 h2 h5
  · intro bs hbs
    rcases List.mem_or_eq_of_mem_set hbs with h1 | rfl
    · exact h.coherent _ h1
    · have hb := h.bounded _ (List.mem_of_getElem? ha)
      refine pairwise_snoc (h.coherent _ (List.mem_of_getElem? ha)) ?_
      intro b hb'
      cases b with
      | write j => exact hb.1 j hb'
      | read p => exact hb.2 p hb'

theorem Execution.initially (progs : List (Prog w α)) (c0 : BitVec w) :
    Execution progs c0 0 (fun _ => c0) (progs.map (fun _ => [])) progs := by
  have hnil : ∀ as ∈ progs.map (fun _ => ([] : List Acc)), as = [] := by
    intro as has
    obtain ⟨_, _, rfl⟩ := List.mem_map.1 has
    rfl
  refine ⟨rfl, by simp, rfl, ?_, ?_, by omega, ?_, ?_⟩
  · intro t p as q hp ha hq
    rw [hp, Option.some.injEq] at hq
    subst hq
    rw [hnil as (List.mem_of_getElem? ha)]
    exact .nil _
  · intro as has; rw [hnil as has]; simp
  · intro t t' i i' as as' j h1 _ h3
    rw [hnil as (List.mem_of_getElem? h1)] at h3
    cases h3
  · intro as has; rw [hnil as has]; simp

/-- **Every schedule is an execution**, with as many accesses as steps. (The proof makes the accesses that change nothing loads.) -/
theorem Execution.of_schedule (progs : List (Prog w α)) (c0 : BitVec w) : ∀ (n : Nat) (sched : List Nat) (s : Sys w α), sched.length = n →
    (⟨c0, progs⟩ : Sys w α).run sched = some s → ∃ m val accs, Execution progs c0 m val accs s.threads ∧ val m = s.cell ∧
      (accs.map List.length).sum = n := by
  intro n
  induction n with
  | zero =>
    intro sched s hn hr
    rw [List.length_eq_zero_iff] at hn
    subst hn
    cases hr
    refine ⟨0, _, _, Execution.initially progs c0, rfl, ?_⟩
    apply List.sum_eq_zero_iff_forall_eq_nat.2
    intro x hx
    simp only [List.map_map, List.mem_map, Function.comp_apply, List.length_nil] at hx
    obtain ⟨_, _, rfl⟩ := hx
    rfl
  | succ n ih =>
    intro sched s hn hr
    have hne : sched ≠ [] := by rintro rfl; cases hn
    obtain ⟨pre, t, rfl⟩ : ∃ pre t, sched = pre ++ [t] := ⟨sched.dropLast, sched.getLast hne, (List.dropLast_concat_getLast hne).symm⟩
    rw [run_snoc] at hr
    obtain ⟨s', h1, h2⟩ := Option.bind_eq_some_iff.1 hr
    obtain ⟨m, val, accs, hx, hc, hl⟩ := ih pre s' (by simp at hn; omega) h1
    unfold Sys.step at h2
    split at h2
    case h_2 => cases h2
    case h_1 f k ht =>
      simp only [Option.some.injEq] at h2
      subst h2
      have hte : t < s'.threads.length := (List.getElem?_eq_some_iff.1 ht).1
      have hta : t < accs.length := by rw [hx.threads, ← hx.threads']; exact hte
      have key : ∀ (a : Acc) (l : List (List Acc)) (t : Nat) (h : t < l.length),
          ((l.set t (l[t] ++ [a])).map List.length).sum = (l.map List.length).sum + 1 := by
        intro a l
        induction l with
        | nil => intro t h; cases h
        | cons x l ih =>
          intro t h
          cases t with
          | zero =>
            simp only [List.set_cons_zero, List.map_cons, List.sum_cons, List.length_append, List.length_singleton, List.getElem_cons_zero]
            omega
          | succ t =>
            simp only [List.set_cons_succ, List.map_cons, List.sum_cons, List.getElem_cons_succ]
            rw [ih t (by simpa using h)]
            omega
      by_cases hf : ∀ c, f c = c
      · refine ⟨m, val, _, by rw [← hc]; exact hx.extend_read (List.getElem?_eq_getElem hta) ht hf, by simp [hc, hf], ?_⟩
        rw [key _ _ _ hta, hl]
      · refine ⟨m + 1, _, _, by rw [← hc]; exact hx.extend_write (List.getElem?_eq_getElem hta) ht, by simp [hc, show ¬ m + 1 ≤ m by omega], ?_⟩
        rw [key _ _ _ hta, hl]

end Verif.Conc
