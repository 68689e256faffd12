import Verif.Conc.Order

/-!
# Every execution of accesses to one object is that of a schedule
-/

namespace Verif.Conc

variable {w : Nat} {α : Type}

/-- Loads come between the write they read and the next one. -/
def Acc.key : Acc → Nat
  | .write j => 2 * j + 1
  | .read p => 2 * p

theorem coherent_key {a b : Acc} (h : Coherent a b) : a.key ≤ b.key := by
  cases a <;> cases b <;> simp only [Coherent, Acc.key] at * <;> omega

theorem exists_max : ∀ l : List Acc, l ≠ [] → ∃ a ∈ l, ∀ b ∈ l, b.key ≤ a.key := by
  intro l
  induction l with
  | nil => intro h; exact absurd rfl h
  | cons a l ih =>
    intro _
    by_cases hl : l = []
    · subst hl
      exact ⟨a, by simp, by simp⟩
    · obtain ⟨b, hb, hmax⟩ := ih hl
      by_cases hab : b.key ≤ a.key
      · refine ⟨a, by simp, ?_⟩
        intro c hc
        rcases List.mem_cons.1 hc with rfl | hc
        · exact Nat.le_refl _
        · exact Nat.le_trans (hmax c hc) hab
      · refine ⟨b, by simp [hb], ?_⟩
        intro c hc
        rcases List.mem_cons.1 hc with rfl | hc
        · omega
        · exact hmax c hc

theorem Performs.nil_eq {val : Nat → BitVec w} {p q : Prog w α} (h : Performs val p [] q) : q = p := by
  generalize e : ([] : List Acc) = as at h
  cases h with
  | nil => rfl
  | cons => cases e

theorem Performs.snoc {val : Nat → BitVec w} {p q : Prog w α} {as : List Acc} {a : Acc} (h : Performs val p (as ++ [a]) q) :
    ∃ f k, Performs val p as (.atomically f k) ∧ (∀ j, a = .write j → val (j + 1) = f (val j)) ∧
      (∀ p, a = .read p → ∀ c, f c = c) ∧ q = k (val a.pos) := by
  induction as generalizing p with
  | nil =>
    cases h with
    | cons f k _ _ _ hw hr h =>
      exact ⟨f, k, .nil _, hw, hr, h.nil_eq⟩
  | cons b as ih =>
    cases h with
    | cons f k _ _ _ hw hr h =>
      obtain ⟨f', k', h1, h2⟩ := ih h
      exact ⟨f', k', .cons f k b as _ hw hr h1, h2⟩

theorem run_snoc (sched : List Nat) (t : Nat) : ∀ s : Sys w α, s.run (sched ++ [t]) = (s.run sched).bind (·.step t) := by
  induction sched with
  | nil =>
    intro s
    simp only [List.nil_append, Sys.run, Option.bind_some]
    cases s.step t <;> rfl
  | cons u us ih =>
    intro s
    simp only [List.cons_append, Sys.run]
    cases s.step u with
    | none => rfl
    | some s' => exact ih s'

/-- The last access of the execution can be taken back. -/
theorem Execution.last {progs : List (Prog w α)} {c0 : BitVec w} {m : Nat} {val : Nat → BitVec w} {accs : List (List Acc)}
    {ends : List (Prog w α)} (h : Execution progs c0 m val accs ends) (hne : ∃ as ∈ accs, as ≠ []) :
    ∃ t m' accs' ends', Execution progs c0 m' val accs' ends' ∧ (accs'.map List.length).sum + 1 = (accs.map List.length).sum ∧
      (⟨val m', ends'⟩ : Sys w α).step t = some ⟨val m, ends⟩ := by
  obtain ⟨a0, ha0, hmax⟩ := exists_max accs.flatten (by
    obtain ⟨as, h1, h2⟩ := hne
    obtain ⟨x, xs, rfl⟩ := List.exists_cons_of_ne_nil h2
    intro h
    have : x ∈ accs.flatten := List.mem_flatten.2 ⟨_, h1, by simp⟩
    rw [h] at this
    cases this)
  obtain ⟨as0, h1, h2⟩ := List.mem_flatten.1 ha0
  obtain ⟨t, ht, e0⟩ := List.getElem_of_mem h1
  have hne0 : as0 ≠ [] := by rintro rfl; cases h2
  obtain ⟨as, a, rfl⟩ : ∃ as a, as0 = as ++ [a] := ⟨as0.dropLast, as0.getLast hne0, (List.dropLast_concat_getLast hne0).symm⟩
  have hmax' : ∀ bs ∈ accs, ∀ b ∈ bs, b.key ≤ a.key := by
    intro bs hbs b hb
    have h3 := hmax b (List.mem_flatten.2 ⟨bs, hbs, hb⟩)
    refine Nat.le_trans h3 ?_
    rcases List.mem_append.1 h2 with h4 | h4
    · exact coherent_key ((List.pairwise_append.1 (h.coherent _ h1)).2.2 a0 h4 a (by simp))
    · simp only [List.mem_singleton] at h4; subst h4; exact Nat.le_refl _
  have htp : t < progs.length := by rw [← h.threads]; exact ht
  have hte : t < ends.length := by rw [h.threads']; exact htp
  have hacc : accs[t]? = some (as ++ [a]) := by rw [List.getElem?_eq_getElem ht, e0]
  obtain ⟨f, k, hperf, hwr, hrd, hq⟩ := (h.performs t _ _ _ (List.getElem?_eq_getElem htp) hacc (List.getElem?_eq_getElem hte)).snoc
  -- what is before the last access
  have hin : ∀ bs ∈ accs.set t as, ∀ b ∈ bs, ∃ bs' ∈ accs, b ∈ bs' := by
    intro bs hbs b hb
    rcases List.mem_or_eq_of_mem_set hbs with h3 | rfl
    · exact ⟨bs, h3, hb⟩
    · exact ⟨_, h1, List.mem_append_left _ hb⟩
  have hlen : ((accs.set t as).map List.length).sum + 1 = (accs.map List.length).sum := by
    have key : ∀ (l : List (List Acc)) (t : Nat), l[t]? = some (as ++ [a]) → ((l.set t as).map List.length).sum + 1 = (l.map List.length).sum := by
      intro l
      induction l with
      | nil => intro t h; simp at h
      | cons x l ih =>
        intro t h
        cases t with
        | zero =>
          simp only [List.getElem?_cons_zero, Option.some.injEq] at h
          subst h
          simp only [List.set_cons_zero, List.map_cons, List.sum_cons, List.length_append, List.length_singleton]
          omega
        | succ t =>
          simp only [List.getElem?_cons_succ] at h
          simp only [List.set_cons_succ, List.map_cons, List.sum_cons, ← ih t h]
          omega
    exact key accs t hacc
  have hgetset : ∀ (u i : Nat) bs b, (accs.set t as)[u]? = some bs → bs[i]? = some b → ∃ bs', accs[u]? = some bs' ∧ bs'[i]? = some b ∧
      (u = t → i < as.length) := by
    intro u i bs b hu hi
    by_cases hut : u = t
    · subst hut
      rw [List.getElem?_set_self ht, Option.some.injEq] at hu
      subst hu
      have hi' : i < as.length := (List.getElem?_eq_some_iff.1 hi).1
      exact ⟨_, hacc, by rw [List.getElem?_append_left hi', hi], fun _ => hi'⟩
    · rw [List.getElem?_set_ne (Ne.symm hut)] at hu
      exact ⟨bs, hu, hi, fun h => absurd h hut⟩
  have hperf' : ∀ (u : Nat) p bs q, progs[u]? = some p → (accs.set t as)[u]? = some bs →
      (ends.set t (.atomically f k))[u]? = some q → Performs val p bs q := by
    intro u p bs q hp hb hq'
    by_cases hut : u = t
    · subst hut
      rw [List.getElem?_set_self ht, Option.some.injEq] at hb
      rw [List.getElem?_set_self hte, Option.some.injEq] at hq'
      rw [List.getElem?_eq_getElem htp, Option.some.injEq] at hp
      subst hb hq' hp
      exact hperf
    · rw [List.getElem?_set_ne (Ne.symm hut)] at hb hq'
      exact h.performs u p bs q hp hb hq'
  have hcoh : ∀ bs ∈ accs.set t as, bs.Pairwise Coherent := by
    intro bs hbs
    rcases List.mem_or_eq_of_mem_set hbs with h3 | rfl
    · exact h.coherent _ h3
    · exact (List.pairwise_append.1 (h.coherent _ h1)).1
  have honce : ∀ (u u' i i' : Nat) bs bs' j, (accs.set t as)[u]? = some bs → (accs.set t as)[u']? = some bs' →
      bs[i]? = some (.write j) → bs'[i']? = some (.write j) → u = u' ∧ i = i' := by
    intro u u' i i' bs bs' j hu hu' hi hi'
    obtain ⟨x, h3, h4, _⟩ := hgetset u i bs _ hu hi
    obtain ⟨y, h5, h6, _⟩ := hgetset u' i' bs' _ hu' hi'
    exact h.once u u' i i' x y j h3 h5 h4 h6
  have hstep : ∀ m', a.pos = m' → f (val m') = val m →
      (⟨val m', ends.set t (.atomically f k)⟩ : Sys w α).step t = some ⟨val m, ends⟩ := by
    intro m' hpos hf
    simp only [Sys.step, List.getElem?_set_self hte]
    rw [hf, List.set_set, ← hpos, ← hq, List.set_getElem_self]
  have hevery : ∀ j, j < m → a ≠ .write j → ∃ bs ∈ accs.set t as, Acc.write j ∈ bs := by
    intro j hj hne'
    obtain ⟨bs, hb1, hb2⟩ := h.every j hj
    obtain ⟨u, hu, rfl⟩ := List.getElem_of_mem hb1
    by_cases hut : u = t
    · subst hut
      rw [e0] at hb2
      rcases List.mem_append.1 hb2 with h3 | h3
      · exact ⟨as, List.mem_set hu as, h3⟩
      · simp only [List.mem_singleton] at h3; exact absurd h3.symm hne'
    · refine ⟨accs[u], ?_, hb2⟩
      have : (accs.set t as)[u]? = some accs[u] := by
        rw [List.getElem?_set_ne (Ne.symm hut), List.getElem?_eq_getElem hu]
      exact List.mem_of_getElem? this
  have hbound := (h.bounded _ h1)
  cases ha : a with
  | write j =>
    subst ha
    have hj : j < m := hbound.1 j (by simp)
    have hm : m = j + 1 := by
      rcases Nat.lt_or_ge (j + 1) m with h3 | h3
      · obtain ⟨bs, hb1, hb2⟩ := h.every (j + 1) h3
        have := hmax' bs hb1 _ hb2
        simp only [Acc.key] at this
        omega
      · omega
    subst hm
    refine ⟨t, j, accs.set t as, ends.set t (.atomically f k), ⟨h.initial, by simp [h.threads], by simp [h.threads'], hperf', ?_, ?_,
      honce, hcoh⟩, hlen, hstep j rfl (hwr j rfl).symm⟩
    · intro bs hbs
      refine ⟨fun j' hj' => ?_, fun p hp => ?_⟩
      · obtain ⟨u, hu, e⟩ := List.getElem_of_mem hbs
        obtain ⟨i, hi, e'⟩ := List.getElem_of_mem hj'
        obtain ⟨bs', h3, h4, h5⟩ := hgetset u i bs (.write j') (by rw [List.getElem?_eq_getElem hu, e]) (by rw [List.getElem?_eq_getElem hi, e'])
        have h6 := (h.bounded bs' (List.mem_of_getElem? h3)).1 j' (List.mem_of_getElem? h4)
        rcases Nat.lt_or_ge j' j with h7 | h7
        · exact h7
        · have : j' = j := by omega
          subst this
          obtain ⟨h8, h9⟩ := h.once u t i as.length bs' (as ++ [.write j']) j' h3 hacc h4 (by simp)
          have := h5 h8
          omega
      · obtain ⟨bs', h3, h4⟩ := hin bs hbs _ hp
        have := hmax' bs' h3 _ h4
        simp only [Acc.key] at this
        omega
    · intro j' hj'
      exact hevery j' (by omega) (by simp only [ne_eq, Acc.write.injEq]; omega)
  | read p =>
    subst ha
    have hp : p ≤ m := hbound.2 p (by simp)
    have hpm : p = m := by
      rcases Nat.lt_or_ge p m with h3 | h3
      · obtain ⟨bs, hb1, hb2⟩ := h.every p h3
        have := hmax' bs hb1 _ hb2
        simp only [Acc.key] at this
        omega
      · omega
    subst hpm
    refine ⟨t, p, accs.set t as, ends.set t (.atomically f k), ⟨h.initial, by simp [h.threads], by simp [h.threads'], hperf', ?_, ?_,
      honce, hcoh⟩, hlen, hstep p rfl (hrd p rfl _)⟩
    · intro bs hbs
      refine ⟨fun j' hj' => ?_, fun p' hp' => ?_⟩
      · obtain ⟨bs', h3, h4⟩ := hin bs hbs _ hj'
        exact (h.bounded bs' h3).1 j' h4
      · obtain ⟨bs', h3, h4⟩ := hin bs hbs _ hp'
        exact (h.bounded bs' h3).2 p' h4
    · intro j' hj'
      exact hevery j' hj' (by simp)

/-- **Accesses to one object under any memory orders.** Every execution ends as some schedule of indivisible steps does,
one step for each access. -/
theorem Execution.scheduled {progs : List (Prog w α)} {c0 : BitVec w} {val : Nat → BitVec w} :
    ∀ (n : Nat) {m : Nat} {accs : List (List Acc)} {ends : List (Prog w α)}, (accs.map List.length).sum ≤ n →
    Execution progs c0 m val accs ends → ∃ sched, sched.length = (accs.map List.length).sum ∧ (⟨c0, progs⟩ : Sys w α).run sched = some ⟨val m, ends⟩ := by
  intro n
  induction n with
  | zero =>
    intro m accs ends hn h
    have hnil : ∀ as ∈ accs, as = [] := by
      intro as has
      refine Classical.byContradiction fun hne => ?_
      obtain ⟨_, _, _, _, _, hlt, _⟩ := h.last ⟨as, has, hne⟩
      omega
    refine ⟨[], by simp only [List.length_nil]; omega, ?_⟩
    have hm : m = 0 := by
      rcases Nat.eq_zero_or_pos m with h0 | h0
      · exact h0
      · obtain ⟨as, h1, h2⟩ := h.every 0 h0
        rw [hnil as h1] at h2; cases h2
    have he : ends = progs := by
      apply List.ext_getElem h.threads'
      intro t h1 h2
      have h3 : t < accs.length := by rw [h.threads]; exact h2
      have := h.performs t _ _ _ (List.getElem?_eq_getElem h2) (List.getElem?_eq_getElem h3) (List.getElem?_eq_getElem h1)
      rw [hnil _ (List.getElem_mem h3)] at this
      exact this.nil_eq
    rw [hm, he, h.initial]; rfl
  | succ n ih =>
    intro m accs ends hn h
    by_cases hne : ∃ as ∈ accs, as ≠ []
    · obtain ⟨t, m', accs', ends', h1, hlt, hs⟩ := h.last hne
      obtain ⟨sched, hl, hr⟩ := ih (by omega) h1
      exact ⟨sched ++ [t], by rw [List.length_append, hl, List.length_singleton, hlt], by rw [run_snoc, hr]; exact hs⟩
    · refine ih (m := m) (accs := accs) (ends := ends) ?_ h
      have hnil : ∀ as ∈ accs, as = [] := fun as has => Classical.byContradiction fun hc => hne ⟨as, has, hc⟩
      have : (accs.map List.length).sum = 0 := by
        apply List.sum_eq_zero_iff_forall_eq_nat.2
        intro x hx
        obtain ⟨as, has, rfl⟩ := List.mem_map.1 hx
        rw [hnil as has]; rfl
      omega

end Verif.Conc
