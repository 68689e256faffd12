import Verif.Signals.Model
import Verif.AtomicBitset.PropsOrder
import Verif.Bitset.PropsVisit

/-!
# C157: signals
-/

namespace Verif.Signals

open Verif.Conc Verif.Bitset
open Verif.BitOps (StdWidth)

variable {w N : Nat}

/-! ## Specification -/

/-- The commands that take signal `i`. -/
def Cmd.Takes (c : Cmd) (i : Nat) : Prop := c = .takeAll ∨ c = .take i

/-- After some commands a signal is pending: it was raised, and not taken since. -/
def Pending (cs : List Cmd) (i : Nat) : Prop := ∃ pre post, cs = pre ++ .raise i :: post ∧ ∀ c ∈ post, ¬ c.Takes i

/-- The commands of a history. -/
def cmds (h : List (Event Cmd (List Nat))) : List Cmd := h.map (·.op)

/-- What is raised and taken is below `N`. -/
def Cmd.Legal (N : Nat) : Cmd → Prop
  | .raise i => i < N
  | .takeAll => True
  | .take i => i < N

/-- What the commands of a history have handled: those that take signals handle those that are pending, in ascending order. -/
def Right (N : Nat) (h : List (Event Cmd (List Nat))) : Prop :=
  ∀ pre e post, h = pre ++ e :: post → e.res.Pairwise (· < ·) ∧ ∀ i, i ∈ e.res ↔ i < N ∧ e.op.Takes i ∧ Pending (cmds pre) i

/-- How often signal `i` has been handled. -/
def handled (h : List (Event Cmd (List Nat))) (i : Nat) : Nat := (h.map fun e => e.res.count i).sum

/-- How often signal `i` has been raised. -/
def raised (h : List (Event Cmd (List Nat))) (i : Nat) : Nat := (cmds h).count (.raise i)

/-! ## Lemmas -/

theorem not_pending_nil (i : Nat) : ¬ Pending [] i := by
  rintro ⟨pre, post, h, _⟩
  simp at h

theorem pending_snoc (cs : List Cmd) (c : Cmd) (i : Nat) :
    Pending (cs ++ [c]) i ↔ c = .raise i ∨ Pending cs i ∧ ¬ c.Takes i := by
  constructor
  · rintro ⟨pre, post, h, hp⟩
    rcases List.eq_nil_or_concat post with rfl | ⟨post', d, rfl⟩
    · obtain ⟨_, h2⟩ := List.append_inj' h rfl
      simp only [List.cons.injEq, and_true] at h2
      exact .inl h2
    · rw [List.concat_eq_append] at h hp
      rw [← List.cons_append, ← List.append_assoc] at h
      obtain ⟨h1, h2⟩ := List.append_inj' h rfl
      simp only [List.cons.injEq, and_true] at h2
      subst h2
      exact .inr ⟨⟨pre, post', h1, fun d hd => hp d (by simp [hd])⟩, hp c (by simp)⟩
  · rintro (rfl | ⟨⟨pre, post, rfl, hp⟩, hc⟩)
    · exact ⟨cs, [], rfl, by simp⟩
    · refine ⟨pre, post ++ [c], by simp, fun d hd => ?_⟩
      rcases List.mem_append.mp hd with hd | hd
      · exact hp d hd
      · rw [List.mem_singleton.mp hd]; exact hc

theorem handle_spec (hw : StdWidth w) (hN : 0 < N) {b : Words w} (hb : b.length = storageSize w N) (st : Nat → Bool)
    (hst : ∀ i, i < N → Bitset.get b i = .ok (st i)) : handle N b = .ok ((List.range N).filter st) := by
  obtain ⟨b', h1, h2⟩ := C11_bitset_for_each_partial hw hN hb .setBit (fun (l : List Nat) p => l ++ [p.1]) []
  have hf : ∀ (l : List (Nat × Bool)) (a : List Nat), l.foldl (fun l p => l ++ [p.1]) a = a ++ l.map (·.1) := by
    intro l
    induction l with
    | nil => simp
    | cons x l ih => intro a; rw [List.foldl_cons, ih]; simp
  unfold handle
  rw [h2, hf, List.nil_append, (C11_bitset_for_each_order N b').1]
  congr 1
  refine List.filter_congr fun i hi => ?_
  have hi' := List.mem_range.mp hi
  have := (h1 i hi').symm.trans (hst i hi')
  injection this

/-- What the commands do to one signal. -/
def after (c : Cmd) (i : Nat) (b : Bool) : Bool :=
  match c with
  | .raise j => if i = j then true else b
  | .takeAll => false
  | .take j => if i = j then false else b

instance (c : Cmd) (i : Nat) : Decidable (c.Takes i) := by unfold Cmd.Takes; infer_instance

theorem single (hw : StdWidth w) (hN : 0 < N) (hNw : N ≤ w) (c : Cmd) (hl : c.Legal N) :
    ∃ f : BitVec w → BitVec w,
      impl N c = .atomically f (fun v => .ret ((List.range N).filter fun i => decide (c.Takes i) && v.getLsbD i)) ∧
      ∀ v i, i < N → (f v).getLsbD i = after c i (v.getLsbD i) := by
  cases c with
  | raise j =>
    obtain ⟨f, g, h1, h2, _⟩ := AtomicBitset.impl_single hw hN hNw (.set j true) (Nat.lt_of_lt_of_le hl hNw)
    refine ⟨f, ?_, fun v i hi => ?_⟩
    · simp only [impl, h1]
      simp [Prog.bind, Cmd.Takes]
    · rw [h2 v i hi]
      simp only [AtomicBitset.Op.after, AtomicBitset.Op.effect, after]
      by_cases hij : i = j <;> simp [hij]
  | takeAll =>
    obtain ⟨f, g, h1, h2, h3⟩ := AtomicBitset.impl_single hw hN hNw (.resetRange 0 (N - 1)) ⟨by omega, by omega⟩
    refine ⟨f, ?_, fun v i hi => ?_⟩
    · simp only [impl, h1]
      simp only [Prog.bind]
      congr 1
      funext v
      have := h3 v
      simp only [AtomicBitset.Op.returnsPrev, if_true] at this
      obtain ⟨b, e1, e2, e3⟩ := this
      rw [e1]
      simp only
      rw [handle_spec hw hN e2 _ e3]
      simp [Prog.ofOutcome, Cmd.Takes]
    · rw [h2 v i hi]
      simp only [AtomicBitset.Op.after, AtomicBitset.Op.effect, after]
      rw [if_pos ⟨by omega, by omega⟩]
  | take j =>
    have hj : j < N := hl
    obtain ⟨f, g, h1, h2, h3⟩ := AtomicBitset.impl_single hw hN hNw (.reset j) (Nat.lt_of_lt_of_le hj hNw)
    refine ⟨f, ?_, fun v i hi => ?_⟩
    · simp only [impl, h1]
      simp only [Prog.bind]
      congr 1
      funext v
      have := h3 v
      simp only [AtomicBitset.Op.returnsPrev, if_true] at this
      obtain ⟨b, e1, e2, e3⟩ := this
      rw [e1]
      simp only
      rw [e3 j hj]
      simp only [Prog.ofOutcome, Prog.bind]
      congr 1
      have hk : ∀ n, j < n → (List.range n).filter (fun i => decide ((Cmd.take j).Takes i) && v.getLsbD i) =
          if v.getLsbD j then [j] else [] := by
        intro n
        induction n with
        | zero => intro h; omega
        | succ n ih =>
          intro hn
          rw [List.range_succ, List.filter_append]
          by_cases hjn : j = n
          · subst hjn
            have : (List.range j).filter (fun i => decide ((Cmd.take j).Takes i) && v.getLsbD i) = [] := by
              rw [List.filter_eq_nil_iff]
              intro a ha
              have := List.mem_range.mp ha
              simp only [Cmd.Takes, Cmd.take.injEq, Bool.and_eq_true, decide_eq_true_eq, not_and]
              rintro (h | h)
              · cases h
              · omega
            rw [this]
            cases hv : v.getLsbD j <;> simp [Cmd.Takes, hv]
          · rw [ih (by omega)]
            simp [Cmd.Takes, hjn]
      exact (hk N hj).symm
    · rw [h2 v i hi]
      simp only [AtomicBitset.Op.after, AtomicBitset.Op.effect, after]
      by_cases hij : i = j <;> simp [hij]

theorem after_iff (c : Cmd) (i : Nat) (b : Bool) : after c i b = true ↔ c = .raise i ∨ b = true ∧ ¬ c.Takes i := by
  cases c with
  | raise j => by_cases h : i = j <;> simp [after, Cmd.Takes, h, eq_comm]
  | takeAll => simp [after, Cmd.Takes]
  | take j => by_cases h : i = j <;> simp [after, Cmd.Takes, h, eq_comm]

theorem right_prefix {h h' : List (Event Cmd (List Nat))} (hr : Right N (h ++ h')) : Right N h :=
  fun pre e post he => hr pre e (post ++ h') (by rw [he]; simp)

/-- In a history that is right no signal is handled more often than it was raised. -/
theorem right_counts (i : Nat) (hi : i < N) : ∀ h : List (Event Cmd (List Nat)), Right N h →
    handled h i + (open Classical in if Pending (cmds h) i then 1 else 0) ≤ raised h i := by
  intro h
  induction h using List.reverseRecOn with
  | nil => intro _; simp [handled, raised, cmds, not_pending_nil]
  | append_singleton h e ih =>
    intro hr
    have ih := ih (right_prefix hr)
    obtain ⟨hs, hm⟩ := hr h e [] rfl
    have hm := hm i
    have e1 : handled (h ++ [e]) i = handled h i + e.res.count i := by simp [handled]
    have e2 : raised (h ++ [e]) i = raised h i + if e.op = .raise i then 1 else 0 := by
      simp only [raised, cmds, List.map_append, List.count_append, List.map_cons, List.map_nil, List.count_singleton]
      simp [beq_iff_eq]
    have e3 : Pending (cmds (h ++ [e])) i ↔ e.op = .raise i ∨ Pending (cmds h) i ∧ ¬ e.op.Takes i := by
      rw [show cmds (h ++ [e]) = cmds h ++ [e.op] by simp [cmds], pending_snoc]
    have hcount : e.res.count i = if i ∈ e.res then 1 else 0 := by
      split
      · rename_i hin
        exact List.count_eq_one_of_mem (hs.imp fun h => Nat.ne_of_lt h) hin
      · rename_i hin
        exact List.count_eq_zero_of_not_mem hin
    rw [e1, e2, hcount]
    by_cases hra : e.op = .raise i
    · have hnt : ¬ e.op.Takes i := by rw [hra]; rintro (h | h) <;> cases h
      have hni : i ∉ e.res := fun hin => hnt (hm.mp hin).2.1
      rw [if_neg hni, if_pos hra, if_pos (e3.mpr (.inl hra))]
      split at ih <;> omega
    · rw [if_neg hra]
      by_cases ht : e.op.Takes i
      · rw [if_neg (fun hp => (e3.mp hp).elim hra fun h => h.2 ht)]
        by_cases hp : Pending (cmds h) i
        · rw [if_pos hp] at ih
          rw [if_pos (hm.mpr ⟨hi, ht, hp⟩)]
          omega
        · rw [if_neg hp] at ih
          rw [if_neg (fun hin => hp (hm.mp hin).2.2)]
          omega
      · rw [if_neg (fun hin => ht (hm.mp hin).2.1)]
        by_cases hp : Pending (cmds h) i
        · rw [if_pos hp] at ih
          rw [if_pos (e3.mpr (.inr ⟨hp, ht⟩))]
          omega
        · rw [if_neg hp] at ih
          rw [if_neg (fun hp' => (e3.mp hp').elim hra fun h => hp h.1)]
          omega

/-- In a history that is right a signal that was raised is handled afterwards, or pending. -/
theorem right_none_lost (i : Nat) (hi : i < N) (pre : List (Event Cmd (List Nat))) (e : Event Cmd (List Nat)) (he : e.op = .raise i) :
    ∀ post : List (Event Cmd (List Nat)), Right N (pre ++ e :: post) →
      (∃ e' ∈ post, i ∈ e'.res) ∨ Pending (cmds (pre ++ e :: post)) i := by
  intro post
  induction post using List.reverseRecOn with
  | nil =>
    intro _
    right
    rw [show cmds (pre ++ [e]) = cmds pre ++ [e.op] by simp [cmds], pending_snoc]
    exact .inl he
  | append_singleton post d ih =>
    intro hr
    have hr' : Right N (pre ++ e :: post) := right_prefix (h' := [d]) (by simpa using hr)
    rcases ih hr' with ⟨e', h1, h2⟩ | hp
    · exact .inl ⟨e', by simp [h1], h2⟩
    · by_cases ht : d.op.Takes i
      · left
        refine ⟨d, by simp, ((hr (pre ++ e :: post) d [] (by simp)).2 i).mpr ⟨hi, ht, hp⟩⟩
      · right
        rw [show cmds (pre ++ e :: (post ++ [d])) = cmds (pre ++ e :: post) ++ [d.op] by simp [cmds], pending_snoc]
        exact .inr ⟨hp, ht⟩

/-! ## Theorems -/

/-- **C157.** Any number of threads that raise and take signals, under any schedule: what they do is as if they did it one after the other, in which a thread that
takes signals handles exactly those pending, in ascending order. Every signal raised is handled afterwards or still pending, none is handled more often than it was
raised, and no thread waits for another. -/
theorem C157_signals (hw : StdWidth w) (hN : 0 < N) (hNw : N ≤ w) (progs : List (List Cmd)) (hlegal : ∀ cs ∈ progs, ∀ c ∈ cs, c.Legal N)
    {c0 : BitVec w} (hc : ∀ i, i < N → c0.getLsbD i = false) (sched : List Nat) {s : Sys w (List (List Nat))}
    (hr : (start (impl N) progs c0).run sched = some s) :
    ∃ h : List (Event Cmd (List Nat)), h.map (·.tid) = sched ∧ Right N h ∧
      (∀ i, i < N → (s.cell.getLsbD i = true ↔ Pending (cmds h) i)) ∧
      (∀ i, i < N → ∀ pre e post, h = pre ++ e :: post → e.op = .raise i →
        (∃ e' ∈ post, i ∈ e'.res) ∨ s.cell.getLsbD i = true) ∧
      (∀ i, i < N → handled h i + (if s.cell.getLsbD i then 1 else 0) ≤ raised h i) ∧
      ∀ t cs, progs[t]? = some cs → ∃ rest, cs = opsOf h t ++ rest ∧ (rest ≠ [] → (s.step t).isSome) ∧
        (rest = [] ↔ s.threads[t]? = some (.ret (resOf h t))) := by
  have hone : ∀ c : Cmd, ∃ f : BitVec w → BitVec w, c.Legal N →
      impl N c = .atomically f (fun v => .ret ((List.range N).filter fun i => decide (c.Takes i) && v.getLsbD i)) ∧
      ∀ v i, i < N → (f v).getLsbD i = after c i (v.getLsbD i) := by
    intro c
    by_cases h : c.Legal N
    · obtain ⟨f, hf⟩ := single hw hN hNw c h
      exact ⟨f, fun _ => hf⟩
    · exact ⟨id, fun h' => absurd h' h⟩
  choose f hf using hone
  have himpl : ∀ c : Cmd, c.Legal N → impl N c =
      .atomically (f c) (fun v => .ret ((List.range N).filter fun i => decide (c.Takes i) && v.getLsbD i)) := fun c h => (hf c h).1
  obtain ⟨h, h1, hx⟩ := linearizable (f := f) (g := fun (c : Cmd) (v : BitVec w) => (List.range N).filter fun i => decide (c.Takes i) && v.getLsbD i) himpl hlegal hr
  have hall : ∀ e ∈ h, e.op.Legal N := by
    intro e he
    have ht := hx.tids e he
    obtain ⟨rest, h2, _⟩ := hx.threads e.tid progs[e.tid] (List.getElem?_eq_getElem ht)
    refine hlegal _ (List.getElem_mem ht) e.op ?_
    rw [h2]
    exact List.mem_append_left _ (List.mem_map.mpr ⟨e, List.mem_filter.mpr ⟨he, by simp⟩, rfl⟩)
  have hfold : ∀ k : List (Event Cmd (List Nat)), (∀ e ∈ k, e.op.Legal N) →
      ∀ i, i < N → ((k.foldl (fun c e => f e.op c) c0).getLsbD i = true ↔ Pending (cmds k) i) := by
    intro k
    induction k using List.reverseRecOn with
    | nil => intro _ i hi; simp [hc i hi, cmds, not_pending_nil]
    | append_singleton k e ih =>
      intro hk i hi
      rw [List.foldl_append, List.foldl_cons, List.foldl_nil, (hf e.op (hk e (by simp))).2 _ i hi, after_iff,
        ih (fun e' he' => hk e' (by simp [he'])) i hi, show cmds (k ++ [e]) = cmds k ++ [e.op] by simp [cmds], pending_snoc]
  have hright : Right N h := by
    intro pre e post hsplit
    rw [hx.results pre e post hsplit]
    refine ⟨List.Pairwise.filter _ List.pairwise_lt_range, fun i => ?_⟩
    rw [List.mem_filter, List.mem_range, Bool.and_eq_true, decide_eq_true_eq]
    constructor
    · rintro ⟨hi, h2, h3⟩
      exact ⟨hi, h2, (hfold pre (fun e' he' => hall e' (by rw [hsplit]; simp [he'])) i hi).mp h3⟩
    · rintro ⟨hi, h2, h3⟩
      exact ⟨hi, h2, (hfold pre (fun e' he' => hall e' (by rw [hsplit]; simp [he'])) i hi).mpr h3⟩
  have hcell : ∀ i, i < N → (s.cell.getLsbD i = true ↔ Pending (cmds h) i) := fun i hi => by rw [hx.cell]; exact hfold h hall i hi
  refine ⟨h, h1, hright, hcell, fun i hi pre e post hsplit he => ?_, fun i hi => ?_, fun t cs ht => ?_⟩
  · subst hsplit
    exact (right_none_lost i hi pre e he post hright).imp id (hcell i hi).mpr
  · have := right_counts i hi h hright
    by_cases hp : Pending (cmds h) i
    · rw [if_pos hp] at this
      rw [if_pos ((hcell i hi).mpr hp)]
      exact this
    · rw [if_neg hp] at this
      rw [if_neg (fun g => hp ((hcell i hi).mp g))]
      exact this
  · obtain ⟨rest, h2, h3⟩ := hx.threads t cs ht
    obtain ⟨h4, h5⟩ := can_step himpl hlegal hx ht
    refine ⟨rest, h2, fun hne => h4 ?_, ?_⟩
    · have := congrArg List.length h2
      rw [List.length_append] at this
      have := List.length_pos_iff.mpr hne
      omega
    · rw [h5]
      constructor
      · rintro rfl; simpa using h2.symm
      · intro h6
        rw [h6] at h2
        simpa using h2

/-- The same for every execution under whatever memory orders the calls are given. -/
theorem C157_any_memory_order (hw : StdWidth w) (hN : 0 < N) (hNw : N ≤ w) (progs : List (List Cmd))
    (hlegal : ∀ cs ∈ progs, ∀ c ∈ cs, c.Legal N) {c0 : BitVec w} (hc : ∀ i, i < N → c0.getLsbD i = false) {m : Nat} {val : Nat → BitVec w}
    {accs : List (List Acc)} {ends : List (Prog w (List (List Nat)))}
    (hx : Execution (progs.map (fun cs => threadProg (impl N) cs [])) c0 m val accs ends) :
    ∃ h : List (Event Cmd (List Nat)), Right N h ∧ (∀ i, i < N → ((val m).getLsbD i = true ↔ Pending (cmds h) i)) ∧
      (∀ i, i < N → ∀ pre e post, h = pre ++ e :: post → e.op = .raise i →
        (∃ e' ∈ post, i ∈ e'.res) ∨ (val m).getLsbD i = true) ∧
      (∀ i, i < N → handled h i + (if (val m).getLsbD i then 1 else 0) ≤ raised h i) ∧
      ∀ t cs, progs[t]? = some cs → ∃ rest, cs = opsOf h t ++ rest ∧ (rest ≠ [] → ∃ f k, ends[t]? = some (.atomically f k)) ∧
        (rest = [] ↔ ends[t]? = some (.ret (resOf h t))) := by
  obtain ⟨sched, _, hr⟩ := Execution.scheduled _ (Nat.le_refl _) hx
  obtain ⟨h, _, h2, h3, h4, h5, h6⟩ := C157_signals hw hN hNw progs hlegal hc sched hr
  refine ⟨h, h2, h3, h4, h5, fun t cs ht => ?_⟩
  obtain ⟨rest, a, b, c⟩ := h6 t cs ht
  refine ⟨rest, a, fun hne => ?_, c⟩
  have := b hne
  simp only [Sys.step] at this
  split at this
  · rename_i f k hth; exact ⟨f, k, hth⟩
  · cases this

/-- With `load` and `reset()` instead, signals are lost: a signal raised between the two is neither handled nor pending. So it is for every signal. -/
theorem C157_load_and_reset_fails (hw : StdWidth w) (hN : 0 < N) (hNw : N ≤ w) (i : Nat) (hi : i < N) {c0 : BitVec w}
    (hc : ∀ i, i < N → c0.getLsbD i = false) :
    ∃ s, (⟨c0, [(loadAndReset N).bind fun l => .ret [l], threadProg (impl N) [.raise i] []]⟩ : Sys w (List (List Nat))).run [0, 1, 0] = some s ∧
      s.threads = [.ret [[]], .ret [[]]] ∧ s.cell.getLsbD i = false := by
  obtain ⟨f1, g1, e1, a1, b1⟩ := AtomicBitset.impl_single hw hN hNw .load trivial
  obtain ⟨f2, g2, e2, a2, b2⟩ := AtomicBitset.impl_single hw hN hNw .resetAll trivial
  obtain ⟨f3, e3, a3⟩ := single hw hN hNw (.raise i) hi
  have := b1 c0
  simp only [AtomicBitset.Op.returnsPrev, if_true] at this
  obtain ⟨b, hb1, hb2, hb3⟩ := this
  have hh : handle N b = .ok [] := by
    rw [handle_spec hw hN hb2 _ hb3]
    congr 1
    rw [List.filter_eq_nil_iff]
    intro a ha
    rw [hc a (List.mem_range.mp ha)]
    simp
  have hnil : (List.range N).filter (fun j => decide ((Cmd.raise i).Takes j) && (f1 c0).getLsbD j) = [] := by
    simp [Cmd.Takes]
  refine ⟨⟨f2 (f3 (f1 c0)), [.ret [[]], .ret [[]]]⟩, ?_, rfl, ?_⟩
  · simp only [loadAndReset, e1, e2, threadProg, e3, Prog.bind, Sys.run, Sys.step, List.getElem?_cons_zero, List.getElem?_cons_succ,
      List.set_cons_zero, List.set_cons_succ, hb1, hh, Prog.ofOutcome, hnil, List.nil_append]
  · rw [a2 _ i hi]
    rfl

/-! ## Instances -/

/-- Two threads raise 1 and 3 and 1 again, a third takes everything twice. -/
example : ∃ s, (start (impl (w := 8) 5) [[.raise 1, .raise 3], [.raise 1], [.takeAll, .takeAll]] 0#8).run [0, 2, 1, 0, 2] = some s ∧
    s.threads = [.ret [[], []], .ret [[]], .ret [[1], [1, 3]]] ∧ s.cell = 0#8 := ⟨_, rfl, rfl, rfl⟩

example : StdWidth 8 ∧ (∀ cs ∈ [[Cmd.raise 1, .raise 3], [.raise 1], [.takeAll, .takeAll]], ∀ c ∈ cs, c.Legal 5) := by
  refine ⟨by unfold StdWidth; omega, ?_⟩
  intro cs hcs c hc
  simp only [List.mem_cons, List.not_mem_nil, or_false] at hcs
  rcases hcs with rfl | rfl | rfl <;> simp only [List.mem_cons, List.not_mem_nil, or_false] at hc <;>
    rcases hc with rfl | rfl <;> simp [Cmd.Legal]

end Verif.Signals
