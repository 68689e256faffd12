import Verif.Need.Model
import Verif.Tuple.PropsChunk

/-! # `call_by_need`: the property theorems (C70) -/

namespace Verif.Need

open Verif.Tuple

variable {α β τ σ : Type}

/-! ## Specification -/

/-- The blocks the documentation has tried, for `n` arguments: `0 … n-1`, `0 … n-2`, …, then `1 … n-1`, and so on; with
no arguments the call without arguments. -/
def Candidate (n base len : Nat) : Prop := base + len ≤ n ∧ (base < n ∨ n = 0)

/-- `(b', l')` is tried before `(b, l)`. -/
def Before (b' l' b l : Nat) : Prop := b' < b ∨ (b' = b ∧ l < l')

/-- The arguments `base … base + len - 1`. -/
def slice (ts : List α) (base len : Nat) : List α := (ts.drop base).take len

/-- The call documented for function `N`: the first block that is callable. -/
structure Chosen (callable : Nat → List τ → Bool) (ts : List τ) (N : Nat) (c : CallInfo) : Prop where
  fn : c.fnIdx = N
  candidate : Candidate ts.length c.argBase c.argLen
  works : callable N (slice ts c.argBase c.argLen) = true
  first : ∀ b l, Candidate ts.length b l → Before b l c.argBase c.argLen → callable N (slice ts b l) = false

/-- No call of the function `N` is possible. -/
def NoCall (callable : Nat → List τ → Bool) (ts : List τ) (N : Nat) : Prop :=
  ∀ b l, Candidate ts.length b l → callable N (slice ts b l) = false

/-- The documented call is determined. -/
theorem C70_choice_unique {callable : Nat → List τ → Bool} {ts : List τ} {N : Nat} {c d : CallInfo}
    (hc : Chosen callable ts N c) (hd : Chosen callable ts N d) : c = d := by
  have key : ∀ {c d : CallInfo}, Chosen callable ts N c → Chosen callable ts N d → ¬ Before c.argBase c.argLen d.argBase d.argLen := by
    intro c d hc hd h
    have := hd.first _ _ hc.candidate h
    rw [hc.works] at this
    cases this
  have h1 := key hc hd
  have h2 := key hd hc
  have h3 := hc.fn
  have h4 := hd.fn
  unfold Before at h1 h2
  cases c; cases d
  simp only at *
  subst h3 h4
  congr <;> omega

/-! ## The search -/

theorem block_eq (ts : List α) (b l : Nat) (h : b + l ≤ ts.length) : block ts b l = .ok (slice ts b l) := by
  unfold block slice
  apply mapO_range
  · simp; omega
  · intro i hi
    unfold Tuple.get
    rw [arrGet_ok]
    simp only [List.length_take, List.length_drop] at hi
    rw [List.getElem_take, List.getElem_drop]
    exact List.getElem?_eq_getElem (by omega)

/-- Recording a call. -/
def push (s : Search) (c : CallInfo) : Search := ⟨s.results.set s.count c, s.count + 1⟩

theorem test_eq (callable : Nat → List τ → Bool) (ts : List τ) (N b l : Nat) (s : Search) (h : b + l ≤ ts.length)
    (hs : s.count < s.results.length) :
    test callable ts N b l s = .ok (if callable N (slice ts b l) = true then (true, push s ⟨N, b, l⟩) else (false, s)) := by
  unfold test
  rw [block_eq ts b l h, Outcome.ok_bind]
  split
  · rw [arrSet_of_lt hs]; rfl
  · rfl

theorem orLoop_cases {f : Nat → Search → Outcome (Bool × Search)} {s : Search} (is : List Nat)
    (h : ∀ i ∈ is, f i s = .ok (false, s) ∨ ∃ s', f i s = .ok (true, s')) :
    (orLoop f is s = .ok (false, s) ∧ ∀ i ∈ is, f i s = .ok (false, s)) ∨
    ∃ pre i post s', is = pre ++ i :: post ∧ (∀ j ∈ pre, f j s = .ok (false, s)) ∧ f i s = .ok (true, s') ∧
      orLoop f is s = .ok (true, s') := by
  induction is with
  | nil => exact .inl ⟨rfl, by simp⟩
  | cons i is ih =>
    rcases h i (by simp) with hf | ⟨s', hf⟩
    · rcases ih (fun j hj => h j (by simp [hj])) with ⟨h1, h2⟩ | ⟨pre, j, post, s', h1, h2, h3, h4⟩
      · left
        refine ⟨by rw [orLoop, hf, Outcome.ok_bind]; exact h1, ?_⟩
        intro j hj
        rcases List.mem_cons.mp hj with hj | hj
        · rw [hj]; exact hf
        · exact h2 j hj
      · right
        refine ⟨i :: pre, j, post, s', by rw [h1]; rfl, ?_, h3, by rw [orLoop, hf, Outcome.ok_bind]; exact h4⟩
        intro k hk
        rcases List.mem_cons.mp hk with hk | hk
        · rw [hk]; exact hf
        · exact h2 k hk
    · right
      exact ⟨[], i, is, s', rfl, by simp, hf, by rw [orLoop, hf, Outcome.ok_bind]; rfl⟩

theorem innerLoop_cases (callable : Nat → List τ → Bool) (ts : List τ) (N b : Nat) (s : Search) (hb : b ≤ ts.length)
    (hs : s.count < s.results.length) :
    (innerLoop callable ts N b s = .ok (false, s) ∧ ∀ l, b + l ≤ ts.length → callable N (slice ts b l) = false) ∨
    ∃ l, b + l ≤ ts.length ∧ callable N (slice ts b l) = true ∧ (∀ l', b + l' ≤ ts.length → l < l' → callable N (slice ts b l') = false) ∧
      innerLoop callable ts N b s = .ok (true, push s ⟨N, b, l⟩) := by
  unfold innerLoop
  simp only
  have ht : ∀ i, test callable ts N b (ts.length - b - i) s = .ok (if callable N (slice ts b (ts.length - b - i)) = true
      then (true, push s ⟨N, b, ts.length - b - i⟩) else (false, s)) := fun i => test_eq callable ts N b _ s (by omega) hs
  have hfalse : ∀ i, test callable ts N b (ts.length - b - i) s = .ok (false, s) → callable N (slice ts b (ts.length - b - i)) = false := by
    intro i hi
    rw [ht] at hi
    by_cases hc : callable N (slice ts b (ts.length - b - i)) = true
    · rw [if_pos hc] at hi; simp at hi
    · simpa using hc
  rcases orLoop_cases (f := fun l => test callable ts N b (ts.length - b - l)) (s := s) (List.range (ts.length - b + 1))
      (fun i _ => by
        show test callable ts N b (ts.length - b - i) s = _ ∨ ∃ s', test callable ts N b (ts.length - b - i) s = _
        rw [ht]
        split
        · exact .inr ⟨_, rfl⟩
        · exact .inl rfl) with ⟨h1, h2⟩ | ⟨pre, i, post, s', h1, h2, h3, h4⟩
  · left
    refine ⟨h1, fun l hl => ?_⟩
    have := hfalse (ts.length - b - l) (h2 (ts.length - b - l) (by rw [List.mem_range]; omega))
    rwa [show ts.length - b - (ts.length - b - l) = l by omega] at this
  · right
    have hi : i = pre.length := by
      have := congrArg (fun l => l[pre.length]?) h1
      simp only [List.getElem?_append_right (Nat.le_refl _), Nat.sub_self, List.getElem?_cons_zero] at this
      rw [List.getElem?_range] at this
      · injection this with this; exact this.symm
      · have := congrArg List.length h1
        simp at this; omega
    have hpre : ∀ j < i, j ∈ pre := by
      intro j hj
      have hjr : (List.range (ts.length - b + 1))[j]? = some j := by
        rw [List.getElem?_range]
        have := congrArg List.length h1
        simp at this; omega
      rw [h1, List.getElem?_append_left (by omega)] at hjr
      exact List.mem_of_getElem? hjr
    have hin : i < ts.length - b + 1 := by
      have : i ∈ List.range (ts.length - b + 1) := by rw [h1]; simp
      exact List.mem_range.mp this
    rw [ht] at h3
    by_cases hc : callable N (slice ts b (ts.length - b - i)) = true
    · rw [if_pos hc] at h3
      injection h3 with h3
      injection h3 with _ h3
      refine ⟨ts.length - b - i, by omega, hc, ?_, by rw [h4, h3]⟩
      intro l' hl' hlt
      have := hfalse (ts.length - b - l') (h2 _ (hpre _ (by omega)))
      rwa [show ts.length - b - (ts.length - b - l') = l' by omega] at this
    · rw [if_neg hc] at h3; simp at h3

theorem outerLoop_cases (callable : Nat → List τ → Bool) (ts : List τ) (N : Nat) (s : Search) (hs : s.count < s.results.length) :
    (outerLoop callable ts N s = .ok (false, s) ∧ NoCall callable ts N) ∨
    ∃ c, Chosen callable ts N c ∧ outerLoop callable ts N s = .ok (true, push s c) := by
  unfold outerLoop
  by_cases hn : ts.length = 0
  · rw [if_pos hn, test_eq callable ts N 0 0 s (by omega) hs, Outcome.ok_bind]
    have hcand : ∀ b l, Candidate ts.length b l → b = 0 ∧ l = 0 := by
      intro b l h; unfold Candidate at h; omega
    by_cases hc : callable N (slice ts 0 0) = true
    · right
      refine ⟨⟨N, 0, 0⟩, ⟨rfl, ⟨by simp, .inr hn⟩, hc, ?_⟩, ?_⟩
      · intro b l h hb
        obtain ⟨rfl, rfl⟩ := hcand b l h
        unfold Before at hb; simp at hb
      · rw [if_pos hc]; rfl
    · left
      rw [if_neg hc, hn]
      refine ⟨rfl, ?_⟩
      intro b l h
      obtain ⟨rfl, rfl⟩ := hcand b l h
      simpa using hc
  · rw [if_neg hn, Outcome.ok_bind]
    simp only
    rw [if_neg (by simp)]
    have hcases : ∀ b ∈ List.range ts.length, innerLoop callable ts N b s = .ok (false, s) ∨
        ∃ s', innerLoop callable ts N b s = .ok (true, s') := by
      intro b hb
      rcases innerLoop_cases callable ts N b s (by rw [List.mem_range] at hb; omega) hs with h | ⟨l, _, _, _, h⟩
      · exact .inl h.1
      · exact .inr ⟨_, h⟩
    have hfalse : ∀ b < ts.length, innerLoop callable ts N b s = .ok (false, s) → ∀ l, b + l ≤ ts.length → callable N (slice ts b l) = false := by
      intro b hb h
      rcases innerLoop_cases callable ts N b s (by omega) hs with h' | ⟨l, _, _, _, h'⟩
      · exact h'.2
      · rw [h] at h'; simp at h'
    rcases orLoop_cases (f := fun b => innerLoop callable ts N b) (s := s) (List.range ts.length) hcases with
      ⟨h1, h2⟩ | ⟨pre, i, post, s', h1, h2, h3, h4⟩
    · left
      refine ⟨h1, fun b l hc => ?_⟩
      unfold Candidate at hc
      exact hfalse b (by omega) (h2 b (by rw [List.mem_range]; omega)) l hc.1
    · right
      have hlen := congrArg List.length h1
      simp only [List.length_range, List.length_append, List.length_cons] at hlen
      have hi : i = pre.length := by
        have := congrArg (fun l => l[pre.length]?) h1
        simp only [List.getElem?_append_right (Nat.le_refl _), Nat.sub_self, List.getElem?_cons_zero] at this
        rw [List.getElem?_range (by omega)] at this
        injection this with this; exact this.symm
      have hpre : ∀ j < i, j ∈ pre := by
        intro j hj
        have hjr : (List.range ts.length)[j]? = some j := List.getElem?_range (by omega)
        rw [h1, List.getElem?_append_left (by omega)] at hjr
        exact List.mem_of_getElem? hjr
      rcases innerLoop_cases callable ts N i s (by omega) hs with h' | ⟨l, hl, hcl, hfirst, h'⟩
      · rw [h'.1] at h3; simp at h3
      · rw [h'] at h3
        injection h3 with h3
        injection h3 with _ h3
        refine ⟨⟨N, i, l⟩, ⟨rfl, ⟨hl, .inl (by show i < ts.length; omega)⟩, hcl, ?_⟩, by rw [h4, h3]⟩
        intro b' l' hc hbef
        unfold Candidate at hc
        simp only at hbef
        rcases hbef with hbef | ⟨rfl, hbef⟩
        · exact hfalse b' (by omega) (h2 b' (hpre b' hbef)) l' hc.1
        · exact hfirst l' hc.1 hbef

theorem searchAll_eq (callable : Nat → List τ → Bool) (ts : List τ) (m k room : Nat) (done : List CallInfo) (hroom : m ≤ room) :
    ∃ os : List (Option CallInfo), os.length = m ∧
      (∀ i (hi : i < os.length), (∃ c, os[i] = some c ∧ Chosen callable ts (k + i) c) ∨ (os[i] = none ∧ NoCall callable ts (k + i))) ∧
      ∃ room', searchAll callable ts (List.range' k m) ⟨done ++ List.replicate room ⟨0, 0, 0⟩, done.length⟩ =
        .ok ⟨done ++ os.filterMap id ++ List.replicate room' ⟨0, 0, 0⟩, (done ++ os.filterMap id).length⟩ := by
  induction m generalizing k room done with
  | zero => exact ⟨[], rfl, by simp, room, by simp [searchAll]⟩
  | succ m ih =>
    rw [List.range'_succ]
    rcases outerLoop_cases callable ts k ⟨done ++ List.replicate room ⟨0, 0, 0⟩, done.length⟩ (by simp; omega) with ⟨h1, h2⟩ | ⟨c, hc, h1⟩
    · obtain ⟨os, ho1, ho2, room', ho3⟩ := ih (k + 1) room done (by omega)
      refine ⟨none :: os, by simp [ho1], ?_, room', ?_⟩
      · intro i hi
        cases i with
        | zero => exact .inr ⟨rfl, h2⟩
        | succ i =>
          have := ho2 i (by simpa using hi)
          rw [show k + 1 + i = k + (i + 1) by omega] at this
          exact this
      · rw [searchAll, h1, Outcome.ok_bind, ho3]; simp
    · obtain ⟨os, ho1, ho2, room', ho3⟩ := ih (k + 1) (room - 1) (done ++ [c]) (by omega)
      refine ⟨some c :: os, by simp [ho1], ?_, room', ?_⟩
      · intro i hi
        cases i with
        | zero => exact .inl ⟨c, rfl, hc⟩
        | succ i =>
          have := ho2 i (by simpa using hi)
          rw [show k + 1 + i = k + (i + 1) by omega] at this
          exact this
      · rw [searchAll, h1, Outcome.ok_bind]
        have hp : push ⟨done ++ List.replicate room ⟨0, 0, 0⟩, done.length⟩ c =
            ⟨(done ++ [c]) ++ List.replicate (room - 1) ⟨0, 0, 0⟩, (done ++ [c]).length⟩ := by
          obtain ⟨r, rfl⟩ : ∃ r, room = r + 1 := ⟨room - 1, by omega⟩
          simp [push, List.replicate_succ]
        simp only
        rw [hp, ho3]
        simp

theorem truncate_eq (a b : List CallInfo) : truncate a.length (a ++ b) = .ok a := by
  unfold truncate
  apply mapO_range
  · rfl
  · intro i hi
    rw [arrGet_ok, List.getElem?_append_left hi, List.getElem?_eq_getElem hi]

theorem unusedLoop_eq (nf : Nat) (given : List CallInfo) (is : List Nat) (done : List CallInfo) :
    ∀ room, is.length ≤ room → ∃ room', unusedLoop nf given is ⟨done ++ List.replicate room ⟨0, 0, 0⟩, done.length⟩ =
      .ok ⟨done ++ (is.filter fun i => given.all fun c => !usesArg c i).map (fun i => ⟨nf, i, 1⟩) ++ List.replicate room' ⟨0, 0, 0⟩,
        (done ++ (is.filter fun i => given.all fun c => !usesArg c i).map (fun i => (⟨nf, i, 1⟩ : CallInfo))).length⟩ := by
  induction is generalizing done with
  | nil => intro room _; exact ⟨room, by simp [unusedLoop]⟩
  | cons i is ih =>
    intro room hroom
    rw [List.length_cons] at hroom
    rw [unusedLoop, List.filter_cons]
    split
    · obtain ⟨r, rfl⟩ : ∃ r, room = r + 1 := ⟨room - 1, by omega⟩
      obtain ⟨room', h⟩ := ih (done ++ [⟨nf, i, 1⟩]) r (by omega)
      refine ⟨room', ?_⟩
      rw [List.replicate_succ, arrSet_of_lt (by simp), Outcome.ok_bind]
      simp only at h ⊢
      rw [show (done ++ (⟨0, 0, 0⟩ : CallInfo) :: List.replicate r ⟨0, 0, 0⟩).set done.length ⟨nf, i, 1⟩ =
        (done ++ [⟨nf, i, 1⟩]) ++ List.replicate r ⟨0, 0, 0⟩ by simp]
      rw [show done.length + 1 = (done ++ [(⟨nf, i, 1⟩ : CallInfo)]).length by simp, h]
      simp
    · exact ih done room (by omega)

/-- The indices of the arguments that no call uses, in order. -/
def unusedArgs (n : Nat) (given : List CallInfo) : List Nat :=
  (List.range n).filter fun i => given.all fun c => !usesArg c i

/-- **C70, the calls.** If every function has a call then the calls computed are, in the order of the functions, exactly
the documented ones, followed by one call of `safe_forward` for each unused argument, in order. -/
theorem C70_calls (callable : Nat → List τ → Bool) (nf : Nat) (ts : List τ) (h : ∀ N < nf, ¬ NoCall callable ts N) :
    ∃ given, computeCallInfo callable nf ts = .ok (given ++ (unusedArgs ts.length given).map fun i => ⟨nf, i, 1⟩) ∧
      given.length = nf ∧ ∀ i (hi : i < given.length), Chosen callable ts i given[i] := by
  obtain ⟨os, ho1, ho2, room', ho3⟩ := searchAll_eq callable ts nf 0 (nf + ts.length) [] (by omega)
  simp only [List.nil_append, List.length_nil, Nat.zero_add] at ho2 ho3
  have hall : ∃ cs : List CallInfo, os = cs.map some := by
    have hs : ∀ o ∈ os, ∃ c, o = some c := by
      intro o ho
      obtain ⟨i, hi, rfl⟩ := List.getElem_of_mem ho
      rcases ho2 i hi with ⟨c, hc, _⟩ | ⟨_, hn⟩
      · exact ⟨c, hc⟩
      · exact absurd hn (h i (by omega))
    clear ho1 ho2 ho3
    induction os with
    | nil => exact ⟨[], rfl⟩
    | cons o os ih =>
      obtain ⟨cs, hcs⟩ := ih fun o ho => hs o (by simp [ho])
      obtain ⟨c, hc⟩ := hs o (by simp)
      exact ⟨c :: cs, by rw [hcs, hc]; rfl⟩
  obtain ⟨cs, rfl⟩ := hall
  have hf : (cs.map some).filterMap id = cs := by rw [List.filterMap_map]; simp
  rw [hf] at ho3
  rw [List.length_map] at ho1
  refine ⟨cs, ?_, ho1, ?_⟩
  · unfold computeCallInfo
    rw [List.range_eq_range', ho3, Outcome.ok_bind]
    simp only
    rw [truncate_eq, Outcome.ok_bind, if_pos ho1]
    obtain ⟨room'', hu⟩ := unusedLoop_eq nf cs (List.range ts.length) [] ts.length (by simp)
    simp only [List.nil_append, List.length_nil] at hu
    rw [hu, Outcome.ok_bind]
    simp only
    rw [truncate_eq, Outcome.ok_bind]
    rfl
  · intro i hi
    rcases ho2 i (by simpa using hi) with ⟨c, hc, hch⟩ | ⟨hn, _⟩
    · rw [List.getElem_map] at hc
      injection hc with hc
      rw [hc]; exact hch
    · rw [List.getElem_map] at hn; cases hn

/-- **C70, no call.** If some function has no call the program is rejected. -/
theorem C70_no_call (callable : Nat → List τ → Bool) (nf : Nat) (ts : List τ) (N : Nat) (hN : N < nf) (h : NoCall callable ts N) :
    computeCallInfo callable nf ts = .ub := by
  obtain ⟨os, ho1, ho2, room', ho3⟩ := searchAll_eq callable ts nf 0 (nf + ts.length) [] (by omega)
  simp only [List.nil_append, List.length_nil, Nat.zero_add] at ho2 ho3
  unfold computeCallInfo
  rw [List.range_eq_range', ho3, Outcome.ok_bind]
  simp only
  rw [truncate_eq, Outcome.ok_bind, if_neg]
  have hnone : none ∈ os := by
    rcases ho2 N (by omega) with ⟨c, _, hc⟩ | ⟨hn, _⟩
    · have := h _ _ hc.candidate
      rw [hc.works] at this; cases this
    · exact List.mem_of_getElem hn
  rw [← ho1]
  clear ho1 ho2 ho3
  intro hl
  have : ∀ os : List (Option CallInfo), none ∈ os → (os.filterMap id).length < os.length := by
    intro os
    induction os with
    | nil => simp
    | cons o os ih =>
      intro hm
      have hle : (os.filterMap id).length ≤ os.length := List.length_filterMap_le id os
      cases o with
      | none => rw [List.filterMap_cons_none rfl, List.length_cons]; omega
      | some c =>
        have := ih (by simpa using hm)
        rw [show (some c :: os).filterMap id = c :: os.filterMap id from rfl, List.length_cons, List.length_cons]; omega
  have := this os hnone
  omega

/-- **C70, arguments.** Every argument is used by a call of a given function or forwarded exactly once, never both. -/
theorem C70_every_argument (n : Nat) (given : List CallInfo) :
    (unusedArgs n given).Nodup ∧ (unusedArgs n given).Pairwise (· < ·) ∧
    ∀ i < n, (i ∈ unusedArgs n given ↔ ¬ ∃ c ∈ given, c.argBase ≤ i ∧ i < c.argBase + c.argLen) := by
  unfold unusedArgs
  refine ⟨List.Nodup.sublist List.filter_sublist List.nodup_range,
    List.Pairwise.sublist List.filter_sublist List.pairwise_lt_range, ?_⟩
  intro i hi
  rw [List.mem_filter, List.mem_range, List.all_eq_true]
  constructor
  · rintro ⟨_, h⟩ ⟨c, hc, h1, h2⟩
    have := h c hc
    simp [usesArg, h1, h2] at this
  · intro h
    refine ⟨hi, fun c hc => ?_⟩
    by_cases hu : c.argBase ≤ i ∧ i < c.argBase + c.argLen
    · exact absurd ⟨c, hc, hu⟩ h
    · simp only [usesArg, Bool.not_eq_true', Bool.and_eq_false_iff, decide_eq_false_iff_not]
      omega

/-! ## The results -/

/-- Making the calls in order: each function with its block. -/
def callAll : List ((List α → σ → Option β × σ) × List α) → σ → List (Option β) × σ
  | [], s => ([], s)
  | c :: cs, s => ((c.1 c.2 s).1 :: (callAll cs (c.1 c.2 s).2).1, (callAll cs (c.1 c.2 s).2).2)

theorem runCalls_append (fs : List (Fn α β σ)) (args : List α) (as bs : List CallInfo) (s : σ) :
    runCalls fs args (as ++ bs) s = (runCalls fs args as s >>= fun r => runCalls fs args bs r.2 >>= fun q => .ok (r.1 ++ q.1, q.2)) := by
  induction as generalizing s with
  | nil =>
    simp only [List.nil_append, runCalls, Outcome.ok_bind]
    cases runCalls fs args bs s <;> rfl
  | cons a as ih =>
    rw [List.cons_append, runCalls, runCalls]
    cases get fs a.fnIdx with
    | ub => rfl
    | panic => rfl
    | ok f =>
      simp only [Outcome.ok_bind]
      cases block args a.argBase a.argLen with
      | ub => rfl
      | panic => rfl
      | ok b =>
        simp only [Outcome.ok_bind]
        cases f b s with
        | ub => rfl
        | panic => rfl
        | ok r =>
          simp only [Outcome.ok_bind]
          rw [ih]
          cases runCalls fs args as r.2 with
          | ub => rfl
          | panic => rfl
          | ok q =>
            simp only [Outcome.ok_bind, Outcome.pure_eq_ok]
            cases runCalls fs args bs q.2 <;> rfl

theorem runCalls_given (fs pre : List (List α → σ → Option β × σ)) (last : Fn α β σ) (args : List α) (cs : List CallInfo) (s : σ)
    (post : List (List α → σ → Option β × σ)) (hfs : fs = pre ++ post) (hlen : cs.length = post.length)
    (hcs : ∀ i (hi : i < cs.length), cs[i].fnIdx = pre.length + i ∧ cs[i].argBase + cs[i].argLen ≤ args.length) :
    runCalls (fs.map given ++ [last]) args cs s =
      .ok ((callAll (post.zip (cs.map fun c => slice args c.argBase c.argLen)) s).1.map (Option.map .inl),
        (callAll (post.zip (cs.map fun c => slice args c.argBase c.argLen)) s).2) := by
  induction cs generalizing s pre post with
  | nil =>
    rw [List.length_nil] at hlen
    rw [List.eq_nil_of_length_eq_zero hlen.symm]
    rfl
  | cons c cs ih =>
    cases post with
    | nil => simp at hlen
    | cons p post =>
      have h0 := hcs 0 (by simp)
      simp only [List.getElem_cons_zero, Nat.add_zero] at h0
      rw [runCalls]
      have hg : get (fs.map given ++ [last]) c.fnIdx = .ok (given p) := by
        unfold Tuple.get
        rw [arrGet_ok, h0.1, hfs, List.map_append, List.append_assoc, List.getElem?_append_right (by simp)]
        simp
      rw [hg, Outcome.ok_bind, block_eq args _ _ h0.2, Outcome.ok_bind]
      unfold given
      rw [Outcome.ok_bind]
      simp only
      have := ih (pre ++ [p]) (p (slice args c.argBase c.argLen) s).2 post (by simp [hfs]) (by simpa using hlen) (by
        intro i hi
        have := hcs (i + 1) (by rw [List.length_cons]; omega)
        simp only [List.getElem_cons_succ] at this
        rw [List.length_append, List.length_singleton]
        exact ⟨by omega, this.2⟩)
      unfold given at this
      rw [this]
      rfl

theorem runCalls_unused (fs : List (List α → σ → Option β × σ)) (args : List α) (is : List Nat) (s : σ) (h : ∀ i ∈ is, i < args.length) :
    runCalls (fs.map given ++ [safeForward]) args (is.map fun i => ⟨fs.length, i, 1⟩) s =
      .ok ((is.filterMap fun i => args[i]?).map (fun x => some (.inr x)), s) := by
  induction is with
  | nil => rfl
  | cons i is ih =>
    rw [List.map_cons, runCalls]
    have hg : get (fs.map given ++ [(safeForward : Fn α β σ)]) fs.length = .ok safeForward := by
      unfold Tuple.get
      rw [arrGet_ok, List.getElem?_append_right (by simp)]
      simp
    simp only
    have hi := h i (by simp)
    rw [hg, Outcome.ok_bind, block_eq args i 1 (by omega), Outcome.ok_bind]
    have hs : slice args i 1 = [args[i]] := by
      unfold slice
      rw [List.drop_eq_getElem_cons hi]
      rfl
    rw [hs]
    show (Outcome.ok _ >>= _) = _
    rw [Outcome.ok_bind, ih fun j hj => h j (by simp [hj]), List.filterMap_cons, List.getElem?_eq_getElem hi]
    rfl

theorem newFs_false (fs : List (List α → σ → Option β × σ)) : newFs false fs = fs.map given ++ [safeForward] := by
  simp [newFs, tupleSizeV]

/-- **C70, results, partial.** When every function has a call, and the functions are given as an rvalue, each is called once, in order, with the values of its documented
block; the results other than `void` come in the order of the functions, then the unused arguments in order.  Missing: functions given as an lvalue
(`C70_lvalue_functions_violated`). -/
theorem C70_results_partial (callable : Nat → List τ → Bool) (ty : α → τ) (fs : List (List α → σ → Option β × σ)) (args : List α) (s : σ)
    (h : ∀ N < fs.length, ¬ NoCall callable (args.map ty) N) :
    ∃ calls : List CallInfo, calls.length = fs.length ∧
      (∀ i (hi : i < calls.length), Chosen callable (args.map ty) i calls[i]) ∧
      callByNeed callable ty fs args s =
        .ok (((callAll (fs.zip (calls.map fun c => slice args c.argBase c.argLen)) s).1.filterMap id).map .inl ++
              ((unusedArgs args.length calls).filterMap fun i => args[i]?).map .inr,
            (callAll (fs.zip (calls.map fun c => slice args c.argBase c.argLen)) s).2) := by
  obtain ⟨calls, h1, h2, h3⟩ := C70_calls callable fs.length (args.map ty) h
  refine ⟨calls, h2, h3, ?_⟩
  unfold callByNeed
  rw [newFs_false, h1, Outcome.ok_bind, runCalls_append]
  have hg := runCalls_given fs [] safeForward args calls s fs rfl h2 (by
    intro i hi
    have hc := h3 i hi
    refine ⟨by rw [hc.fn]; simp, ?_⟩
    have := hc.candidate.1
    rwa [List.length_map] at this)
  rw [hg, Outcome.ok_bind]
  simp only
  rw [List.length_map]
  rw [runCalls_unused fs args _ _ (by
    intro i hi
    unfold unusedArgs at hi
    exact List.mem_range.mp (List.mem_filter.mp hi).1)]
  simp only [Outcome.ok_bind, Outcome.pure_eq_ok]
  congr 1
  ext1
  · simp only [List.filterMap_append, List.filterMap_map]
    congr 1
    · generalize (callAll (fs.zip (calls.map fun c => slice args c.argBase c.argLen)) s).1 = rs
      induction rs with
      | nil => rfl
      | cons r rs ih => cases r <;> simp_all
    · generalize (unusedArgs args.length calls).filterMap (fun i => args[i]?) = xs
      induction xs with
      | nil => rfl
      | cons x xs ih => simp_all
  · rfl

/-- Two functions of one and of two integers, three integers: `0 1` go to the second, `0` to the first, `2` is left. -/
example : callByNeed (σ := Unit) (fun N ts => decide (ts = [true] ∧ N = 0) || decide (ts = [true, false] ∧ N = 1)) (fun n : Nat => n < 10)
    [fun xs s => (some xs.sum, s), fun xs s => (some (xs.sum * 2), s)] [3, 40, 50] () = .ok ([.inl 3, .inl 86, .inr 50], ()) := by rfl

/-! ## Rvalue arguments -/

theorem runCallsMove_eq (moved : α → α) (fs : List (Fn α β σ)) (cs : List CallInfo) (args args' : List α) (s : σ)
    (hlen : args'.length = args.length)
    (hin : ∀ c ∈ cs, c.argBase + c.argLen ≤ args.length)
    (hsame : ∀ c ∈ cs, ∀ i, usesArg c i = true → args'[i]? = args[i]?)
    (hdis : cs.Pairwise fun c d => ∀ i, usesArg c i = true → usesArg d i = false) :
    runCallsMove moved fs args' cs s = runCalls fs args cs s := by
  induction cs generalizing args' s with
  | nil => rfl
  | cons c cs ih =>
    rw [runCallsMove, runCalls]
    have hb : block args' c.argBase c.argLen = block args c.argBase c.argLen := by
      have hc := hin c (by simp)
      rw [block_eq _ _ _ hc, block_eq _ _ _ (by omega)]
      congr 1
      unfold slice
      apply List.ext_getElem?
      intro i
      rw [List.getElem?_take, List.getElem?_take, List.getElem?_drop, List.getElem?_drop]
      split
      · exact hsame c (by simp) _ (by simp [usesArg]; omega)
      · rfl
    rw [hb]
    rw [List.pairwise_cons] at hdis
    have hrec : ∀ s, runCallsMove moved fs (args'.mapIdx fun i x => if usesArg c i then moved x else x) cs s = runCalls fs args cs s := by
      intro s
      apply ih
      · simpa using hlen
      · exact fun d hd => hin d (by simp [hd])
      · intro d hd i hi
        rw [List.getElem?_mapIdx]
        have hnc : usesArg c i = false := by
          cases hci : usesArg c i with
          | false => rfl
          | true => rw [hdis.1 d hd i hci] at hi; cases hi
        simp only [hnc]
        rw [← hsame d (by simp [hd]) i hi]
        cases args'[i]? <;> rfl
      · exact hdis.2
    simp only [hrec]

/-- **C70, rvalues.** If no argument is used by two functions then an rvalue argument tuple gives the same results,
whatever moving leaves behind. -/
theorem C70_rvalue_partial (moved : α → α) (callable : Nat → List τ → Bool) (ty : α → τ) (fs : List (List α → σ → Option β × σ)) (args : List α) (s : σ)
    (h : ∀ N < fs.length, ¬ NoCall callable (args.map ty) N)
    (hdis : ∀ c d N M, N < fs.length → M < fs.length → N ≠ M → Chosen callable (args.map ty) N c → Chosen callable (args.map ty) M d →
      ∀ i, usesArg c i = true → usesArg d i = false) :
    callByNeedMove moved callable ty fs args s = callByNeed callable ty fs args s := by
  obtain ⟨calls, h1, h2, h3⟩ := C70_calls callable fs.length (args.map ty) h
  unfold callByNeedMove callByNeed
  rw [h1, Outcome.ok_bind, Outcome.ok_bind, runCallsMove_eq moved _ _ args args s rfl]
  · intro c hc
    rcases List.mem_append.mp hc with hc | hc
    · obtain ⟨i, hi, rfl⟩ := List.getElem_of_mem hc
      have := (h3 i hi).candidate.1
      rwa [List.length_map] at this
    · obtain ⟨i, hi, rfl⟩ := List.mem_map.mp hc
      unfold unusedArgs at hi
      have := List.mem_range.mp (List.mem_filter.mp hi).1
      rw [List.length_map] at this
      exact this
  · intros; rfl
  · rw [List.pairwise_append]
    refine ⟨?_, ?_, ?_⟩
    · rw [List.pairwise_iff_getElem]
      intro i j hi hj hij
      exact hdis _ _ i j (by omega) (by omega) (by omega) (h3 i hi) (h3 j hj)
    · rw [List.pairwise_map]
      refine (C70_every_argument _ calls).2.1.imp ?_
      intro a b hab i hi
      simp only [usesArg, Bool.and_eq_true, decide_eq_true_eq, Bool.and_eq_false_iff, decide_eq_false_iff_not] at hi ⊢
      omega
    · intro c hc d hd i hi
      obtain ⟨j, hj, rfl⟩ := List.mem_map.mp hd
      have hj' := hj
      unfold unusedArgs at hj'
      have hjn := List.mem_range.mp (List.mem_filter.mp hj').1
      have := ((C70_every_argument _ calls).2.2 j hjn).mp hj
      simp only [usesArg, Bool.and_eq_true, decide_eq_true_eq, Bool.and_eq_false_iff, decide_eq_false_iff_not] at hi ⊢
      by_cases hji : j = i
      · subst hji
        exact absurd ⟨c, hc, hi.1, hi.2⟩ this
      · omega

/-- Two functions taking the same argument by value, from an rvalue tuple: the second one gets the moved-from value. -/
theorem C70_rvalue_shared_violated (moved : α → α) (callable : Nat → List τ → Bool) (ty : α → τ) (f g : List α → σ → Option β × σ) (x : α) (s : σ)
    (h0 : callable 0 [ty x] = true) (h1 : callable 1 [ty x] = true) :
    callByNeedMove moved callable ty [f, g] [x] s =
      .ok ([(f [x] s).1, (g [moved x] (f [x] s).2).1].filterMap (Option.map .inl), (g [moved x] (f [x] s).2).2) := by
  have hc : computeCallInfo callable 2 [ty x] = .ok [⟨0, 0, 1⟩, ⟨1, 0, 1⟩] := by
    obtain ⟨calls, e1, e2, e3⟩ := C70_calls callable 2 [ty x] (by
      intro N hN hno
      have := hno 0 1 ⟨by simp, .inl (by simp)⟩
      have e : slice [ty x] 0 1 = [ty x] := rfl
      rw [e] at this
      rcases (by omega : N = 0 ∨ N = 1) with rfl | rfl
      · rw [h0] at this; cases this
      · rw [h1] at this; cases this)
    have hch : ∀ N, callable N [ty x] = true → Chosen callable [ty x] N ⟨N, 0, 1⟩ := by
      intro N hN
      refine ⟨rfl, ⟨by simp, .inl (by simp)⟩, hN, ?_⟩
      intro b l hcand hb
      unfold Candidate at hcand
      unfold Before at hb
      simp at hcand hb
      omega
    match calls, e2, e3 with
    | [a, b], _, e3 =>
      have ha : a = ⟨0, 0, 1⟩ := C70_choice_unique (e3 0 (by simp)) (hch 0 h0)
      have hb : b = ⟨1, 0, 1⟩ := C70_choice_unique (e3 1 (by simp)) (hch 1 h1)
      rw [e1, ha, hb]
      rfl
  unfold callByNeedMove
  simp only [List.length_cons, List.length_nil, Nat.zero_add, List.map_cons, List.map_nil]
  rw [show (1 + 1 : Nat) = 2 from rfl, hc, Outcome.ok_bind]
  show Outcome.ok _ = _
  congr 1

/-- With `safe_forward` as the only function, the calls that get through are those of the function 0 with one argument. -/
theorem runCalls_forward (args : List α) (cs : List CallInfo) (s : σ) (hin : ∀ c ∈ cs, c.argBase + c.argLen ≤ args.length)
    (hbad : ∃ c ∈ cs, c.fnIdx ≠ 0 ∨ c.argLen ≠ 1) : runCalls [(safeForward : Fn α β σ)] args cs s = .ub := by
  induction cs with
  | nil => obtain ⟨c, hc, _⟩ := hbad; simp at hc
  | cons c cs ih =>
    rw [runCalls]
    cases hf : c.fnIdx with
    | succ k => rfl
    | zero =>
      have hg : get [(safeForward : Fn α β σ)] 0 = .ok safeForward := rfl
      have hl := hin c List.mem_cons_self
      rw [hg, Outcome.ok_bind, block_eq args _ _ hl, Outcome.ok_bind]
      have hlen : (slice args c.argBase c.argLen).length = c.argLen := by
        unfold slice; rw [List.length_take, List.length_drop]; omega
      match hs : slice args c.argBase c.argLen with
      | [] => rfl
      | _ :: _ :: _ => rfl
      | [x] =>
        rw [hs] at hlen
        have : ∃ c ∈ cs, c.fnIdx ≠ 0 ∨ c.argLen ≠ 1 := by
          obtain ⟨d, hd, hb⟩ := hbad
          rcases List.mem_cons.mp hd with rfl | hd
          · simp at hlen; omega
          · exact ⟨d, hd, hb⟩
        show (Outcome.ok _ >>= _) = _
        rw [Outcome.ok_bind, ih (fun c hc => hin c (List.mem_cons_of_mem _ hc)) this]
        rfl

/-- **C70 fails for functions given as an lvalue**, as in the documentation. No function is ever called: the program does
not compile, or there is one function for one argument, which is returned in place of the result of the function. -/
theorem C70_lvalue_functions_violated (callable : Nat → List τ → Bool) (ty : α → τ) (fs : List (List α → σ → Option β × σ)) (args : List α) (s : σ)
    (h : ∀ N < fs.length, ¬ NoCall callable (args.map ty) N) (hne : fs ≠ []) :
    callByNeedLvalue callable ty fs args s = .ub ∨
    ∃ f x, fs = [f] ∧ args = [x] ∧ callable 0 [ty x] = true ∧ callByNeedLvalue callable ty fs args s = .ok ([.inr x], s) := by
  obtain ⟨calls, h1, h2, h3⟩ := C70_calls callable fs.length (args.map ty) h
  have hnew : newFs true fs = [safeForward] := by simp [newFs, tupleSizeV]
  have hu : callByNeedLvalue callable ty fs args s =
      (runCalls [safeForward] args (calls ++ (unusedArgs (args.map ty).length calls).map fun i => ⟨fs.length, i, 1⟩) s >>=
        fun r => pure (r.1.filterMap id, r.2)) := by
    unfold callByNeedLvalue; rw [h1, hnew, Outcome.ok_bind]
  have hin : ∀ c ∈ calls ++ (unusedArgs (args.map ty).length calls).map fun i => (⟨fs.length, i, 1⟩ : CallInfo),
      c.argBase + c.argLen ≤ args.length := by
    intro c hc
    rcases List.mem_append.mp hc with hc | hc
    · obtain ⟨i, hi, rfl⟩ := List.getElem_of_mem hc
      have := (h3 i hi).candidate.1
      rwa [List.length_map] at this
    · obtain ⟨i, hi, rfl⟩ := List.mem_map.mp hc
      unfold unusedArgs at hi
      have := List.mem_range.mp (List.mem_filter.mp hi).1
      rw [List.length_map] at this
      simp only; omega
  by_cases hbad : ∃ c ∈ calls ++ (unusedArgs (args.map ty).length calls).map fun i => (⟨fs.length, i, 1⟩ : CallInfo),
      c.fnIdx ≠ 0 ∨ c.argLen ≠ 1
  · left
    rw [hu, runCalls_forward args _ s hin hbad]
    rfl
  · right
    have hgood : ∀ c ∈ calls ++ (unusedArgs (args.map ty).length calls).map fun i => (⟨fs.length, i, 1⟩ : CallInfo),
        c.fnIdx = 0 ∧ c.argLen = 1 := by
      intro c hc
      constructor
      · exact Decidable.byContradiction fun hn => hbad ⟨c, hc, .inl hn⟩
      · exact Decidable.byContradiction fun hn => hbad ⟨c, hc, .inr hn⟩
    have hpos : 0 < fs.length := List.length_pos_iff.mpr hne
    have hone : fs.length = 1 := by
      by_cases h2' : 1 < fs.length
      · have hi : 1 < calls.length := by omega
        have := (hgood calls[1] (List.mem_append_left _ (List.getElem_mem hi))).1
        rw [(h3 1 hi).fn] at this
        omega
      · omega
    have hun : unusedArgs (args.map ty).length calls = [] := by
      cases e : unusedArgs (args.map ty).length calls with
      | nil => rfl
      | cons i is =>
        have := (hgood ⟨fs.length, i, 1⟩ (List.mem_append_right _ (by rw [e]; simp))).1
        simp only at this; omega
    have hi0 : 0 < calls.length := by omega
    obtain ⟨c, rfl⟩ : ∃ c, calls = [c] := List.length_eq_one_iff.mp (by omega)
    have hc := h3 0 hi0
    simp only [List.getElem_cons_zero] at hc
    have hcl := (hgood c (by simp)).2
    have hargs : args.length = 1 := by
      have hcand := hc.candidate
      rw [List.length_map] at hcand
      have he := (C70_every_argument (args.map ty).length [c]).2.2
      rw [hun] at he
      have huse : ∀ i < args.length, c.argBase ≤ i ∧ i < c.argBase + c.argLen := by
        intro i hi
        have := he i (by rw [List.length_map]; exact hi)
        simp only [List.not_mem_nil, List.mem_singleton, exists_eq_left, false_iff, Decidable.not_not] at this
        exact this
      have h5 := hcand.1
      by_cases h6 : 1 < args.length
      · have h7 := huse 0 (by omega); have h8 := huse 1 h6; omega
      · omega
    obtain ⟨x, rfl⟩ : ∃ x, args = [x] := List.length_eq_one_iff.mp hargs
    obtain ⟨f, rfl⟩ : ∃ f, fs = [f] := List.length_eq_one_iff.mp hone
    have hb0 : c.argBase = 0 := by
      have := hc.candidate.1
      simp at this; omega
    have hc' : c = ⟨0, 0, 1⟩ := by
      cases c; simp only [CallInfo.mk.injEq]; exact ⟨hc.fn, hb0, hcl⟩
    refine ⟨f, x, rfl, rfl, ?_, ?_⟩
    · have := hc.works; rw [hc'] at this; exact this
    · rw [hu, hun, hc']; rfl

/-- **C70, no functions.** Only without functions does it not matter. -/
theorem C70_lvalue_no_functions (callable : Nat → List τ → Bool) (ty : α → τ) (args : List α) (s : σ) :
    callByNeedLvalue callable ty ([] : List (List α → σ → Option β × σ)) args s = callByNeed callable ty [] args s := rfl

/-! ## Cases that meet the hypotheses -/

/-- `call_by_need(funcs, args)` with `funcs` one function of an `int`: the result is the argument, and the function is not called. -/
example : callByNeedLvalue (fun _ ts => ts == ["int"]) (fun _ => "int") [fun xs n => (some xs.length, n + 1)] [7] 0 = .ok ([.inr 7], 0) := by
  rfl

/-- The same with `std::move(funcs)`. -/
example : callByNeed (fun _ ts => ts == ["int"]) (fun _ => "int") [fun xs n => (some xs.length, n + 1)] [7] 0 = .ok ([.inl 1], 1) := by
  rfl

/-- The first example of the documentation: two functions, each for one of two arguments. -/
example : callByNeedLvalue (fun n ts => ts == [n]) (fun x => x) [fun _ s => (some 17, s), fun _ s => (some 42, s)] [0, 1] () = .ub ∧
    callByNeed (fun n ts => ts == [n]) (fun x => x) [fun _ s => (some 17, s), fun _ s => (some 42, s)] [0, 1] () =
      .ok ([.inl 17, .inl 42], ()) := ⟨rfl, rfl⟩

/-- Its functions have calls. -/
example : ∀ N < 2, ¬ NoCall (fun n ts => ts == [n]) [0, 1] N := by
  intro N hN h
  have := h N 1 ⟨by simp; omega, .inl (by simp; omega)⟩
  match N with
  | 0 | 1 => simp [slice] at this

end Verif.Need
