import Verif.Cached.PropsReenter

/-! # One thread, and races on the value (C110) -/

namespace Verif.Cached

variable {σ α : Type}

/-- What operations return on an object that holds `a` if `b`, and else gets `a` at the first access. -/
def COp.results (a : α) : Bool → List COp → List (Res α)
  | _, [] => []
  | b, .hasValue :: ops => .flag b :: COp.results a b ops
  | _, .access :: ops => .value a :: COp.results a true ops

/-- How far a single thread is: between operations, or inside the first access. -/
inductive Alone (s : σ) (a0 : α) (full : List (Res α)) (ops : List COp) (y : TSys σ α) : Prop where
  | between (rest : List COp) (acc : List (Res α)) (b : Bool) (ht : y.threads = [threadOf rest acc]) (hf : y.flag = b)
      (hr : acc ++ COp.results a0 b rest = full) (h1 : b = true → y.value = some a0 ∧ y.calls = 1 ∧ .access ∈ ops)
      (h0 : b = false → y.calls = 0 ∧ y.fs = s ∧ (.access ∈ ops ↔ .access ∈ rest))
  | calling (rest : List COp) (acc : List (Res α))
      (ht : y.threads = [.call (fun a => .writeValue a (.writeFlag (.readValue (fun v => threadOf rest (acc ++ [.value v])))))])
      (hr : acc ++ .value a0 :: COp.results a0 true rest = full) (hc : y.calls = 0) (hs : y.fs = s) (ha : .access ∈ ops)
  | storing (rest : List COp) (acc : List (Res α))
      (ht : y.threads = [.writeValue a0 (.writeFlag (.readValue (fun v => threadOf rest (acc ++ [.value v]))))])
      (hr : acc ++ .value a0 :: COp.results a0 true rest = full) (hc : y.calls = 1) (ha : .access ∈ ops)
  | setting (rest : List COp) (acc : List (Res α))
      (ht : y.threads = [.writeFlag (.readValue (fun v => threadOf rest (acc ++ [.value v])))])
      (hr : acc ++ .value a0 :: COp.results a0 true rest = full) (hc : y.calls = 1) (hv : y.value = some a0) (ha : .access ∈ ops)
  | reading (rest : List COp) (acc : List (Res α)) (ht : y.threads = [.readValue (fun v => threadOf rest (acc ++ [.value v]))])
      (hr : acc ++ .value a0 :: COp.results a0 true rest = full) (hc : y.calls = 1) (hv : y.value = some a0) (hf : y.flag = true) (ha : .access ∈ ops)

theorem Alone.step {f : σ → α × σ} {s : σ} {full : List (Res α)} {ops : List COp} {y y' : TSys σ α} {t : Nat}
    (h : Alone s (f s).1 full ops y) (hs : y.step f t = some y') : Alone s (f s).1 full ops y' := by
  have hone : ∀ (p : TProg α), y.threads = [p] → ∀ q, y.threads[t]? = some q → t = 0 ∧ q = p := by
    intro p hp q hq
    rw [hp] at hq
    cases t with
    | zero => simp at hq; exact ⟨rfl, hq.symm⟩
    | succ t => simp at hq
  unfold TSys.step at hs
  cases hq : y.threads[t]? with
  | none => rw [hq] at hs; simp at hs
  | some q =>
    cases h with
    | between rest acc b ht hf hr h1 h0 =>
      obtain ⟨rfl, rfl⟩ := hone _ ht q hq
      cases rest with
      | nil => rw [hq] at hs; simp [threadOf] at hs
      | cons op rest =>
        cases op with
        | hasValue =>
          rw [hq] at hs
          simp only [threadOf, opProg, Option.some.injEq] at hs
          subst hs
          refine .between rest (acc ++ [.flag b]) b (by simp [ht, hf]) hf (by simpa [COp.results] using hr) h1 ?_
          intro hb
          obtain ⟨k1, k2, k3⟩ := h0 hb
          exact ⟨k1, k2, by simpa using k3⟩
        | access =>
          rw [hq] at hs
          simp only [threadOf, opProg, Option.some.injEq] at hs
          subst hs
          cases b with
          | true =>
            obtain ⟨k1, k2, k3⟩ := h1 rfl
            refine .reading rest acc (by simp [ht, hf]) (by simpa [COp.results] using hr) k2 k1 hf k3
          | false =>
            obtain ⟨k1, k2, k3⟩ := h0 rfl
            refine .calling rest acc (by simp [ht, hf]) (by simpa [COp.results] using hr) k1 k2 (k3.mpr List.mem_cons_self)
    | calling rest acc ht hr hc hfs ha =>
      obtain ⟨rfl, rfl⟩ := hone _ ht q hq
      rw [hq] at hs
      simp only [Option.some.injEq] at hs
      subst hs
      exact .storing rest acc (by simp [ht, hfs]) hr (by simp [hc]) ha
    | storing rest acc ht hr hc ha =>
      obtain ⟨rfl, rfl⟩ := hone _ ht q hq
      rw [hq] at hs
      simp only [Option.some.injEq] at hs
      subst hs
      exact .setting rest acc (by simp [ht]) hr hc rfl ha
    | setting rest acc ht hr hc hv ha =>
      obtain ⟨rfl, rfl⟩ := hone _ ht q hq
      rw [hq] at hs
      simp only [Option.some.injEq] at hs
      subst hs
      exact .reading rest acc (by simp [ht]) hr hc hv rfl ha
    | reading rest acc ht hr hc hv hf ha =>
      obtain ⟨rfl, rfl⟩ := hone _ ht q hq
      rw [hq, hv] at hs
      simp only [Option.some.injEq] at hs
      subst hs
      exact .between rest (acc ++ [.value (f s).1]) true (by simp [ht]) hf (by simpa using hr) (fun _ => ⟨rfl, hc, ha⟩) (by simp)

/-- C110: a single thread, stopped at any point, has called the function at most once; at its end it has called it exactly
if it has made an access, every access has returned the result of that call, and `has_value()` tells
whether there was an access before. -/
theorem C110_one_thread (f : σ → α × σ) (s : σ) (ops : List COp) (ts : List Nat) (y : TSys σ α)
    (h : (TSys.start none s [ops]).run f ts = some y) :
    y.calls ≤ 1 ∧ ∀ rs, y.threads[0]? = some (.done rs) → rs = COp.results (f s).1 false ops ∧ (y.calls = 1 ↔ .access ∈ ops) := by
  have inv : ∀ (ts : List Nat) (x : TSys σ α), Alone s (f s).1 (COp.results (f s).1 false ops) ops x → x.run f ts = some y →
      Alone s (f s).1 (COp.results (f s).1 false ops) ops y := by
    intro ts
    induction ts with
    | nil => intro x hx hr; simp only [TSys.run, Option.some.injEq] at hr; exact hr ▸ hx
    | cons t ts ih =>
      intro x hx hr
      simp only [TSys.run] at hr
      cases hs : x.step f t with
      | none => rw [hs] at hr; simp at hr
      | some x' => rw [hs] at hr; exact ih x' (hx.step hs) hr
  have hy := inv ts _ (.between ops [] false rfl rfl (by simp) (by simp) (fun _ => ⟨rfl, rfl, Iff.rfl⟩)) h
  constructor
  · cases hy with
    | between rest acc b ht hf hr h1 h0 =>
      cases b with
      | true => rw [(h1 rfl).2.1]
      | false => rw [(h0 rfl).1]; omega
    | calling _ _ _ _ hc => omega
    | storing _ _ _ _ hc => omega
    | setting _ _ _ _ hc => omega
    | reading _ _ _ _ hc => omega
  · intro rs hrs
    cases hy with
    | between rest acc b ht hf hr h1 h0 =>
      rw [ht] at hrs
      cases rest with
      | cons op rest => cases op <;> simp [threadOf, opProg] at hrs
      | nil =>
        simp [threadOf] at hrs
        subst hrs
        refine ⟨by simpa [COp.results] using hr, ?_⟩
        cases b with
        | true => simp [(h1 rfl).2.1, (h1 rfl).2.2]
        | false => rw [(h0 rfl).1]; simpa using (h0 rfl).2.2
    | calling _ _ ht => rw [ht] at hrs; simp at hrs
    | storing _ _ ht => rw [ht] at hrs; simp at hrs
    | setting _ _ ht => rw [ht] at hrs; simp at hrs
    | reading _ _ ht => rw [ht] at hrs; simp at hrs

/-- The thread stores a value on its way to the end if it never finds the flag set. -/
def TProg.MustStore : TProg α → Prop
  | .done _ => False
  | .readFlag k => (k false).MustStore
  | .readValue k => ∀ a, (k a).MustStore
  | .call k => ∀ a, (k a).MustStore
  | .writeValue _ _ => True
  | .writeFlag k => k.MustStore

/-- The thread reads or stores a value on every way to the end. -/
def TProg.MustTouch : TProg α → Prop
  | .done _ => False
  | .readFlag k => ∀ b, (k b).MustTouch
  | .readValue _ => True
  | .call k => ∀ a, (k a).MustTouch
  | .writeValue _ _ => True
  | .writeFlag k => k.MustTouch

/-- The thread stores a value before it sets the flag. -/
def TProg.StoresFirst : TProg α → Prop
  | .done _ => True
  | .readFlag k => ∀ b, (k b).StoresFirst
  | .readValue k => ∀ a, (k a).StoresFirst
  | .call k => ∀ a, (k a).StoresFirst
  | .writeValue _ _ => True
  | .writeFlag _ => False

theorem threadOf_mustStore (ops : List COp) (acc : List (Res α)) (h : COp.access ∈ ops) : (threadOf ops acc : TProg α).MustStore := by
  induction ops generalizing acc with
  | nil => simp at h
  | cons op ops ih =>
    cases op with
    | hasValue => exact ih _ (by simpa using h)
    | access => simp [threadOf, opProg, TProg.MustStore]

theorem threadOf_mustTouch (ops : List COp) (acc : List (Res α)) (h : COp.access ∈ ops) : (threadOf ops acc : TProg α).MustTouch := by
  induction ops generalizing acc with
  | nil => simp at h
  | cons op ops ih =>
    cases op with
    | hasValue => intro b; exact ih _ (by simpa using h)
    | access => intro b; cases b <;> simp [TProg.MustTouch]

theorem threadOf_storesFirst (ops : List COp) (acc : List (Res α)) : (threadOf ops acc : TProg α).StoresFirst := by
  induction ops generalizing acc with
  | nil => trivial
  | cons op ops ih =>
    cases op with
    | hasValue => intro b; exact ih _
    | access =>
      intro b
      cases b with
      | true => intro a; exact ih _
      | false => intro a; trivial

/-- Two accesses of the value of the object by different threads, one of them a write. -/
def ValueRace (tr : List Event) : Prop :=
  ∃ e ∈ tr, ∃ e' ∈ tr, e.thread ≠ e'.thread ∧ e.loc = .value ∧ e'.loc = .value ∧ e.write = true

/-- C110, several threads (negation): if two threads access an object that holds nothing, every execution that comes to its end also has a
data race on the value itself. -/
theorem C110_threads_value_race_violated (f : σ → α × σ) (s : σ) (progs : List (List COp)) (i j : Nat) (hij : i ≠ j)
    (pi pj : List COp) (hi : progs[i]? = some pi) (hj : progs[j]? = some pj) (ai : COp.access ∈ pi) (aj : COp.access ∈ pj)
    (ts : List Nat) (y : TSys σ α) (h : (TSys.start none s progs).run f ts = some y) (hend : y.Ended) : ValueRace y.trace := by
  let W : TSys σ α → Prop := fun x => ∃ e ∈ x.trace, e.loc = .value ∧ e.write = true
  let I : TSys σ α → Prop := fun x => (x.flag = true → W x) ∧ (W x ∨ ∃ p, x.threads[i]? = some p ∧ p.MustStore) ∧
    (∀ u, u = i ∨ u = j → (∃ e ∈ x.trace, e.thread = u ∧ e.loc = .value) ∨ ∃ p, x.threads[u]? = some p ∧ p.MustTouch) ∧
    (W x ∨ ∀ p ∈ x.threads, p.StoresFirst)
  have hstep : ∀ (x x' : TSys σ α) (t : Nat), I x → x.step f t = some x' → I x' := by
    intro x x' t ⟨h1, h2, h3, h4⟩ hs
    unfold TSys.step at hs
    cases hp : x.threads[t]? with
    | none => rw [hp] at hs; simp at hs
    | some p =>
      have hlt : t < x.threads.length := (List.getElem?_eq_some_iff.1 hp).1
      rw [hp] at hs
      -- a step to `q` that records `l`
      have gen : ∀ (q : TProg α) (l : List Event) (x' : TSys σ α), x'.threads = x.threads.set t q → x'.trace = x.trace ++ l →
          (x'.flag = true → x.flag = true ∨ W x') →
          (¬ W x' → p.MustStore → q.MustStore) → ((∃ e ∈ l, e.thread = t ∧ e.loc = .value) ∨ (p.MustTouch → q.MustTouch)) →
          (¬ W x' → p.StoresFirst → q.StoresFirst) → I x' := by
        intro q l x' e1 e2 k1 k2 k3 k4
        have hW : W x → W x' := fun ⟨e, he, h⟩ => ⟨e, by rw [e2]; exact List.mem_append_left _ he, h⟩
        refine ⟨fun hf => (k1 hf).elim (fun h => hW (h1 h)) id, ?_, ?_, ?_⟩
        · by_cases hw : W x'
          · exact .inl hw
          · refine .inr ?_
            rcases h2 with h2 | ⟨p', hp', h⟩
            · exact absurd (hW h2) hw
            · by_cases e : i = t
              · subst e
                rw [hp] at hp'; cases hp'
                exact ⟨q, by rw [e1, List.getElem?_set_self hlt], k2 hw h⟩
              · exact ⟨p', by rw [e1, List.getElem?_set_ne (Ne.symm e)]; exact hp', h⟩
        · intro u hu
          rcases h3 u hu with ⟨e, he, h⟩ | ⟨p', hp', h⟩
          · exact .inl ⟨e, by rw [e2]; exact List.mem_append_left _ he, h⟩
          · by_cases e : u = t
            · subst e
              rw [hp] at hp'; cases hp'
              rcases k3 with ⟨e, he, h'⟩ | k3
              · exact .inl ⟨e, by rw [e2]; exact List.mem_append_right _ he, h'⟩
              · exact .inr ⟨q, by rw [e1, List.getElem?_set_self hlt], k3 h⟩
            · exact .inr ⟨p', by rw [e1, List.getElem?_set_ne (Ne.symm e)]; exact hp', h⟩
        · by_cases hw : W x'
          · exact .inl hw
          · refine .inr fun p' hp' => ?_
            rcases h4 with h4 | h4
            · exact absurd (hW h4) hw
            · rw [e1] at hp'
              rcases List.mem_or_eq_of_mem_set hp' with hp' | rfl
              · exact h4 p' hp'
              · exact k4 hw (h4 p (List.mem_of_getElem? hp))
      cases p with
      | done rs => simp at hs
      | readFlag k =>
        simp only [Option.some.injEq] at hs
        subst hs
        refine gen (k x.flag) _ _ rfl rfl (fun h => .inl h) ?_ (.inr fun h => h _) (fun _ h => h _)
        intro hw hm
        cases hfl : x.flag with
        | false => exact hm
        | true => exact absurd (let ⟨e, he, h⟩ := h1 hfl; ⟨e, List.mem_append_left _ he, h⟩) hw
      | readValue k =>
        cases hv : x.value with
        | none => rw [hv] at hs; simp at hs
        | some a =>
          rw [hv] at hs
          simp only [Option.some.injEq] at hs
          subst hs
          exact gen (k a) _ _ rfl rfl (fun h => .inl h) (fun _ h => h a) (.inl ⟨_, List.mem_singleton.mpr rfl, rfl, rfl⟩) (fun _ h => h a)
      | call k =>
        simp only [Option.some.injEq] at hs
        subst hs
        exact gen (k (f x.fs).1) [] _ rfl (by simp) (fun h => .inl h) (fun _ h => h _) (.inr fun h => h _) (fun _ h => h _)
      | writeValue b k =>
        simp only [Option.some.injEq] at hs
        subst hs
        have hw : W { x with threads := x.threads.set t k, value := some b, trace := x.trace ++ [⟨t, .value, true⟩] } :=
          ⟨⟨t, .value, true⟩, by simp, rfl, rfl⟩
        exact gen k _ _ rfl rfl (fun h => .inl h) (fun h => absurd hw h) (.inl ⟨_, List.mem_singleton.mpr rfl, rfl, rfl⟩) (fun h => absurd hw h)
      | writeFlag k =>
        simp only [Option.some.injEq] at hs
        subst hs
        have hw : W x := by
          rcases h4 with h4 | h4
          · exact h4
          · exact (h4 _ (List.mem_of_getElem? hp)).elim
        have hw' : W { x with threads := x.threads.set t k, flag := true, trace := x.trace ++ [⟨t, .flag, true⟩] } :=
          let ⟨e, he, h⟩ := hw
          ⟨e, List.mem_append_left _ he, h⟩
        exact gen k _ _ rfl rfl (fun _ => .inr hw') (fun h => absurd hw' h) (.inr fun h => h) (fun h => absurd hw' h)
  have hrun : ∀ (ts : List Nat) (x : TSys σ α), I x → x.run f ts = some y → I y := by
    intro ts
    induction ts with
    | nil => intro x hx hr; simp only [TSys.run, Option.some.injEq] at hr; exact hr ▸ hx
    | cons t ts ih =>
      intro x hx hr
      simp only [TSys.run] at hr
      cases hs : x.step f t with
      | none => rw [hs] at hr; simp at hr
      | some x' => rw [hs] at hr; exact ih x' (hstep x x' t hx hs) hr
  have hth : ∀ (u : Nat) ops, progs[u]? = some ops → (TSys.start (α := α) none s progs).threads[u]? = some (threadOf ops []) := by
    intro u ops hu; simp [TSys.start, hu]
  obtain ⟨_, h2, h3, _⟩ := hrun ts _ ⟨by simp [TSys.start], .inr ⟨_, hth i pi hi, threadOf_mustStore _ _ ai⟩, by
      rintro u (rfl | rfl)
      · exact .inr ⟨_, hth _ _ hi, threadOf_mustTouch _ _ ai⟩
      · exact .inr ⟨_, hth _ _ hj, threadOf_mustTouch _ _ aj⟩, .inr (by
      intro p hp
      simp only [TSys.start, List.mem_map] at hp
      obtain ⟨ops, _, rfl⟩ := hp
      exact threadOf_storesFirst ops [])⟩ h
  have touched : ∀ u, u = i ∨ u = j → ∃ e ∈ y.trace, e.thread = u ∧ e.loc = .value := by
    intro u hu
    rcases h3 u hu with h | ⟨p, hp, h⟩
    · exact h
    · obtain ⟨rs, rfl⟩ := hend p (List.mem_of_getElem? hp)
      exact h.elim
  have hw : W y := by
    rcases h2 with h | ⟨p, hp, h⟩
    · exact h
    · obtain ⟨rs, rfl⟩ := hend p (List.mem_of_getElem? hp)
      exact h.elim
  obtain ⟨w, hw, hwl, hww⟩ := hw
  obtain ⟨ri, hri, hti, hli⟩ := touched i (.inl rfl)
  obtain ⟨rj, hrj, htj, hlj⟩ := touched j (.inr rfl)
  by_cases e : w.thread = i
  · exact ⟨w, hw, rj, hrj, by rw [e, htj]; exact hij, hwl, hlj, hww⟩
  · exact ⟨w, hw, ri, hri, by rw [hti]; exact e, hwl, hli, hww⟩

/-! ## No schedule gets stuck -/

/-- A program that takes at most `n` more steps, and reads the value only if it is there (`v`), a flag that is set was read, or it
has been written. -/
inductive TProg.Safe : Bool → Nat → TProg α → Prop where
  | done (v n rs) : Safe v n (.done rs)
  | readFlag (v n k) (h1 : Safe true n (k true)) (h0 : Safe v n (k false)) : Safe v (n + 1) (.readFlag k)
  | readValue (n k) (h : ∀ a, Safe true n (k a)) : Safe true (n + 1) (.readValue k)
  | call (v n k) (h : ∀ a, Safe v n (k a)) : Safe v (n + 1) (.call k)
  | writeValue (v n a k) (h : Safe true n k) : Safe v (n + 1) (.writeValue a k)
  | writeFlag (n k) (h : Safe true n k) : Safe true (n + 1) (.writeFlag k)

theorem TProg.Safe.mono {v : Bool} {n : Nat} {p : TProg α} (h : p.Safe v n) : ∀ m, n ≤ m → p.Safe true m := by
  induction h with
  | done v n rs => exact fun m _ => .done _ _ _
  | readFlag v n k _ _ i1 i0 =>
    intro m hm; obtain ⟨m, rfl⟩ : ∃ q, m = q + 1 := ⟨m - 1, by omega⟩
    exact .readFlag _ _ _ (i1 m (by omega)) (i0 m (by omega))
  | readValue n k _ ih =>
    intro m hm; obtain ⟨m, rfl⟩ : ∃ q, m = q + 1 := ⟨m - 1, by omega⟩
    exact .readValue _ _ fun a => ih a m (by omega)
  | call v n k _ ih =>
    intro m hm; obtain ⟨m, rfl⟩ : ∃ q, m = q + 1 := ⟨m - 1, by omega⟩
    exact .call _ _ _ fun a => ih a m (by omega)
  | writeValue v n a k _ ih =>
    intro m hm; obtain ⟨m, rfl⟩ : ∃ q, m = q + 1 := ⟨m - 1, by omega⟩
    exact .writeValue _ _ _ _ (ih m (by omega))
  | writeFlag n k _ ih =>
    intro m hm; obtain ⟨m, rfl⟩ : ∃ q, m = q + 1 := ⟨m - 1, by omega⟩
    exact .writeFlag _ _ (ih m (by omega))

theorem TProg.Safe.up {v : Bool} {n : Nat} {p : TProg α} (h : p.Safe v n) : p.Safe true n := h.mono n (Nat.le_refl _)

theorem TProg.Safe.more {v : Bool} {n : Nat} {p : TProg α} (h : p.Safe v n) : ∀ m, n ≤ m → p.Safe v m := by
  induction h with
  | done v n rs => exact fun m _ => .done _ _ _
  | readFlag v n k _ _ i1 i0 =>
    intro m hm; obtain ⟨m, rfl⟩ : ∃ q, m = q + 1 := ⟨m - 1, by omega⟩
    exact .readFlag _ _ _ (i1 m (by omega)) (i0 m (by omega))
  | readValue n k _ ih =>
    intro m hm; obtain ⟨m, rfl⟩ : ∃ q, m = q + 1 := ⟨m - 1, by omega⟩
    exact .readValue _ _ fun a => ih a m (by omega)
  | call v n k _ ih =>
    intro m hm; obtain ⟨m, rfl⟩ : ∃ q, m = q + 1 := ⟨m - 1, by omega⟩
    exact .call _ _ _ fun a => ih a m (by omega)
  | writeValue v n a k _ ih =>
    intro m hm; obtain ⟨m, rfl⟩ : ∃ q, m = q + 1 := ⟨m - 1, by omega⟩
    exact .writeValue _ _ _ _ (ih m (by omega))
  | writeFlag n k _ ih =>
    intro m hm; obtain ⟨m, rfl⟩ : ∃ q, m = q + 1 := ⟨m - 1, by omega⟩
    exact .writeFlag _ _ (ih m (by omega))

theorem threadOf_safe : ∀ (ops : List COp) (acc : List (Res α)) (v : Bool), (threadOf ops acc).Safe v (5 * ops.length)
  | [], acc, v => .done _ _ _
  | .hasValue :: ops, acc, v => by
    refine TProg.Safe.more (n := 5 * ops.length + 1) ?_ _ (by simp; omega)
    exact .readFlag _ _ _ (threadOf_safe ops _ _) (threadOf_safe ops _ _)
  | .access :: ops, acc, v => by
    have : 5 * (COp.access :: ops).length = 5 * ops.length + 3 + 1 + 1 := by simp; omega
    rw [this]
    refine .readFlag _ _ _ ?_ ?_
    · exact TProg.Safe.more (n := 5 * ops.length + 1) (.readValue _ _ fun a => threadOf_safe ops _ _) _ (by omega)
    · exact .call _ _ _ fun a => .writeValue _ _ _ _ (.writeFlag _ _ (.readValue _ _ fun b => threadOf_safe ops _ _))

/-- The steps that are left for all threads together. -/
def total (m : Nat → Nat) : Nat → Nat
  | 0 => 0
  | n + 1 => total m n + m n

theorem total_dec {m m' : Nat → Nat} {t : Nat} (ht : m' t + 1 = m t) (ho : ∀ u, u ≠ t → m' u = m u) :
    ∀ n, (n ≤ t → total m' n = total m n) ∧ (t < n → total m' n + 1 = total m n)
  | 0 => ⟨fun _ => rfl, fun h => absurd h (Nat.not_lt_zero _)⟩
  | n + 1 => by
    obtain ⟨h1, h2⟩ := total_dec ht ho n
    refine ⟨fun h => ?_, fun h => ?_⟩
    · simp only [total]; rw [h1 (by omega), ho n (by omega)]
    · simp only [total]
      by_cases e : t = n
      · subst e; rw [h1 (Nat.le_refl _)]; omega
      · have := h2 (by omega); rw [ho n (fun h => e h.symm)]; omega

/-- Every thread is safe for what the object holds, with `m t` steps left. -/
def SafeSys (m : Nat → Nat) (y : TSys σ α) : Prop :=
  (y.flag = true → y.value.isSome = true) ∧ ∀ (t : Nat) (p : TProg α), y.threads[t]? = some p → p.Safe y.value.isSome (m t)

theorem SafeSys.set {m : Nat → Nat} {x x' : TSys σ α} {t : Nat} {p q : TProg α} {n : Nat} (hx : SafeSys m x)
    (hp : x.threads[t]? = some p) (hn : m t = n + 1) (hth : x'.threads = x.threads.set t q)
    (hv : x'.value.isSome = x.value.isSome ∨ x'.value.isSome = true) (hf : x'.flag = true → x'.value.isSome = true)
    (hq : q.Safe x'.value.isSome n) :
    ∃ m', SafeSys m' x' ∧ m' t + 1 = m t ∧ ∀ u, u ≠ t → m' u = m u := by
  refine ⟨fun u => if u = t then n else m u, ⟨hf, fun u r hu => ?_⟩, by simp [hn], fun u hu => by simp [hu]⟩
  rw [hth, List.getElem?_set] at hu
  by_cases e : t = u
  · subst e
    have hlt : t < x.threads.length := (List.getElem?_eq_some_iff.1 hp).1
    simp only [if_true, hlt, Option.some.injEq] at hu
    subst hu
    simpa using hq
  · rw [if_neg e] at hu
    have h := hx.2 u r hu
    have hu' : u ≠ t := fun h => e h.symm
    simp only [if_neg hu']
    rcases hv with hv | hv
    · rw [hv]; exact h
    · rw [hv]; exact h.up

theorem SafeSys.step {f : σ → α × σ} {m : Nat → Nat} {x : TSys σ α} {t : Nat} {p : TProg α} (hx : SafeSys m x)
    (hp : x.threads[t]? = some p) (hd : ∀ rs, p ≠ .done rs) :
    ∃ x' m', x.step f t = some x' ∧ x'.threads.length = x.threads.length ∧ SafeSys m' x' ∧ m' t + 1 = m t ∧
      ∀ u, u ≠ t → m' u = m u := by
  have hs := hx.2 t p hp
  have hv := hx.1
  unfold TSys.step
  rw [hp]
  generalize hn : m t = n at hs
  generalize hw : x.value.isSome = w at hs
  cases hs with
  | done => exact absurd rfl (hd _)
  | readFlag v n k h1 h0 =>
    obtain ⟨m', a, b, c⟩ := hx.set (x' := { x with threads := x.threads.set t (k x.flag), trace := x.trace ++ [⟨t, .flag, false⟩] })
      (q := k x.flag) hp hn rfl (.inl rfl) hv (by
        show (k x.flag).Safe x.value.isSome n
        cases hf : x.flag with
        | true => rw [hv hf]; exact h1
        | false => rw [hw]; exact h0)
    exact ⟨_, m', rfl, by simp, a, by rw [b, hn], c⟩
  | readValue n k h =>
    obtain ⟨a0, ha⟩ := Option.isSome_iff_exists.1 hw
    simp only [ha]
    obtain ⟨m', a, b, c⟩ := hx.set (x' := { x with threads := x.threads.set t (k a0), trace := x.trace ++ [⟨t, .value, false⟩] })
      (q := k a0) hp hn rfl (.inl rfl) hv (by show (k a0).Safe x.value.isSome n; rw [hw]; exact h a0)
    exact ⟨_, m', rfl, by simp, by rw [ha] at a; exact a, by rw [b, hn], c⟩
  | call v n k h =>
    obtain ⟨m', a, b, c⟩ := hx.set
      (x' := { x with threads := x.threads.set t (k (f x.fs).1), fs := (f x.fs).2, calls := x.calls + 1 })
      (q := k (f x.fs).1) hp hn rfl (.inl rfl) hv (by show (k _).Safe x.value.isSome n; rw [hw]; exact h _)
    exact ⟨_, m', rfl, by simp, a, by rw [b, hn], c⟩
  | writeValue v n a0 k h =>
    obtain ⟨m', a, b, c⟩ := hx.set
      (x' := { x with threads := x.threads.set t k, value := some a0, trace := x.trace ++ [⟨t, .value, true⟩] })
      (q := k) hp hn rfl (.inr rfl) (fun _ => rfl) h
    exact ⟨_, m', rfl, by simp, a, by rw [b, hn], c⟩
  | writeFlag n k h =>
    obtain ⟨m', a, b, c⟩ := hx.set
      (x' := { x with threads := x.threads.set t k, flag := true, trace := x.trace ++ [⟨t, .flag, true⟩] })
      (q := k) hp hn rfl (.inl rfl) (fun _ => hw) (by show k.Safe x.value.isSome n; rw [hw]; exact h)
    exact ⟨_, m', rfl, by simp, a, by rw [b, hn], c⟩

/-- **C110, no schedule gets stuck.** Whatever steps any number of threads have taken on an object that holds a value or not, each
thread that is not at its end can take another (it never reads a value that is not there), and there are at most five steps for each
operation: every execution can be completed and ends. -/
theorem C110_threads_progress (f : σ → α × σ) (v : Option α) (s : σ) (progs : List (List COp)) (ts : List Nat) (y : TSys σ α)
    (h : (TSys.start v s progs).run f ts = some y) :
    (∀ t p, y.threads[t]? = some p → (∀ rs, p ≠ .done rs) → (y.step f t).isSome = true) ∧
    ts.length ≤ total (fun t => 5 * (progs.getD t []).length) progs.length := by
  have inv : ∀ (ts : List Nat) (x : TSys σ α) (m : Nat → Nat), SafeSys m x → x.run f ts = some y →
      ∃ m', SafeSys m' y ∧ ts.length + total m' x.threads.length = total m x.threads.length := by
    intro ts
    induction ts with
    | nil => intro x m hx hr; simp only [TSys.run, Option.some.injEq] at hr; exact ⟨m, hr ▸ hx, by simp⟩
    | cons t ts ih =>
      intro x m hx hr
      simp only [TSys.run] at hr
      cases hp : x.threads[t]? with
      | none => simp [TSys.step, hp] at hr
      | some p =>
        have hd : ∀ rs, p ≠ .done rs := by rintro rs rfl; simp [TSys.step, hp] at hr
        obtain ⟨x', m1, e, hl, h1, ht, ho⟩ := hx.step (f := f) hp hd
        rw [e] at hr
        obtain ⟨m', a, b⟩ := ih x' m1 h1 hr
        have hlt : t < x.threads.length := (List.getElem?_eq_some_iff.1 hp).1
        have := (total_dec ht ho x.threads.length).2 hlt
        rw [hl] at b
        exact ⟨m', a, by simp only [List.length_cons]; omega⟩
  obtain ⟨m', hy, hlen⟩ := inv ts _ (fun t => 5 * (progs.getD t []).length) ⟨fun h => h, fun t p hp => by
    simp only [TSys.start, List.getElem?_map, Option.map_eq_some_iff] at hp
    obtain ⟨ops, ho, rfl⟩ := hp
    have : progs.getD t [] = ops := by simp [List.getD, ho]
    simp only [this]
    exact threadOf_safe ops [] _⟩ h
  refine ⟨fun t p hp hd => ?_, ?_⟩
  · obtain ⟨x', _, e, _⟩ := hy.step (f := f) hp hd
    simp [e]
  · have : (TSys.start v s progs).threads.length = progs.length := by simp [TSys.start]
    rw [this] at hlen
    omega

/-- Two threads, the second one about to read the value that the first one has just stored. -/
example : ∃ y, (TSys.start (none : Option Nat) (7 : Nat) [[.access], [.access]]).run (fun s => (s, s + 1)) [0, 1, 0, 1, 0, 0, 1, 1] =
    some y ∧ y.calls = 2 ∧ ∃ k, y.threads[1]? = some (.readValue k) := ⟨_, rfl, rfl, _, rfl⟩

/-- One thread asks, accesses twice and asks again: one call. -/
example : ∃ y, (TSys.start (none : Option Nat) (7 : Nat) [[.hasValue, .access, .access, .hasValue]]).run (fun s => (s, s + 1))
    [0, 0, 0, 0, 0, 0, 0, 0, 0] = some y ∧ y.calls = 1 ∧ y.threads[0]? = some (.done [.flag false, .value 7, .value 7, .flag true]) :=
  ⟨_, rfl, rfl, rfl⟩

end Verif.Cached
