import Verif.Env.Model

/-! # Environments: the property theorems (C69) -/

namespace Verif.Env

variable {κ ν : Type} [DecidableEq κ] {conv : κ → κ → Bool}

/-! ## Specification: bindings in order of precedence -/

mutual
/-- The bindings of an entry, the most preferred first. -/
def bindingsE : Entry κ ν → List (κ × ν)
  | .prop q v => [(q, v)]
  | .env es => bindings es

def bindings : List (Entry κ ν) → List (κ × ν)
  | [] => []
  | e :: es => bindingsE e ++ bindings es
end

/-- The value of the first binding of a query that `k` converts to. -/
def first (conv : κ → κ → Bool) (k : κ) (bs : List (κ × ν)) : Option ν := (bs.find? fun b => conv k b.1).map Prod.snd

theorem first_append (k : κ) (as bs : List (κ × ν)) : first conv k (as ++ bs) = (first conv k as).or (first conv k bs) := by
  unfold first
  rw [List.find?_append]
  cases as.find? (fun b => conv k b.1) <;> rfl

theorem first_isSome (k : κ) (bs : List (κ × ν)) : (first conv k bs).isSome = true ↔ ∃ b ∈ bs, conv k b.1 = true := by
  unfold first
  rw [Option.isSome_map, List.find?_isSome]

mutual
theorem valid_iff (k : κ) : ∀ e : Entry κ ν, valid conv k e = (first conv k (bindingsE e)).isSome
  | .prop q v => by
    unfold valid bindingsE first
    cases h : conv k q <;> simp [h]
  | .env es => by unfold valid bindingsE; exact validOver_iff k es

theorem validOver_iff (k : κ) : ∀ es : List (Entry κ ν), validOver conv k es = (first conv k (bindings es)).isSome
  | [] => rfl
  | e :: es => by
    rw [validOver, bindings, first_append, valid_iff k e, validOver_iff k es]
    cases first conv k (bindingsE e) <;> simp
end

mutual
theorem queryEntry_eq (k : κ) : ∀ e : Entry κ ν, queryEntry conv k e = first conv k (bindingsE e)
  | .prop q v => by
    unfold queryEntry bindingsE first
    cases h : conv k q <;> simp [h]
  | .env es => by unfold queryEntry bindingsE; exact queryFirst_eq k es

theorem queryFirst_eq (k : κ) : ∀ es : List (Entry κ ν), queryFirst conv k es = first conv k (bindings es)
  | [] => rfl
  | e :: es => by
    rw [queryFirst, bindings, first_append, valid_iff k e, queryEntry_eq k e, queryFirst_eq k es]
    cases first conv k (bindingsE e) <;> simp
end

/-- **C69, query.** A query on an environment, nested to any depth, gives the first binding in precedence order; the
constraint on the query holds exactly when there is one. -/
theorem C69_query (es : List (Entry κ ν)) (k : κ) :
    query conv es k = first conv k (bindings es) ∧ (validOver conv k es = true ↔ ∃ b ∈ bindings es, conv k b.1 = true) :=
  ⟨queryFirst_eq k es, by rw [validOver_iff, first_isSome]⟩

/-- **C69, default.** The default is used only if there is no binding at all. -/
theorem C69_default (es : List (Entry κ ν)) (k : κ) (d : ν) :
    ((¬ ∃ b ∈ bindings es, conv k b.1 = true) → queryOr conv es k d = d) ∧
    (∀ v, query conv es k = some v → queryOr conv es k d = v) ∧ ((∃ b ∈ bindings es, conv k b.1 = true) → ∃ v, query conv es k = some v) := by
  have hq := (C69_query (conv := conv) es k).1
  refine ⟨?_, ?_, ?_⟩
  · intro h
    have : first conv k (bindings es) = none := by
      cases hf : first conv k (bindings es) with
      | none => rfl
      | some v => exact absurd ((first_isSome k _).mp (by rw [hf]; rfl)) h
    unfold queryOr
    rw [hq, this]
  · intro v h; unfold queryOr; rw [h]
  · intro h
    have := (first_isSome k (bindings es)).mpr h
    rw [hq]
    exact Option.isSome_iff_exists.mp this

/-! ## Environments made of properties -/

/-- The properties of a list of bindings. -/
def props (bs : List (κ × ν)) : List (Entry κ ν) := bs.map fun b => .prop b.1 b.2

theorem bindings_props (bs : List (κ × ν)) : bindings (props bs) = bs := by
  induction bs with
  | nil => rfl
  | cons b bs ih =>
    show bindingsE (.prop b.1 b.2) ++ bindings (props bs) = b :: bs
    rw [ih]; rfl

theorem props_append (as bs : List (κ × ν)) : props (as ++ bs) = props as ++ props bs := List.map_append

/-- Keeping the first binding of each key. -/
def dedup : List κ → List (κ × ν) → List (κ × ν)
  | _, [] => []
  | seen, b :: bs => if b.1 ∈ seen then dedup seen bs else b :: dedup (seen ++ [b.1]) bs

theorem anyEqual_props (b : κ × ν) (kept : List (κ × ν)) :
    anyEqual (.prop b.1 b.2) (props kept) = .ok (decide (b.1 ∈ kept.map Prod.fst)) := by
  induction kept with
  | nil => rfl
  | cons c cs ih =>
    show (queriesEqual (.prop c.1 c.2) (.prop b.1 b.2) >>= _) = _
    rw [queriesEqual, Outcome.ok_bind]
    show (anyEqual (.prop b.1 b.2) (props cs) >>= _) = _
    rw [ih, Outcome.ok_bind]
    show Outcome.ok _ = _
    congr 1
    rw [List.map_cons, Bool.eq_iff_iff]
    simp only [Bool.or_eq_true, decide_eq_true_eq, List.mem_cons]
    rw [eq_comm (a := c.1)]

theorem uniqueIf_props (kept bs : List (κ × ν)) :
    uniqueIf (props kept) (props bs) = .ok (props (kept ++ dedup (kept.map Prod.fst) bs)) := by
  induction bs generalizing kept with
  | nil => simp [props, uniqueIf, dedup]
  | cons b bs ih =>
    show (anyEqual (.prop b.1 b.2) (props kept) >>= _) = _
    rw [anyEqual_props, Outcome.ok_bind, dedup]
    by_cases h : b.1 ∈ kept.map Prod.fst
    · rw [decide_eq_true h, if_pos h]
      exact ih kept
    · rw [decide_eq_false h, if_neg h]
      show uniqueIf (props kept ++ [.prop b.1 b.2]) (props bs) = _
      rw [show props kept ++ [.prop b.1 b.2] = props (kept ++ [b]) by simp [props], ih]
      simp

theorem dedup_first (seen : List κ) (bs : List (κ × ν)) (k : κ) (hk : ∀ q ∈ seen, conv k q = false) :
    first conv k (dedup seen bs) = first conv k bs := by
  induction bs generalizing seen with
  | nil => rfl
  | cons b bs ih =>
    rw [dedup]
    by_cases hb : b.1 ∈ seen
    · rw [if_pos hb, ih seen hk]
      unfold first
      rw [List.find?_cons]; simp [hk _ hb]
    · rw [if_neg hb]
      cases e : conv k b.1 with
      | true => unfold first; simp [e]
      | false =>
        have := ih (seen ++ [b.1]) (by
          intro q hq
          rcases List.mem_append.mp hq with hq | hq
          · exact hk q hq
          · rw [List.mem_singleton.mp hq]; exact e)
        unfold first at this ⊢
        rw [List.find?_cons, List.find?_cons]; simp [e, this]

theorem dedup_keys (seen : List κ) (bs : List (κ × ν)) :
    (∀ k ∈ (dedup seen bs).map Prod.fst, k ∉ seen) ∧ ((dedup seen bs).map Prod.fst).Nodup := by
  induction bs generalizing seen with
  | nil => simp [dedup]
  | cons b bs ih =>
    rw [dedup]
    split
    · exact ih seen
    · rename_i h
      obtain ⟨h1, h2⟩ := ih (seen ++ [b.1])
      constructor
      · intro k hk
        rw [List.map_cons, List.mem_cons] at hk
        rcases hk with hk | hk
        · rw [hk]; exact h
        · have := h1 k hk
          simp only [List.mem_append, not_or] at this
          exact this.1
      · rw [List.map_cons, List.nodup_cons]
        refine ⟨fun hm => ?_, h2⟩
        have := h1 _ hm
        simp at this

/-- Template arguments: queries and values in turn, and possibly one more. -/
def argList (ps : List (Arg κ ν × Arg κ ν)) (last : Option (Arg κ ν)) : List (Arg κ ν) :=
  ps.flatMap (fun p => [p.1, p.2]) ++ last.toList

/-- The bindings meant by them: the type of the first of each pair, and the value of the second. -/
def bound (ps : List (Arg κ ν × Arg κ ν)) : List (κ × ν) := ps.map fun p => (p.1.ty, p.2.val)

/-- Every list of arguments is of that form. -/
theorem argList_surj : ∀ args : List (Arg κ ν), ∃ ps last, args = argList ps last
  | [] => ⟨[], none, rfl⟩
  | [a] => ⟨[], some a, rfl⟩
  | a :: b :: rest => by
    obtain ⟨ps, last, h⟩ := argList_surj rest
    exact ⟨(a, b) :: ps, last, by rw [h]; rfl⟩

theorem length_argList (ps : List (Arg κ ν × Arg κ ν)) (last : Option (Arg κ ν)) : (argList ps last).length / 2 = ps.length := by
  have h : (ps.flatMap fun p => [p.1, p.2]).length = 2 * ps.length := by
    induction ps with
    | nil => rfl
    | cons p ps ih => rw [List.flatMap_cons, List.length_append, ih]; simp; omega
  unfold argList
  rw [List.length_append, h]
  cases last <;> simp <;> omega

theorem forEachPair_from (ps pre : List (Arg κ ν × Arg κ ν)) (last : Option (Arg κ ν)) :
    forEachPair (argList (pre ++ ps) last) ((List.range ps.length).map (pre.length + ·)) = .ok (props (bound ps)) := by
  induction ps generalizing pre with
  | nil => rfl
  | cons p ps ih =>
    have h := ih (pre ++ [p])
    rw [List.append_assoc, List.singleton_append] at h
    have hpre : ∀ qs : List (Arg κ ν × Arg κ ν), (qs.flatMap fun p => [p.1, p.2]).length = 2 * qs.length := by
      intro qs
      induction qs with
      | nil => rfl
      | cons q qs ih => rw [List.flatMap_cons, List.length_append, ih]; simp; omega
    have hsplit : argList (pre ++ p :: ps) last = (pre.flatMap fun p => [p.1, p.2]) ++ p.1 :: p.2 :: argList ps last := by
      unfold argList; simp
    have h0 : nthArg (argList (pre ++ p :: ps) last) (2 * (pre.length + 0)) = .ok p.1 := by
      rw [hsplit]; unfold nthArg arrGet
      rw [List.getElem?_append_right (by rw [hpre]; omega), hpre]; simp
    have h1 : nthArg (argList (pre ++ p :: ps) last) (2 * (pre.length + 0) + 1) = .ok p.2 := by
      rw [hsplit]; unfold nthArg arrGet
      rw [List.getElem?_append_right (by rw [hpre]; omega), hpre]; simp
    rw [List.length_cons, List.range_succ_eq_map, List.map_cons, forEachPair, h0, Outcome.ok_bind, h1, Outcome.ok_bind,
      List.map_map, show ((pre.length + ·) ∘ Nat.succ) = ((pre ++ [p]).length + ·) by
        funext i; simp only [Function.comp, List.length_append, List.length_singleton]; omega, h]
    rfl

theorem forEachPair_eq (ps : List (Arg κ ν × Arg κ ν)) (last : Option (Arg κ ν)) :
    forEachPair (argList ps last) (List.range ((argList ps last).length / 2)) = .ok (props (bound ps)) := by
  have h := forEachPair_from ps [] last
  rw [length_argList]
  simpa using h

theorem extend_eq (env : List (κ × ν)) (ps : List (Arg κ ν × Arg κ ν)) (last : Option (Arg κ ν)) :
    extend (props env) (argList ps last) = .ok (props (dedup [] (bound ps ++ env))) := by
  unfold extend
  rw [forEachPair_eq, Outcome.ok_bind, ← props_append]
  exact uniqueIf_props [] (bound ps ++ env)

theorem append_eq (envs : List (List (κ × ν))) (he : envs ≠ []) :
    append (envs.map props) = .ok (props (dedup [] envs.flatten.reverse)) := by
  have hu : append (envs.map props) = uniqueIf [] (envs.map props).flatten.reverse := by
    cases envs with
    | nil => exact absurd rfl he
    | cons => rfl
  rw [hu]
  have : (envs.map props).flatten.reverse = props envs.flatten.reverse := by
    unfold props
    rw [List.map_reverse, List.map_flatten]
  rw [this]
  exact uniqueIf_props [] _

/-- **C69, extension.** A query on an extended environment gives the new binding if the extension has one (the first, if
it has several) and otherwise what the old environment gives.  The arguments are paired up as query and value; a last
one without a partner is ignored. -/
theorem C69_extend (env : List (κ × ν)) (ps : List (Arg κ ν × Arg κ ν)) (last : Option (Arg κ ν)) (k : κ) :
    ∃ e, extend (props env) (argList ps last) = .ok e ∧
      query conv e k = (first conv k (bound ps)).or (query conv (props env) k) := by
  refine ⟨_, extend_eq env ps last, ?_⟩
  rw [(C69_query _ _).1, (C69_query _ _).1, bindings_props, bindings_props, dedup_first _ _ _ (by simp), first_append]

/-- A chain of extensions, oldest first. -/
def extendAll (env : List (Entry κ ν)) : List (List (Arg κ ν × Arg κ ν) × Option (Arg κ ν)) → Outcome (List (Entry κ ν))
  | [] => .ok env
  | x :: xs => do
    let e ← extend env (argList x.1 x.2)
    extendAll e xs

/-- **C69, chain.** For every chain of extensions, the newest extension that binds the key decides. -/
theorem C69_extend_chain (env : List (κ × ν)) (xs : List (List (Arg κ ν × Arg κ ν) × Option (Arg κ ν))) (k : κ) :
    ∃ e, extendAll (props env) xs = .ok e ∧
      query conv e k = (xs.reverse.findSome? fun x => first conv k (bound x.1)).or (query conv (props env) k) := by
  suffices h : ∃ b, extendAll (props env) xs = .ok (props b) ∧
      query conv (props b) k = (xs.reverse.findSome? fun x => first conv k (bound x.1)).or (query conv (props env) k) by
    obtain ⟨b, h1, h2⟩ := h; exact ⟨_, h1, h2⟩
  induction xs generalizing env with
  | nil => exact ⟨env, rfl, rfl⟩
  | cons x xs ih =>
    obtain ⟨b, h1, h2⟩ := ih (dedup [] (bound x.1 ++ env))
    refine ⟨b, by rw [extendAll, extend_eq, Outcome.ok_bind, h1], ?_⟩
    rw [h2, List.reverse_cons, List.findSome?_append, (C69_query _ _).1, (C69_query _ _).1, bindings_props, bindings_props,
      dedup_first _ _ _ (by simp), first_append, Option.or_assoc]
    congr 1
    simp only [List.findSome?_cons, List.findSome?_nil]
    cases first conv k (bound x.1) <;> rfl

/-- The environments that can be built from nothing with `make_env_t`, `extend_env_t` and `append_env_t`. -/
inductive Built : List (Entry κ ν) → Prop
  | make {args e} : make args = .ok e → Built e
  | extend {env args e} : Built env → extend env args = .ok e → Built e
  | append {envs e} : (∀ x ∈ envs, Built x) → append envs = .ok e → Built e

/-- Built environments bind every key once. -/
theorem C69_built_unique {e : List (Entry κ ν)} (h : Built e) : ∃ bs, e = props bs ∧ (bs.map Prod.fst).Nodup := by
  induction h with
  | @make args e h =>
    obtain ⟨ps, last, rfl⟩ := argList_surj args
    have := extend_eq ([] : List (κ × ν)) ps last
    have hm : extend ([] : List (Entry κ ν)) (argList ps last) = .ok e := h
    rw [show ([] : List (Entry κ ν)) = props [] from rfl, this] at hm
    injection hm with hm
    exact ⟨_, hm.symm, (dedup_keys [] _).2⟩
  | @extend env args e _ h ih =>
    obtain ⟨b, rfl, _⟩ := ih
    obtain ⟨ps, last, rfl⟩ := argList_surj args
    rw [extend_eq] at h
    injection h with h
    exact ⟨_, h.symm, (dedup_keys [] _).2⟩
  | @append envs e hx h ih =>
    have hall : ∃ bss : List (List (κ × ν)), envs = bss.map props := by
      clear h hx
      induction envs with
      | nil => exact ⟨[], rfl⟩
      | cons x xs ih2 =>
        obtain ⟨bss, hb⟩ := ih2 (fun y hy => ih y (by simp [hy]))
        obtain ⟨b, hx, _⟩ := ih x (by simp)
        exact ⟨b :: bss, by rw [hb, hx]; rfl⟩
    obtain ⟨bss, rfl⟩ := hall
    rw [append_eq _ (by rintro rfl; simp [append] at h)] at h
    injection h with h
    exact ⟨_, h.symm, (dedup_keys [] _).2⟩

theorem first_reverse (bs : List (κ × ν)) (h : (bs.map Prod.fst).Nodup) (k : κ)
    (hk : ∀ b ∈ bs, ∀ c ∈ bs, conv k b.1 = true → conv k c.1 = true → b.1 = c.1) :
    first conv k bs.reverse = first conv k bs := by
  induction bs with
  | nil => rfl
  | cons b bs ih =>
    rw [List.map_cons, List.nodup_cons] at h
    rw [List.reverse_cons, first_append, ih h.2 fun x hx y hy => hk x (by simp [hx]) y (by simp [hy])]
    cases e : conv k b.1 with
    | true =>
      have hn : first conv k bs = none := by
        cases hf : first conv k bs with
        | none => rfl
        | some v =>
          obtain ⟨c, hc, hcc⟩ := (first_isSome k bs).mp (by rw [hf]; rfl)
          have := hk b (by simp) c (by simp [hc]) e hcc
          exact absurd (List.mem_map_of_mem hc) (this ▸ h.1)
      rw [hn]
      unfold first; simp [e]
    | false =>
      unfold first
      simp [e]

/-- **C69, appending.** Of built environments the one given last that binds the key decides, provided that the query does
not convert to two different queries bound in one environment. -/
theorem C69_append_partial {envs : List (List (Entry κ ν))} (he : envs ≠ []) (h : ∀ x ∈ envs, Built x) (k : κ)
    (hk : ∀ x ∈ envs, ∀ b ∈ bindings x, ∀ c ∈ bindings x, conv k b.1 = true → conv k c.1 = true → b.1 = c.1) :
    ∃ e, append envs = .ok e ∧ Built e ∧ query conv e k = envs.reverse.findSome? fun x => query conv x k := by
  have hall : ∃ bss : List (List (κ × ν)), envs = bss.map props ∧ ∀ b ∈ bss, (b.map Prod.fst).Nodup := by
    clear hk he
    induction envs with
    | nil => exact ⟨[], rfl, by simp⟩
    | cons x xs ih =>
      obtain ⟨bss, hb, hn⟩ := ih fun y hy => h y (by simp [hy])
      obtain ⟨b, hx, hbn⟩ := C69_built_unique (h x (by simp))
      refine ⟨b :: bss, by rw [hb, hx]; rfl, ?_⟩
      intro c hc
      rcases List.mem_cons.mp hc with hc | hc
      · rw [hc]; exact hbn
      · exact hn c hc
  obtain ⟨bss, rfl, hn⟩ := hall
  have he' : bss ≠ [] := by rintro rfl; exact he rfl
  refine ⟨_, append_eq bss he', .append h (append_eq bss he'), ?_⟩
  rw [(C69_query _ _).1, bindings_props, dedup_first _ _ _ (by simp), ← List.map_reverse, List.findSome?_map]
  have hk' : ∀ bs ∈ bss, ∀ b ∈ bs, ∀ c ∈ bs, conv k b.1 = true → conv k c.1 = true → b.1 = c.1 := by
    intro bs hbs
    have := hk (props bs) (List.mem_map_of_mem hbs)
    rwa [bindings_props] at this
  clear h hk he he'
  induction bss with
  | nil => rfl
  | cons b bss ih =>
    rw [List.flatten_cons, List.reverse_append, first_append, List.reverse_cons, List.findSome?_append,
      ih (fun c hc => hn c (by simp [hc])) (fun c hc => hk' c (by simp [hc])),
      first_reverse b (hn b (by simp)) k (hk' b (by simp))]
    congr 1
    simp only [List.findSome?_cons, List.findSome?_nil, Function.comp, (C69_query _ _).1, bindings_props]
    cases first conv k b <;> rfl

/-- What `append_env_t` does in general: the last binding in the environments one after the other. -/
theorem C69_append_general (bss : List (List (κ × ν))) (he : bss ≠ []) (k : κ) :
    ∃ e, append (bss.map props) = .ok e ∧ query conv e k = first conv k bss.flatten.reverse :=
  ⟨_, append_eq bss he, by rw [(C69_query _ _).1, bindings_props, dedup_first _ _ _ (by simp)]⟩

/-- An environment written by hand with a key twice changes its meaning when it is appended, even to nothing. -/
theorem C69_append_handwritten_violated (k : κ) (hc : conv k k = true) (v w : ν) (hvw : v ≠ w) :
    query conv (props [(k, v), (k, w)]) k = some v ∧
    ∃ e, append [props [(k, v), (k, w)]] = .ok e ∧ query conv e k = some w ∧ query conv e k ≠ query conv (props [(k, v), (k, w)]) k := by
  have h1 : query conv (props [(k, v), (k, w)]) k = some v := by
    rw [(C69_query _ _).1, bindings_props]; simp [first, hc]
  obtain ⟨e, he, hq⟩ := C69_append_general [[(k, v), (k, w)]] (by simp) k
  have h2 : query conv e k = some w := by rw [hq]; simp [first, hc]
  exact ⟨h1, e, he, h2, by rw [h1, h2]; simpa using hvw.symm⟩

/-- A key given twice in one extension: the first is taken, not the newest. -/
theorem C69_extend_twice (env : List (κ × ν)) (k : κ) (hc : conv k k = true) (v w x : ν) :
    ∃ e, extend (props env) [⟨k, x⟩, ⟨k, v⟩, ⟨k, x⟩, ⟨k, w⟩] = .ok e ∧ query conv e k = some v := by
  obtain ⟨e, h1, h2⟩ := C69_extend (conv := conv) env [(⟨k, x⟩, ⟨k, v⟩), (⟨k, x⟩, ⟨k, w⟩)] none k
  exact ⟨e, h1, by rw [h2]; simp [first, bound, hc]⟩

/-- An `env` inside the environment being extended does not compile. -/
theorem C69_extend_nested (inner : List (Entry κ ν)) (q v : Arg κ ν) : extend [.env inner] [q, v] = .ub := by
  unfold extend
  have h : List.range ([q, v].length / 2) = [0] := by simp [List.range_succ]
  rw [h]
  rfl


/-- A query that converts to two others (derived from both, say): an environment that binds both means the first, and
appended the last, although it was built and binds no key twice. -/
theorem C69_append_conversion_violated (k p q : κ) (hpq : p ≠ q) (hp : conv k p = true) (hq : conv k q = true) (v w : ν)
    (hvw : v ≠ w) :
    Built (props [(p, v), (q, w)]) ∧ query conv (props [(p, v), (q, w)]) k = some v ∧
    ∃ e, append [props [(p, v), (q, w)]] = .ok e ∧ query conv e k = some w := by
  refine ⟨?_, ?_, ?_⟩
  · refine .make (args := argList [(⟨p, v⟩, ⟨p, v⟩), (⟨q, w⟩, ⟨q, w⟩)] none) ?_
    show extend (props []) _ = _
    rw [extend_eq]
    simp [bound, dedup, hpq.symm]
  · rw [(C69_query _ _).1, bindings_props]; simp [first, hp]
  · obtain ⟨e, he, hq'⟩ := C69_append_general (conv := conv) [[(p, v), (q, w)]] (by simp) k
    exact ⟨e, he, by rw [hq']; simp [first, hq]⟩

/-- Nothing appended is not an environment, though `env<>` is one. -/
theorem C69_append_none : append ([] : List (List (Entry κ ν))) = .ub := rfl

/-- Exact types: no conversions. -/
def exact (k q : Nat) : Bool := decide (k = q)

example : Built (props [(1, 'b'), (2, 'a')]) :=
  .extend (env := props [(1, 'a'), (2, 'a')]) (args := [⟨1, 'x'⟩, ⟨7, 'b'⟩, ⟨9, 'z'⟩])
    (.make (args := [⟨1, 'x'⟩, ⟨7, 'a'⟩, ⟨2, 'x'⟩, ⟨7, 'a'⟩]) rfl) rfl

example : (append [props [(1, 'a'), (2, 'b')], props [(1, 'c')]] >>= fun e => Outcome.ok (query exact e 1, query exact e 2, query exact e 3)) =
    .ok (some 'c', some 'b', none) := by rfl

end Verif.Env
