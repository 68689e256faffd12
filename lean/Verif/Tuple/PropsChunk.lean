import Verif.Tuple.PropsCat

/-! # Tuples: chunks, sorting, sets (C65, C66, C68) -/

namespace Verif.Tuple

variable {α β γ κ ν : Type}

/-! ## The chunk table -/

/-- The chunks that the tests `bs` give, when the current chunk starts at `off` and has `sz` elements so far. -/
def chunksOf (off sz : Nat) : List Bool → List Chunk
  | [] => [⟨off, sz⟩]
  | true :: bs => chunksOf off (sz + 1) bs
  | false :: bs => ⟨off, sz⟩ :: chunksOf (off + sz) 1 bs

theorem chunksOf_length (off sz : Nat) (bs : List Bool) : (chunksOf off sz bs).length = bs.count false + 1 := by
  induction bs generalizing off sz with
  | nil => rfl
  | cons b bs ih => cases b <;> simp [chunksOf, ih]

theorem countChunks_eq {test : Nat → Outcome Bool} (bs : List Bool) (i c : Nat)
    (h : ∀ j (hj : j < bs.length), test (i + j) = .ok bs[j]) :
    countChunks test (List.range' i bs.length) c = .ok (c + bs.count false) := by
  induction bs generalizing i c with
  | nil => rfl
  | cons b bs ih =>
    rw [List.length_cons, List.range'_succ, countChunks]
    have h0 := h 0 (by simp)
    rw [Nat.add_zero] at h0
    rw [h0, Outcome.ok_bind, ih (i + 1) _ (fun j hj => by
      have := h (j + 1) (by rw [List.length_cons]; omega)
      rw [show i + 1 + j = i + (j + 1) by omega, this]; rfl)]
    congr 1
    cases b
    · simp; omega
    · simp

theorem chunkLoop_eq {test : Nat → Outcome Bool} (bs : List Bool) (i off sz : Nat) (done : List Chunk)
    (h : ∀ j (hj : j < bs.length), test (i + j) = .ok bs[j]) (hi : i + 1 = off + sz) :
    chunkLoop test (List.range' i bs.length) (done ++ ⟨off, sz⟩ :: List.replicate (bs.count false) ⟨0, 0⟩) done.length =
      .ok (done ++ chunksOf off sz bs) := by
  induction bs generalizing i off sz done with
  | nil => simp [chunkLoop, chunksOf]
  | cons b bs ih =>
    have h0 := h 0 (by simp)
    rw [Nat.add_zero] at h0
    have hs : ∀ j (hj : j < bs.length), test (i + 1 + j) = .ok bs[j] := fun j hj => by
      have := h (j + 1) (by rw [List.length_cons]; omega)
      rw [show i + 1 + j = i + (j + 1) by omega, this]; rfl
    rw [List.length_cons, List.range'_succ, chunkLoop, h0, Outcome.ok_bind]
    have hb : ∀ (d : List Chunk) (c : Chunk) (r : List Chunk), bump (d ++ c :: r) d.length =
        .ok (d ++ ⟨c.offset, c.size + 1⟩ :: r) := by
      intro d c r
      unfold bump
      have : arrGet (d ++ c :: r) d.length = .ok c := by
        rw [arrGet_ok, List.getElem?_append_right (by omega)]; simp
      rw [this, Outcome.ok_bind, arrSet_of_lt (by simp)]; simp
    cases b with
    | true =>
      show (if true = true then _ else _) = _
      rw [if_pos rfl, List.count_cons_of_ne (by decide), hb, Outcome.ok_bind]
      exact ih (i + 1) off (sz + 1) done hs (by omega)
    | false =>
      show (if false = true then _ else _) = _
      rw [if_neg (by decide), List.count_cons_self, List.replicate_succ]
      have e1 : done ++ (⟨off, sz⟩ : Chunk) :: ⟨0, 0⟩ :: List.replicate (bs.count false) ⟨0, 0⟩ =
          (done ++ [⟨off, sz⟩]) ++ ⟨0, 0⟩ :: List.replicate (bs.count false) ⟨0, 0⟩ := by simp
      have e2 : done.length + 1 = (done ++ [(⟨off, sz⟩ : Chunk)]).length := by simp
      rw [e1, e2]
      obtain ⟨d, hd⟩ : ∃ d, d = done ++ [(⟨off, sz⟩ : Chunk)] := ⟨_, rfl⟩
      rw [← hd]
      have hg : arrGet (d ++ (⟨0, 0⟩ : Chunk) :: List.replicate (bs.count false) ⟨0, 0⟩) d.length = .ok ⟨0, 0⟩ := by
        rw [arrGet_ok, List.getElem?_append_right (by omega)]; simp
      rw [hg, Outcome.ok_bind, arrSet_of_lt (by simp), Outcome.ok_bind]
      have e3 : (d ++ (⟨0, 0⟩ : Chunk) :: List.replicate (bs.count false) ⟨0, 0⟩).set d.length ⟨i + 1, 0⟩ =
          d ++ ⟨i + 1, 0⟩ :: List.replicate (bs.count false) ⟨0, 0⟩ := by simp
      show (bump ((d ++ (⟨0, 0⟩ : Chunk) :: List.replicate (bs.count false) ⟨0, 0⟩).set d.length ⟨i + 1, 0⟩) d.length >>= _) = _
      rw [e3, hb, Outcome.ok_bind]
      have := ih (i + 1) (i + 1) 1 d hs (by omega)
      rw [Nat.zero_add] at *
      rw [this, hi, hd, chunksOf, List.append_assoc]
      rfl

theorem createChunks_eq {test : Nat → Outcome Bool} (bs : List Bool) (n : Nat) (hn : bs.length + 1 = n)
    (h : ∀ j (hj : j < bs.length), test j = .ok bs[j]) : createChunks test n = .ok (chunksOf 0 1 bs) := by
  unfold createChunks
  have h' : ∀ j (hj : j < bs.length), test (0 + j) = .ok bs[j] := fun j hj => by rw [Nat.zero_add]; exact h j hj
  rw [show n - 1 = bs.length by omega, List.range_eq_range', countChunks_eq bs 0 1 h', Outcome.ok_bind, Nat.add_comm 1,
    List.replicate_succ]
  have hb : bump ((⟨0, 0⟩ : Chunk) :: List.replicate (bs.count false) ⟨0, 0⟩) 0 =
      .ok (⟨0, 1⟩ :: List.replicate (bs.count false) ⟨0, 0⟩) := by
    unfold bump
    rw [(arrGet_ok (x := (⟨0, 0⟩ : Chunk))).mpr (by simp), Outcome.ok_bind, arrSet_of_lt (by simp)]; simp
  rw [hb, Outcome.ok_bind]
  exact chunkLoop_eq bs 0 0 1 [] h' rfl

/-! ## Extraction -/

/-- Cutting a list where the tests are false. -/
def cut : List α → List Bool → List α → List (List α)
  | cur, true :: bs, x :: xs => cut (cur ++ [x]) bs xs
  | cur, false :: bs, x :: xs => cur :: cut [x] bs xs
  | cur, _, _ => [cur]

theorem slice_eq {G : Nat → Outcome α} (t pre mid post : List α) (h : t = pre ++ (mid ++ post))
    (hG : ∀ i x, t[i]? = some x → G i = .ok x) :
    mapO (fun j => G (pre.length + j)) (List.range mid.length) = .ok mid := by
  apply mapO_range
  · simp
  · intro i hi
    apply hG
    rw [h, List.getElem?_append_right (by omega), Nat.add_sub_cancel_left, List.getElem?_append_left hi,
      List.getElem?_eq_getElem hi]

theorem extract_eq {G : Nat → Outcome α} (t : List α) (hG : ∀ i x, t[i]? = some x → G i = .ok x)
    (bs : List Bool) (pre cur rest : List α) (h : t = pre ++ (cur ++ rest)) (hl : bs.length = rest.length) :
    mapO (fun c : Chunk => mapO (fun j => G (c.offset + j)) (List.range c.size)) (chunksOf pre.length cur.length bs) =
      .ok (cut cur bs rest) := by
  induction bs generalizing pre cur rest with
  | nil =>
    rw [chunksOf, mapO, mapO, slice_eq t pre cur rest h hG]
    cases rest <;> simp_all [cut]
  | cons b bs ih =>
    cases rest with
    | nil => simp at hl
    | cons x xs =>
      cases b with
      | true =>
        have := ih pre (cur ++ [x]) xs (by simp [h]) (by simpa using hl)
        rw [List.length_append, List.length_singleton] at this
        rw [chunksOf, cut, this]
      | false =>
        have := ih (pre ++ cur) [x] xs (by simp [h]) (by simpa using hl)
        rw [List.length_append, List.length_singleton] at this
        rw [chunksOf, cut, mapO, slice_eq (G := G) t pre cur (x :: xs) h hG, Outcome.ok_bind, this]
        rfl

/-- The tests of neighbouring elements. -/
def tests [DecidableEq κ] (proj : α → κ) : α → List α → List Bool
  | _, [] => []
  | x, y :: ys => decide (proj x = proj y) :: tests proj y ys

theorem tests_length [DecidableEq κ] (proj : α → κ) (x : α) (xs : List α) : (tests proj x xs).length = xs.length := by
  induction xs generalizing x with
  | nil => rfl
  | cons y ys ih => simp [tests, ih]

theorem tests_get [DecidableEq κ] (proj : α → κ) (x : α) (xs : List α) (j : Nat) (hj : j < (tests proj x xs).length) :
    testPair proj (x :: xs) j (j + 1) = .ok (tests proj x xs)[j] := by
  induction xs generalizing x j with
  | nil => simp [tests] at hj
  | cons y ys ih =>
    cases j with
    | zero => rfl
    | succ j => exact ih y j (by rw [tests, List.length_cons] at hj; omega)

/-- The runs of a list. -/
def runs [DecidableEq κ] (proj : α → κ) : List α → List (List α)
  | [] => []
  | x :: xs => cut [x] (tests proj x xs) xs

theorem chunkBy_eq [DecidableEq κ] (proj : α → κ) (t : List α) : chunkBy proj t = .ok (runs proj t) := by
  unfold chunkBy
  match t with
  | [] => rfl
  | [x] => rfl
  | x :: y :: zs =>
    rw [if_neg (by simp), if_neg (by simp)]
    rw [createChunks_eq (tests proj x (y :: zs)) _ (by rw [tests_length]; rfl) (fun j hj => tests_get proj x (y :: zs) j hj)]
    rw [Outcome.ok_bind, mapO_index (f := fun c : Chunk => mapO (fun j => get (x :: y :: zs) (c.offset + j)) (List.range c.size))]
    exact extract_eq (x :: y :: zs) (fun i x h => arrGet_ok.mpr h) _ [] [x] (y :: zs) rfl (by rw [tests_length])

/-! ## Specification of the runs -/

/-- `gs` are the maximal runs of `t`: in order they make up `t`, every one is non-empty with one key, and neighbours
have different keys. -/
structure IsRuns (proj : α → κ) (t : List α) (gs : List (List α)) : Prop where
  whole : gs.flatten = t
  nonempty : ∀ g ∈ gs, g ≠ []
  same : ∀ g ∈ gs, ∀ x ∈ g, ∀ y ∈ g, proj x = proj y
  differ : ∀ pre g h post, gs = pre ++ g :: h :: post → ∀ x ∈ g, ∀ y ∈ h, proj x ≠ proj y

theorem cut_head (cur : List α) (bs : List Bool) (xs : List α) : ∃ g gs, cut cur bs xs = (cur ++ g) :: gs := by
  induction bs generalizing cur xs with
  | nil => exact ⟨[], [], by cases xs <;> simp [cut]⟩
  | cons b bs ih =>
    cases xs with
    | nil => exact ⟨[], [], by cases b <;> simp [cut]⟩
    | cons x xs =>
      cases b with
      | true =>
        obtain ⟨g, gs, h⟩ := ih (cur ++ [x]) xs
        exact ⟨x :: g, gs, by rw [cut, h]; simp⟩
      | false => exact ⟨[], cut [x] bs xs, by rw [cut]; simp⟩

theorem cut_isRuns [DecidableEq κ] (proj : α → κ) (xs cur : List α) (x : α) (hc : ∀ y ∈ cur, proj y = proj x) :
    IsRuns proj (cur ++ x :: xs) (cut (cur ++ [x]) (tests proj x xs) xs) := by
  induction xs generalizing cur x with
  | nil =>
    refine ⟨by simp [tests, cut], by simp [tests, cut], ?_, ?_⟩
    · intro g hg a ha b hb
      simp [tests, cut] at hg
      subst hg
      simp at ha hb
      rcases ha with ha | ha <;> rcases hb with hb | hb
      · rw [hc a ha, hc b hb]
      · rw [hc a ha, hb]
      · rw [hc b hb, ha]
      · rw [ha, hb]
    · intro pre g h post he
      have := congrArg List.length he
      simp [tests, cut] at this
      omega
  | cons y ys ih =>
    rw [tests]
    by_cases hxy : proj x = proj y
    · rw [decide_eq_true hxy, cut]
      have := ih (cur ++ [x]) y (by
        intro z hz
        rcases List.mem_append.mp hz with hz | hz
        · rw [hc z hz, hxy]
        · rw [List.mem_singleton.mp hz, hxy])
      simpa using this
    · rw [decide_eq_false hxy, cut]
      have hr := ih [] y (by simp)
      simp only [List.nil_append] at hr
      obtain ⟨g0, gs0, hg0⟩ := cut_head [y] (tests proj y ys) ys
      have hcur : ∀ a ∈ cur ++ [x], proj a = proj x := by
        intro a ha
        rcases List.mem_append.mp ha with ha | ha
        · exact hc a ha
        · rw [List.mem_singleton.mp ha]
      refine ⟨?_, ?_, ?_, ?_⟩
      · rw [List.flatten_cons, hr.whole]; simp
      · intro g hg
        rcases List.mem_cons.mp hg with hg | hg
        · rw [hg]; simp
        · exact hr.nonempty g hg
      · intro g hg a ha b hb
        rcases List.mem_cons.mp hg with hg | hg
        · subst hg; rw [hcur a ha, hcur b hb]
        · exact hr.same g hg a ha b hb
      · intro pre g h post he
        cases pre with
        | nil =>
          rw [List.nil_append] at he
          injection he with e1 e2
          intro a ha b hb
          rw [hg0] at e2
          injection e2 with e3 e4
          rw [← e1] at ha
          rw [hcur a ha]
          have hyb : proj y = proj b := hr.same (y :: g0) (by rw [hg0]; simp) y (by simp) b (by rw [← e3] at hb; exact hb)
          rw [← hyb]; exact hxy
        | cons p pre =>
          rw [List.cons_append] at he
          injection he with _ e2
          exact hr.differ pre g h post e2

theorem runs_isRuns [DecidableEq κ] (proj : α → κ) (t : List α) : IsRuns proj t (runs proj t) := by
  cases t with
  | nil => exact ⟨rfl, by simp [runs], by simp [runs], by intro pre g h post he; simp [runs] at he⟩
  | cons x xs => exact cut_isRuns proj xs [] x (by simp)

/-- **C65.** `chunk_by` (and `chunk`) cuts the tuple into its maximal runs of equal keys: concatenated the chunks are
the tuple, no chunk is empty, keys agree inside a chunk and differ between neighbouring chunks. -/
theorem C65_chunk_by [DecidableEq κ] (proj : α → κ) (t : List α) : ∃ gs, chunkBy proj t = .ok gs ∧ IsRuns proj t gs :=
  ⟨_, chunkBy_eq proj t, runs_isRuns proj t⟩

/-- That determines the chunks. -/
theorem C65_runs_unique (proj : α → κ) {t : List α} {gs hs : List (List α)} (hg : IsRuns proj t gs) (hh : IsRuns proj t hs) : gs = hs := by
  induction gs generalizing t hs with
  | nil =>
    have ht : t = [] := hg.whole.symm
    cases hs with
    | nil => rfl
    | cons h hs =>
      have := hh.whole
      rw [ht, List.flatten_cons, List.append_eq_nil_iff] at this
      exact absurd this.1 (hh.nonempty h (by simp))
  | cons g gs ih =>
    cases hs with
    | nil =>
      have := hg.whole
      rw [← hh.whole, List.flatten_cons, List.flatten_nil, List.append_eq_nil_iff] at this
      exact absurd this.1 (hg.nonempty g (by simp))
    | cons h hs =>
      have tailRuns : ∀ {g : List α} {gs t}, IsRuns proj t (g :: gs) → IsRuns proj gs.flatten gs := fun {g gs t} hg =>
        ⟨rfl, fun k hk => hg.nonempty k (by simp [hk]), fun k hk => hg.same k (by simp [hk]),
          fun pre a b post e => hg.differ (g :: pre) a b post (by rw [e]; rfl)⟩
      have key : ∀ {g h : List α} {gs hs : List (List α)}, IsRuns proj t (g :: gs) → IsRuns proj t (h :: hs) → ∀ m, g ++ m = h → m = [] := by
        intro g h gs hs hg hh m hm
        cases m with
        | nil => rfl
        | cons z zs =>
          exfalso
          have e : gs.flatten = z :: zs ++ hs.flatten := by
            have h1 := hg.whole
            have h2 := hh.whole
            rw [List.flatten_cons] at h1 h2
            rw [← hm, ← h1, List.append_assoc] at h2
            exact (List.append_cancel_left h2).symm
          cases gs with
          | nil => simp at e
          | cons k ks =>
            have hk : k ≠ [] := hg.nonempty k (by simp)
            obtain ⟨w, ws, rfl⟩ := List.exists_cons_of_ne_nil hk
            have hg0 : g ≠ [] := hg.nonempty g (by simp)
            obtain ⟨u, us, rfl⟩ := List.exists_cons_of_ne_nil hg0
            rw [List.flatten_cons, List.cons_append, List.cons_append] at e
            injection e with e1 _
            refine hg.differ [] (u :: us) (w :: ws) ks rfl u (by simp) w (by simp) ?_
            rw [e1]
            exact hh.same h (by simp) u (by rw [← hm]; simp) z (by rw [← hm]; simp)
      have hgh : g = h := by
        have e : g ++ gs.flatten = h ++ hs.flatten := by
          rw [← List.flatten_cons, ← List.flatten_cons, hg.whole, hh.whole]
        rcases List.append_eq_append_iff.mp e with ⟨m, hm, _⟩ | ⟨m, hm, _⟩
        · have := key hg hh m hm.symm; rw [this, List.append_nil] at hm; exact hm.symm
        · have := key hh hg m hm.symm; rw [this, List.append_nil] at hm; exact hm
      subst hgh
      have hf : gs.flatten = hs.flatten := by
        have h1 := hg.whole
        rw [← hh.whole, List.flatten_cons, List.flatten_cons] at h1
        exact List.append_cancel_left h1
      rw [ih (tailRuns hg) (hf ▸ tailRuns hh)]

example : chunkBy (fun n : Nat => n / 10) [11, 12, 25, 13] = .ok [[11, 12], [25], [13]] := by decide

/-! ## C66 -/

/-- The comparison of names is a strict total order (as `operator<` of `std::string_view` is). -/
structure StrictTotal (lt : ν → ν → Prop) : Prop where
  irrefl : ∀ x, ¬ lt x x
  trans : ∀ x y z, lt x y → lt y z → lt x z
  total : ∀ x y, ¬ lt x y → ¬ lt y x → x = y

example : StrictTotal (fun x y : Nat => x < y) := ⟨fun _ => Nat.lt_irrefl _, fun _ _ _ => Nat.lt_trans, by omega⟩

theorem sorted_elems {lt : ν → ν → Prop} {name : α → ν} {t : List α} {idx : List Nat} (h : SortedIndices lt name t idx) :
    ∃ s : List α, s.length = idx.length ∧ idx.length = t.length ∧ s.Perm t ∧ s.Pairwise (fun x y => ¬ lt (name y) (name x)) ∧
      ∀ i (hi : i < s.length), ∃ k, idx[i]? = some k ∧ t[k]? = some s[i] := by
  obtain ⟨a, hp, hs, rfl⟩ := h
  have hv : ∀ p ∈ a, ∃ x, t[p.2]? = some x ∧ name x = p.1 := by
    intro p hpa
    obtain ⟨e, he, rfl⟩ := List.mem_map.mp (hp.mem_iff.mp hpa)
    exact ⟨e.1, List.mem_zipIdx_iff_getElem?.mp he, rfl⟩
  have hlen : a.length = t.length := by rw [hp.length_eq]; simp
  let f : ν × Nat → Option α := fun p => t[p.2]?
  have hsome : ∀ b : List (ν × Nat), (∀ p ∈ b, ∃ x, t[p.2]? = some x ∧ name x = p.1) →
      ∃ s : List α, s.map some = b.map f ∧ s.map name = b.map Prod.fst := by
    intro b
    induction b with
    | nil => intro _; exact ⟨[], rfl, rfl⟩
    | cons p b ih =>
      intro h
      obtain ⟨s, h1, h2⟩ := ih fun q hq => h q (by simp [hq])
      obtain ⟨x, hx, hn⟩ := h p (by simp)
      exact ⟨x :: s, by simp [h1, f, hx], by simp [h2, hn]⟩
  obtain ⟨s, h1, h2⟩ := hsome a hv
  have hl : s.length = a.length := by have := congrArg List.length h1; simpa using this
  refine ⟨s, by simpa using hl, by simpa using hlen, ?_, ?_, ?_⟩
  · have hpm : (a.map f).Perm ((t.zipIdx.map fun e => (name e.1, e.2)).map f) := hp.map f
    have ht : (t.zipIdx.map fun e => (name e.1, e.2)).map f = t.map some := by
      apply List.ext_getElem
      · simp
      · intro i h1 h2
        simp [f]
    rw [ht, ← h1] at hpm
    have := hpm.filterMap id
    simpa [List.filterMap_map] using this
  · have : (s.map name).Pairwise (fun x y => ¬ lt y x) := by
      rw [h2]; exact List.pairwise_map.mpr hs
    exact List.pairwise_map.mp this
  · intro i hi
    have hia : i < a.length := by omega
    refine ⟨a[i].2, by simp [hia], ?_⟩
    have := congrArg (fun l => l[i]?) h1
    simp only [List.getElem?_map, List.getElem?_eq_getElem hi, List.getElem?_eq_getElem hia, Option.map_some, Option.some.injEq, f] at this
    exact this.symm

theorem sorted_get {t s : List α} {idx : List Nat} (h : ∀ i (hi : i < s.length), ∃ k, idx[i]? = some k ∧ t[k]? = some s[i])
    (i : Nat) (hi : i < s.length) : (arrGet idx i >>= fun k => get t k) = .ok s[i] := by
  obtain ⟨k, h1, h2⟩ := h i hi
  rw [arrGet_ok.mpr h1, Outcome.ok_bind]
  exact arrGet_ok.mpr h2

/-- **C66, sort.** Whatever order the sort gives to equal names, the result is a permutation of the tuple in which no
later name is less than an earlier one. -/
theorem C66_sort {lt : ν → ν → Prop} {name : α → ν} {t : List α} {idx : List Nat} (h : SortedIndices lt name t idx) :
    ∃ s, sortBy idx t = .ok s ∧ s.Perm t ∧ s.Pairwise fun x y => ¬ lt (name y) (name x) := by
  obtain ⟨s, h1, h2, hp, hs, hg⟩ := sorted_elems h
  refine ⟨s, ?_, hp, hs⟩
  unfold sortBy
  apply mapO_range
  · omega
  · intro i hi; exact sorted_get hg i hi

/-- `gather_by` is `chunk_by` of the sorted tuple. -/
theorem gatherBy_eq [DecidableEq κ] (proj : α → κ) {lt : ν → ν → Prop} {name : α → ν} {t : List α} {idx : List Nat} (h : SortedIndices lt name t idx) :
    ∃ s, sortBy idx t = .ok s ∧ s.Perm t ∧ s.Pairwise (fun x y => ¬ lt (name y) (name x)) ∧ gatherBy proj idx t = .ok (runs proj s) := by
  obtain ⟨s, h1, h2, hp, hs, hg⟩ := sorted_elems h
  have hsort : sortBy idx t = .ok s := by
    unfold sortBy
    apply mapO_range
    · omega
    · intro i hi; exact sorted_get hg i hi
  refine ⟨s, hsort, hp, hs, ?_⟩
  unfold gatherBy
  match s, h1, hp, hg with
  | [], h1, hp, hg => rw [if_pos (by simp at h1; omega)]; rfl
  | [x], h1, hp, hg =>
    have ht : t = [x] := List.perm_singleton.mp hp.symm
    rw [if_neg (by simp [ht]), if_pos (by simp [ht]), ht]; rfl
  | x :: y :: zs, h1, hp, hg =>
    have hlen : t.length = zs.length + 2 := by rw [← h2, ← h1]; rfl
    rw [if_neg (by omega), if_neg (by omega)]
    have htests : mapO (fun i => do
        let x ← arrGet idx i
        let y ← arrGet idx (i + 1)
        testPair proj t x y) (List.range (t.length - 1)) = .ok (tests proj x (y :: zs)) := by
      apply mapO_range
      · rw [tests_length, List.length_cons]; omega
      · intro i hi
        have hi' := hi
        rw [tests_length, List.length_cons] at hi'
        obtain ⟨k1, a1, b1⟩ := hg i (by simp; omega)
        obtain ⟨k2, a2, b2⟩ := hg (i + 1) (by simp; omega)
        rw [arrGet_ok.mpr a1, Outcome.ok_bind, arrGet_ok.mpr a2, Outcome.ok_bind, ← tests_get proj x (y :: zs) i hi]
        unfold testPair get
        rw [arrGet_ok.mpr b1, arrGet_ok.mpr b2,
          arrGet_ok.mpr (List.getElem?_eq_getElem (l := x :: y :: zs) (i := i) (by simp; omega)),
          arrGet_ok.mpr (List.getElem?_eq_getElem (l := x :: y :: zs) (i := i + 1) (by simp; omega))]
    rw [htests, Outcome.ok_bind, createChunks_eq (tests proj x (y :: zs)) _ (by rw [tests_length, List.length_cons]; omega)
      (fun j hj => arrGet_ok.mpr (List.getElem?_eq_getElem hj)), Outcome.ok_bind,
      mapO_index (f := fun c : Chunk => mapO (fun j => do
        let k ← arrGet idx (c.offset + j)
        get t k) (List.range c.size))]
    exact extract_eq (x :: y :: zs) (G := fun i => arrGet idx i >>= fun k => get t k) (fun i z hz => by
      obtain ⟨hi, rfl⟩ := List.getElem?_eq_some_iff.mp hz
      exact sorted_get hg i hi) (tests proj x (y :: zs)) [] [x] (y :: zs) rfl (by rw [tests_length])

/-- In a sorted list the runs are in strictly increasing order, so no key occurs in two of them. -/
theorem runs_increasing {lt : ν → ν → Prop} (hlt : StrictTotal lt) (proj : α → κ) (name : κ → ν) {s : List α} {gs : List (List α)}
    (hr : IsRuns proj s gs) (hs : s.Pairwise fun x y => ¬ lt (name (proj y)) (name (proj x)))
    (hinj : ∀ x ∈ s, ∀ y ∈ s, name (proj x) = name (proj y) → proj x = proj y) :
    gs.Pairwise fun g h => ∀ x ∈ g, ∀ y ∈ h, lt (name (proj x)) (name (proj y)) := by
  induction gs generalizing s with
  | nil => exact List.Pairwise.nil
  | cons g gs ih =>
    have hw := hr.whole
    rw [List.flatten_cons] at hw
    have htail : IsRuns proj gs.flatten gs :=
      ⟨rfl, fun k hk => hr.nonempty k (by simp [hk]), fun k hk => hr.same k (by simp [hk]),
        fun pre a b post e => hr.differ (g :: pre) a b post (by rw [e]; rfl)⟩
    rw [← hw, List.pairwise_append] at hs
    have hrec := ih htail hs.2.1 (fun x hx y hy => hinj x (by rw [← hw]; simp only [List.mem_append]; exact .inr hx)
      y (by rw [← hw]; simp only [List.mem_append]; exact .inr hy))
    refine List.pairwise_cons.mpr ⟨?_, hrec⟩
    cases gs with
    | nil => intro h hh; simp at hh
    | cons k ks =>
      have hk : ∀ x ∈ g, ∀ y ∈ k, lt (name (proj x)) (name (proj y)) := by
        intro x hx y hy
        have hyf : y ∈ (k :: ks).flatten := by rw [List.flatten_cons, List.mem_append]; exact .inl hy
        have hne := hr.differ [] g k ks rfl x hx y hy
        have hnl := hs.2.2 x hx y hyf
        apply Classical.byContradiction
        intro hc
        exact hne (hinj x (by rw [← hw]; simp only [List.mem_append]; exact .inl hx)
          y (by rw [← hw]; simp only [List.mem_append]; exact .inr hyf) (hlt.total _ _ hc hnl))
      intro h hh x hx y hy
      rcases List.mem_cons.mp hh with hh | hh
      · subst hh; exact hk x hx y hy
      · obtain ⟨z, zs, hz⟩ := List.exists_cons_of_ne_nil (hr.nonempty k (by simp))
        have hzk : z ∈ k := by rw [hz]; simp
        exact hlt.trans _ _ _ (hk x hx z hzk) ((List.pairwise_cons.mp hrec).1 h hh z hzk y hy)

/-- **C66, gather_by.** Provided distinct keys have distinct names, the groups partition the elements (as a
permutation), no group is empty, keys agree inside a group, and the groups are in strictly increasing order of names:
one group for each key.  Whatever order the sort gives to equal names. -/
theorem C66_gather_by [DecidableEq κ] {lt : ν → ν → Prop} (hlt : StrictTotal lt) (proj : α → κ) (name : κ → ν) {t : List α} {idx : List Nat}
    (h : SortedIndices lt (fun x => name (proj x)) t idx)
    (hinj : ∀ x ∈ t, ∀ y ∈ t, name (proj x) = name (proj y) → proj x = proj y) :
    ∃ gs, gatherBy proj idx t = .ok gs ∧ gs.flatten.Perm t ∧ (∀ g ∈ gs, g ≠ []) ∧
      (∀ g ∈ gs, ∀ x ∈ g, ∀ y ∈ g, proj x = proj y) ∧
      gs.Pairwise (fun g h => ∀ x ∈ g, ∀ y ∈ h, lt (name (proj x)) (name (proj y))) := by
  obtain ⟨s, _, hp, hs, hg⟩ := gatherBy_eq proj h
  have hr := runs_isRuns proj s
  exact ⟨_, hg, by rw [hr.whole]; exact hp, hr.nonempty, hr.same,
    runs_increasing hlt proj name hr hs fun x hx y hy => hinj x (hp.mem_iff.mp hx) y (hp.mem_iff.mp hy)⟩

/-- **C66, one group per key.** Every element is in exactly one group, the one with all elements of its key. -/
theorem C66_gather_by_groups [DecidableEq κ] {lt : ν → ν → Prop} (hlt : StrictTotal lt) (proj : α → κ) (name : κ → ν) {t : List α}
    {idx : List Nat} (h : SortedIndices lt (fun x => name (proj x)) t idx)
    (hinj : ∀ x ∈ t, ∀ y ∈ t, name (proj x) = name (proj y) → proj x = proj y) :
    ∃ gs, gatherBy proj idx t = .ok gs ∧
      ∀ k, k ∈ t.map proj → ∃ pre g post, gs = pre ++ g :: post ∧ g.Perm (t.filter fun x => proj x = k) ∧
        ∀ x ∈ (pre ++ post).flatten, proj x ≠ k := by
  obtain ⟨gs, hg, hp, hne, hsame, hinc⟩ := C66_gather_by hlt proj name h hinj
  refine ⟨gs, hg, ?_⟩
  intro k hk
  obtain ⟨x, hx, hxk⟩ := List.mem_map.mp hk
  obtain ⟨g, hgm, hxg⟩ := List.mem_flatten.mp (hp.mem_iff.mpr hx)
  obtain ⟨pre, post, he⟩ := List.append_of_mem hgm
  have hothers : ∀ y ∈ (pre ++ post).flatten, proj y ≠ k := by
    intro y hy hyk
    rw [he, List.pairwise_append] at hinc
    rw [List.flatten_append, List.mem_append] at hy
    have e : name (proj x) = name (proj y) := by rw [hxk, hyk]
    rcases hy with hy | hy
    · obtain ⟨g', hg', hy⟩ := List.mem_flatten.mp hy
      have := hinc.2.2 g' hg' g (by simp) y hy x hxg
      rw [e] at this; exact hlt.irrefl _ this
    · obtain ⟨g', hg', hy⟩ := List.mem_flatten.mp hy
      have := (List.pairwise_cons.mp hinc.2.1).1 g' hg' x hxg y hy
      rw [e] at this; exact hlt.irrefl _ this
  refine ⟨pre, g, post, he, ?_, hothers⟩
  have hf := hp.filter (fun x => decide (proj x = k))
  rw [he, List.flatten_append, List.flatten_cons, List.filter_append, List.filter_append] at hf
  have h1 : pre.flatten.filter (fun x => decide (proj x = k)) = [] :=
    List.filter_eq_nil_iff.mpr fun y hy => by simpa using hothers y (by rw [List.flatten_append, List.mem_append]; exact .inl hy)
  have h2 : post.flatten.filter (fun x => decide (proj x = k)) = [] :=
    List.filter_eq_nil_iff.mpr fun y hy => by simpa using hothers y (by rw [List.flatten_append, List.mem_append]; exact .inr hy)
  have h3 : g.filter (fun x => decide (proj x = k)) = g :=
    List.filter_eq_self.mpr fun y hy => by simpa [hxk] using hsame g hgm y hy x hxg
  rw [h1, h2, h3] at hf
  simpa using hf

/-- A sort of `[(3, a), (1, b), (3, c), (2, d)]` by the number that swaps the two threes. -/
example : SortedIndices (fun x y : Nat => x < y) Prod.fst [(3, 'a'), (1, 'b'), (3, 'c'), (2, 'd')] [1, 3, 2, 0] :=
  ⟨[(1, 1), (2, 3), (3, 2), (3, 0)], by decide, by decide, rfl⟩

example : gatherBy Prod.fst [1, 3, 2, 0] [(3, 'a'), (1, 'b'), (3, 'c'), (2, 'd')] =
    .ok [[(1, 'b')], [(2, 'd')], [(3, 'c'), (3, 'a')]] := by decide

/-- Without distinct names the groups need not be one per key: keys `0` and `1` with one name, sorted as they stand,
give the key `0` two groups. -/
theorem C66_equal_names_violated (name : Nat → ν) (lt : ν → ν → Prop) (hirr : ∀ x, ¬ lt x x) (h01 : name 0 = name 1) :
    ∃ idx, SortedIndices lt (fun x => name (id x)) [0, 1, 0] idx ∧ gatherBy id idx [0, 1, 0] = .ok [[0], [1], [0]] := by
  refine ⟨[0, 1, 2], ⟨[(name 0, 0), (name 1, 1), (name 0, 2)], .refl _, ?_, rfl⟩, by decide⟩
  simp [h01, hirr]

/-! ## C68 -/

/-- Keeping the elements whose key differs from that of the element before. -/
def dropRepeats [DecidableEq κ] (ty : α → κ) : Option κ → List α → List α
  | _, [] => []
  | p, x :: xs => if p = some (ty x) then dropRepeats ty p xs else x :: dropRepeats ty (some (ty x)) xs

theorem cut_heads [DecidableEq κ] (ty : α → κ) (xs cur : List α) (c x : α) (hx : ty c = ty x) :
    mapO (fun g => get g 0) (cut (c :: cur) (tests ty x xs) xs) = .ok (c :: dropRepeats ty (some (ty x)) xs) := by
  induction xs generalizing c cur x with
  | nil => rfl
  | cons y ys ih =>
    rw [tests, dropRepeats]
    by_cases h : ty x = ty y
    · rw [decide_eq_true h, cut, List.cons_append, ih _ c y (by rw [hx, h]), if_pos (by rw [h]), h]
    · rw [decide_eq_false h, cut, mapO, ih [] y y rfl, if_neg (by simpa using h)]
      rfl

theorem unique_eq [DecidableEq κ] (ty : α → κ) (t : List α) : unique ty t = .ok (dropRepeats ty none t) := by
  unfold unique
  rw [chunkBy_eq, Outcome.ok_bind]
  cases t with
  | nil => rfl
  | cons x xs => rw [runs, cut_heads ty xs [] x x rfl, dropRepeats, if_neg (by simp)]

/-- **C68, unique.** Of each maximal run of one type `unique` keeps the first element: the element at each place is kept
exactly when it is the first or its type differs from the element before it. -/
theorem C68_unique [DecidableEq κ] (ty : α → κ) (t : List α) :
    unique ty t = .ok (dropRepeats ty none t) ∧
    ∀ gs, IsRuns ty t gs → ∃ r, unique ty t = .ok r ∧ r.map some = gs.map List.head? := by
  refine ⟨unique_eq ty t, ?_⟩
  intro gs hgs
  have hu : gs = runs ty t := C65_runs_unique ty hgs (runs_isRuns ty t)
  refine ⟨_, unique_eq ty t, ?_⟩
  have h : mapO (fun g => get g 0) gs = .ok (dropRepeats ty none t) := by
    have := unique_eq ty t
    unfold unique at this
    rw [chunkBy_eq, Outcome.ok_bind, ← hu] at this
    exact this
  have key : ∀ (gs : List (List α)) (r : List α), mapO (fun g => get g 0) gs = .ok r → r.map some = gs.map List.head? := by
    intro gs
    induction gs with
    | nil => intro r h; injection h with h; rw [← h]; rfl
    | cons g gs ih =>
      intro r h
      rw [mapO, Outcome.bind_eq_ok] at h
      obtain ⟨x, h1, h⟩ := h
      rw [Outcome.bind_eq_ok] at h
      obtain ⟨xs, h2, h⟩ := h
      injection h with h
      rw [← h, List.map_cons, List.map_cons, ih xs h2]
      unfold get at h1
      rw [arrGet_ok] at h1
      rw [List.head?_eq_getElem?, h1]
  exact key gs _ h

theorem dropRepeats_sublist [DecidableEq κ] (ty : α → κ) (p : Option κ) (t : List α) : (dropRepeats ty p t).Sublist t := by
  induction t generalizing p with
  | nil => exact .slnil
  | cons x xs ih =>
    rw [dropRepeats]
    split
    · exact (ih p).cons x
    · exact (ih _).cons₂ x

theorem dropRepeats_cover [DecidableEq κ] (ty : α → κ) (p : Option κ) (t : List α) (k : κ) (hk : k ∈ t.map ty) :
    p = some k ∨ k ∈ (dropRepeats ty p t).map ty := by
  induction t generalizing p with
  | nil => simp at hk
  | cons x xs ih =>
    rw [dropRepeats]
    rw [List.map_cons, List.mem_cons] at hk
    split
    · rename_i h
      rcases hk with hk | hk
      · left; rw [h, hk]
      · exact ih p hk
    · right
      rw [List.map_cons, List.mem_cons]
      rcases hk with hk | hk
      · exact .inl hk
      · rcases ih (some (ty x)) hk with h | h
        · injection h with h; exact .inl h.symm
        · exact .inr h

theorem dropRepeats_sorted [DecidableEq κ] {lt : ν → ν → Prop} (hlt : StrictTotal lt) (ty : α → κ) (name : κ → ν) (p : Option κ) (t : List α)
    (hs : t.Pairwise fun x y => ¬ lt (name (ty y)) (name (ty x))) {S : List κ} (hS : ∀ x ∈ t, ty x ∈ S) (hpS : ∀ k, p = some k → k ∈ S)
    (hinj : ∀ x ∈ S, ∀ y ∈ S, name x = name y → x = y) (hp : ∀ k, p = some k → ∀ x ∈ t, ¬ lt (name (ty x)) (name k)) :
    (dropRepeats ty p t).Pairwise (fun x y => lt (name (ty x)) (name (ty y))) ∧
    ∀ k, p = some k → ∀ x ∈ dropRepeats ty p t, lt (name k) (name (ty x)) := by
  induction t generalizing p with
  | nil => exact ⟨.nil, by intro _ _ x hx; simp [dropRepeats] at hx⟩
  | cons x xs ih =>
    rw [List.pairwise_cons] at hs
    rw [dropRepeats]
    split
    · exact ih p hs.2 (fun y hy => hS y (by simp [hy])) hpS fun k hk y hy => hp k hk y (by simp [hy])
    · rename_i hne
      have hrec := ih (some (ty x)) hs.2 (fun y hy => hS y (by simp [hy]))
        (fun k hk => by injection hk with hk; subst hk; exact hS x (by simp)) fun k hk y hy => by
        injection hk with hk; subst hk; exact hs.1 y hy
      refine ⟨List.pairwise_cons.mpr ⟨fun y hy => hrec.2 (ty x) rfl y hy, hrec.1⟩, ?_⟩
      intro k hk y hy
      have hkx : lt (name k) (name (ty x)) := by
        apply Classical.byContradiction
        intro hc
        exact hne (by rw [hk, hinj _ (hpS k hk) _ (hS x (by simp)) (hlt.total _ _ hc (hp k hk x (by simp)))])
      rcases List.mem_cons.mp hy with hy | hy
      · rw [hy]; exact hkx
      · exact hlt.trans _ _ _ hkx (hrec.2 (ty x) rfl y hy)

/-- **C68, to_sorted_set, partial.** The elements are from the tuple, every type is there exactly once, in strictly increasing
order of names; for every order the sort may give to equal names, provided different types of the tuple have different
names.  Missing: different types with one name, such as closure types or local classes, `C68_equal_names_violated`. -/
theorem C68_to_sorted_set_partial [DecidableEq κ] {lt : ν → ν → Prop} (hlt : StrictTotal lt) (ty : α → κ) (name : κ → ν)
    {t : List α} (hinj : ∀ x ∈ t, ∀ y ∈ t, name (ty x) = name (ty y) → ty x = ty y) {idx : List Nat}
    (h : SortedIndices lt (fun x => name (ty x)) t idx) :
    ∃ r, toSortedSet ty idx t = .ok r ∧ (∀ x ∈ r, x ∈ t) ∧ (∀ k, k ∈ t.map ty ↔ k ∈ r.map ty) ∧
      r.Pairwise (fun x y => lt (name (ty x)) (name (ty y))) ∧ (r.map ty).Nodup := by
  obtain ⟨s, hsort, hp, hs⟩ := C66_sort h
  have hsub := dropRepeats_sublist ty none s
  have hinj' : ∀ x ∈ t.map ty, ∀ y ∈ t.map ty, name x = name y → x = y := by
    intro a ha b hb
    obtain ⟨x, hx, rfl⟩ := List.mem_map.mp ha
    obtain ⟨y, hy, rfl⟩ := List.mem_map.mp hb
    exact hinj x hx y hy
  have hpw := (dropRepeats_sorted hlt ty name none s hs
    (fun x hx => List.mem_map.mpr ⟨x, hp.mem_iff.mp hx, rfl⟩) (by simp) hinj' (by simp)).1
  refine ⟨dropRepeats ty none s, ?_, fun x hx => hp.mem_iff.mp (hsub.subset hx), ?_, hpw, ?_⟩
  · unfold toSortedSet; rw [hsort, Outcome.ok_bind, unique_eq]
  · intro k
    constructor
    · intro hk
      have hk' : k ∈ s.map ty := ((hp.map ty).mem_iff).mpr hk
      rcases dropRepeats_cover ty none s k hk' with h | h
      · cases h
      · exact h
    · intro hk
      exact ((hp.map ty).mem_iff).mp ((hsub.map ty).subset hk)
  · rw [List.Nodup, List.pairwise_map]
    exact hpw.imp fun {a b} hab he => by rw [he] at hab; exact hlt.irrefl _ hab

/-- **C68 is false for types with one name**, such as the closure types of two lambda expressions of one function, or two
local classes of one name: a type of the tuple on both sides of another one is there twice, if the sort keeps them as they
stand. -/
theorem C68_equal_names_violated [DecidableEq κ] {lt : ν → ν → Prop} (hirr : ∀ x, ¬ lt x x) (ty : α → κ) (name : κ → ν)
    (x y z : α) (hxz : ty x = ty z) (hxy : ty x ≠ ty y) (hn : name (ty x) = name (ty y)) :
    ∃ idx, SortedIndices lt (fun e => name (ty e)) [x, y, z] idx ∧ toSortedSet ty idx [x, y, z] = .ok [x, y, z] ∧
      ¬ ([x, y, z].map ty).Nodup := by
  refine ⟨[0, 1, 2], ⟨[(name (ty x), 0), (name (ty y), 1), (name (ty z), 2)], .refl _, ?_, rfl⟩, ?_, ?_⟩
  · simp [← hxz, ← hn, hirr]
  · have e : sortBy [0, 1, 2] [x, y, z] = .ok [x, y, z] := rfl
    have hyz : ty y ≠ ty z := hxz ▸ hxy.symm
    unfold toSortedSet
    rw [e, Outcome.ok_bind, unique_eq]
    simp [dropRepeats, hxy, hyz]
  · simp [hxz]

example : ∃ (ty : Nat → Nat) (name : Nat → Nat), ty 0 = ty 2 ∧ ty 0 ≠ ty 1 ∧ name (ty 0) = name (ty 1) :=
  ⟨(· % 2), fun _ => 5, rfl, by decide, rfl⟩

/-! ### `to_unsorted_set` -/

theorem mpUnique_mem [DecidableEq κ] (ks : List κ) (k : κ) : k ∈ mpUnique ks ↔ k ∈ ks := by
  induction ks with
  | nil => simp [mpUnique]
  | cons x xs ih =>
    rw [mpUnique, List.mem_cons, List.mem_cons, List.mem_filter, ih]
    by_cases h : k = x <;> simp [h]

/-- Keeping the elements whose type has not been seen. -/
def firsts [DecidableEq κ] (ty : α → κ) : List κ → List α → List α
  | _, [] => []
  | seen, x :: xs => if ty x ∈ seen then firsts ty seen xs else x :: firsts ty (ty x :: seen) xs

theorem firsts_types [DecidableEq κ] (ty : α → κ) (seen : List κ) (t : List α) :
    (firsts ty seen t).map ty = (mpUnique (t.map ty)).filter (fun k => k ∉ seen) := by
  induction t generalizing seen with
  | nil => rfl
  | cons x xs ih =>
    rw [firsts, List.map_cons, mpUnique, List.filter_cons, List.filter_filter]
    by_cases h : ty x ∈ seen
    · rw [if_pos h, if_neg (by simpa using h), ih]
      apply List.filter_congr
      intro k _
      by_cases hk : k = ty x
      · simp [hk, h]
      · simp [hk]
    · rw [if_neg h, if_pos (by simpa using h), List.map_cons, ih]
      congr 1
      apply List.filter_congr
      intro k _
      by_cases hk : k = ty x <;> simp [hk]

theorem firsts_find [DecidableEq κ] (ty : α → κ) (seen : List κ) (t : List α) :
    ∀ x ∈ firsts ty seen t, t[mpFind (t.map ty) (ty x)]? = some x := by
  induction t generalizing seen with
  | nil => intro x hx; simp [firsts] at hx
  | cons y ys ih =>
    intro x hx
    rw [firsts] at hx
    unfold mpFind at *
    rw [List.map_cons, List.findIdx_cons]
    have hmem : ∀ seen', x ∈ firsts ty seen' ys → ty x ∉ seen' := by
      intro seen' hx
      have : ty x ∈ (firsts ty seen' ys).map ty := List.mem_map.mpr ⟨x, hx, rfl⟩
      rw [firsts_types, List.mem_filter] at this
      simpa using this.2
    split at hx
    · rename_i h
      have hne : ¬ ty y = ty x := fun e => hmem seen hx (e ▸ h)
      simp only [hne, decide_false, cond_false]
      exact ih seen x hx
    · rcases List.mem_cons.mp hx with hx | hx
      · subst hx; simp
      · have hne : ¬ ty y = ty x := fun e => hmem _ hx (by rw [← e]; simp)
        simp only [hne, decide_false, cond_false]
        exact ih _ x hx

/-- **C68, to_unsorted_set.** Of each type the first element is kept, in order.  For a tuple whose template arguments are the types of its elements (missing: indexed_tuple, where it fails, `TupleBuild.C68_to_unsorted_set_indexed_violated`). -/
theorem C68_to_unsorted_set_partial [DecidableEq κ] (ty : α → κ) (t : List α) : toUnsortedSet ty t = .ok (firsts ty [] t) := by
  unfold toUnsortedSet
  have hty := firsts_types ty [] t
  simp only [List.not_mem_nil, not_false_eq_true, decide_true] at hty
  rw [List.filter_eq_self.mpr (fun _ _ => rfl)] at hty
  simp only
  rw [← hty]
  apply mapO_range
  · simp
  · intro i hi
    have hg : get ((firsts ty [] t).map ty) i = .ok (ty (firsts ty [] t)[i]) := by
      unfold get; rw [arrGet_ok]; simp [hi]
    rw [hg, Outcome.ok_bind]
    unfold get
    rw [arrGet_ok]
    exact firsts_find ty [] t _ (List.getElem_mem hi)

/-- **C68, to_unsorted_set, as a set.** A subsequence of the tuple with every type of it exactly once, each
represented by its first element. -/
theorem C68_to_unsorted_set_spec_partial [DecidableEq κ] (ty : α → κ) (t : List α) :
    ∃ r, toUnsortedSet ty t = .ok r ∧ r.Sublist t ∧ (r.map ty).Nodup ∧ (∀ k, k ∈ r.map ty ↔ k ∈ t.map ty) ∧
      ∀ x ∈ r, t.find? (fun y => ty y = ty x) = some x := by
  refine ⟨_, C68_to_unsorted_set_partial ty t, ?_, ?_, ?_, ?_⟩
  · have : ∀ seen, (firsts ty seen t).Sublist t := by
      induction t with
      | nil => intro _; exact .slnil
      | cons x xs ih =>
        intro seen
        rw [firsts]
        split
        · exact (ih _).cons x
        · exact (ih _).cons₂ x
    exact this []
  · rw [firsts_types]
    apply List.Nodup.sublist List.filter_sublist
    generalize t.map ty = ks
    induction ks with
    | nil => exact .nil
    | cons k ks ih =>
      rw [mpUnique]
      exact List.nodup_cons.mpr ⟨by simp, ih.sublist List.filter_sublist⟩
  · intro k; rw [firsts_types, List.mem_filter, mpUnique_mem]; simp
  · intro x hx
    have h := firsts_find ty [] t x hx
    clear hx
    induction t with
    | nil => simp at h
    | cons y ys ih =>
      unfold mpFind at *
      rw [List.map_cons, List.findIdx_cons] at h
      rw [List.find?_cons]
      by_cases hy : ty y = ty x
      · simp [hy] at h ⊢; exact h
      · simp only [hy, decide_false, cond_false] at h ⊢
        exact ih h

example : unique (fun n : Nat => n / 10) [11, 12, 25, 13] = .ok [11, 25, 13] := by decide
example : toUnsortedSet (fun n : Nat => n / 10) [11, 25, 12, 26] = .ok [11, 25] := by decide
example : toSortedSet Prod.fst [1, 3, 2, 0] [(3, 'a'), (1, 'b'), (3, 'c'), (2, 'd')] = .ok [(1, 'b'), (2, 'd'), (3, 'c')] := by decide

end Verif.Tuple
