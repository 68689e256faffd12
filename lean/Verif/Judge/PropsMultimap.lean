import Verif.Judge.Props
import Verif.CxMultimap.Props

/-!
# C140, multimaps
-/

namespace Verif.Judge

open Verif.Unwind Verif.Buf
open CxMultimap (MM Cfg)

variable {E W R Q B α κ ν : Type}

theorem Sim.of_eq {res res' : Res E (B × W) R} {pure pure' : Outcome (B × R)} {left : B → Prop} {src : W → E → Prop}
    (h : Sim res pure left src) (h1 : res' = res) (h2 : pure' = pure) : Sim res' pure' left src := by
  rw [h1, h2]; exact h

theorem set_self {l : List α} {i : Nat} {x : α} (h : arrGet l i = .ok x) : arrSet l i x = .ok l := by
  obtain ⟨hi, hx⟩ := List.getElem?_eq_some_iff.mp (arrGet_ok.mp h)
  rw [arrSet_of_lt hi]
  subst hx
  rw [List.set_getElem_self]

theorem onPlace_sim {left : Buf ν → Buf ν → Prop} {src : W → E → Prop} {f : Buf ν × W → Res E (Buf ν × W) R}
    {fp : Buf ν → Outcome (Buf ν × R)} (hf : ∀ t w, Sim (f (t, w)) (fp t) (left t) src) (i : Nat) (s : MM κ ν × W) :
    Sim (onPlace i f s)
      (arrGet s.1.storage i >>= fun e => fp e.2 >>= fun x => arrSet s.1.storage i (e.1, x.1) >>= fun st => .ok (⟨st, s.1.size⟩, x.2))
      (fun b => ∃ e t, arrGet s.1.storage i = .ok e ∧ left e.2 t ∧ arrSet s.1.storage i (e.1, t) = .ok b.storage ∧ b.size = s.1.size)
      src := by
  unfold onPlace
  refine sim_need fun e he => ?_
  have h := hf e.2 s.2
  have hi := (List.getElem?_eq_some_iff.mp (arrGet_ok.mp he)).1
  cases hr : f (e.2, s.2) with
  | ok x r =>
    obtain ⟨t, w⟩ := x
    rw [hr] at h
    have h : fp e.2 = .ok (t, r) := h
    rw [h]
    exact sim_need fun st _ => rfl
  | threw x y =>
    obtain ⟨t, w⟩ := x
    rw [hr] at h
    simp only
    rw [arrSet_of_lt hi]
    exact ⟨⟨e, t, he, h.1, by rw [arrSet_of_lt hi], rfl⟩, h.2⟩
  | ub =>
    rw [hr] at h
    intro x hx
    obtain ⟨y, hy, _⟩ := Outcome.bind_eq_ok.mp hx
    exact h y hy
  | terminated => rw [hr] at h; exact h

theorem left_same {b b' : MM κ ν} {i : Nat}
    (h : ∃ e t, arrGet b.storage i = .ok e ∧ t = e.2 ∧ arrSet b.storage i (e.1, t) = .ok b'.storage ∧ b'.size = b.size) : b' = b := by
  obtain ⟨e, t, he, rfl, h1, h2⟩ := h
  rw [set_self he] at h1
  have := Outcome.ok.inj h1
  cases b; cases b'
  simp_all

/-- A call through the reference `get` gives. -/
def through [BEq κ] (b : MM κ ν) (k : κ) (fp : Buf ν → Outcome (Buf ν × R)) : Outcome (MM κ ν × Nat × R) :=
  Buf.find (fun e => e.1 == k) b >>= fun r => match r with
    | some i => arrGet b.storage i >>= fun e => fp e.2 >>= fun x => arrSet b.storage i (e.1, x.1) >>= fun st => .ok (⟨st, b.size⟩, i, x.2)
    | none => .ub

theorem onSet_eq [BEq κ] [BEq ν] (b : MM κ ν) (k : κ) (o : CxSet.Op ν) :
    CxMultimap.onSet b k o = (through b k (fun t => CxSet.step t o) >>= fun x => .ok (x.1, x.2.2)) := by
  unfold CxMultimap.onSet CxMap.get CxMap.assignGet through
  cases hf : Buf.find (fun e => e.1 == k) b with
  | ub => rfl
  | panic => rfl
  | ok r =>
    cases r with
    | none => rfl
    | some i =>
      simp only [Outcome.ok_bind]
      cases hg : arrGet b.storage i with
      | ub => rfl
      | panic => rfl
      | ok e =>
        simp only [Outcome.ok_bind, Outcome.pure_eq_ok]
        cases CxSet.step e.2 o with
        | ub => rfl
        | panic => rfl
        | ok x =>
          simp only [Outcome.ok_bind]
          cases arrSet b.storage i (e.1, x.1) <;> rfl

section

variable [BEq κ] [BEq ν] {ke : Fn E W (κ × κ) Bool} {ve : Fn E W (ν × ν) Bool}

theorem mapContains_sim {src : W → E → Prop} (hK : Truthful ke) (hs : ∀ w e, From ke w e → src w e) (k : κ) (s : MM κ ν × W) :
    Sim (mapContains ke k s) (CxMap.contains s.1 k >>= fun r => .ok (s.1, r)) (fun b => b = s.1) src := by
  have := ((find_sim hK Prod.fst k s).mono (fun _ h => h) hs).andThen (k := fun s r => .ok s r.isSome) (kp := fun b r => .ok (b, r.isSome))
    (fun b w r _ => sim_ok b w _)
  unfold CxMap.contains
  simp only [bind_assoc', Outcome.ok_bind] at this ⊢
  exact this

theorem mapPut_sim {src : W → E → Prop} (hK : Truthful ke) (hs : ∀ w e, From ke w e → src w e) (k : κ) (v : Buf ν) (s : MM κ ν × W) :
    Sim (mapPut ke k v s) (CxMap.insertOrAssign s.1 k v) (fun b => b = s.1) src := by
  have h := C140_map_step 0 hK (.put k v) s
  simp only [mapStep, CxMap.step] at h
  cases hr : mapPut ke k v s with
  | ok s' r =>
    rw [hr] at h
    have h : (CxMap.insertOrAssign s.1 k v >>= fun x => Outcome.ok (x.1, CxMap.Out.bool (κ := κ) (ν := Buf ν) x.2)) =
      .ok (s'.1, .bool r) := h
    obtain ⟨x, hx, e⟩ := bind_ok_eq (f := fun x : MM κ ν × Bool => (x.1, CxMap.Out.bool x.2)) h
    obtain ⟨x1, x2⟩ := x
    simp only [Prod.mk.injEq, CxMap.Out.bool.injEq] at e
    obtain ⟨rfl, rfl⟩ := e
    exact hx
  | threw s' x => rw [hr] at h; exact ⟨h.1, hs _ _ h.2⟩
  | terminated => rw [hr] at h; exact h
  | ub =>
    rw [hr] at h
    intro x hx
    exact h (x.1, .bool x.2) (by rw [hx]; rfl)

/-- What a call through the reference that throws has left. -/
def Left (b : MM κ ν) (k : κ) (left : Buf ν → Buf ν → Prop) (b' : MM κ ν) : Prop :=
  b' = b ∨ ∃ i e t, Buf.find (fun e => e.1 == k) b = .ok (some i) ∧ arrGet b.storage i = .ok e ∧ left e.2 t ∧
    arrSet b.storage i (e.1, t) = .ok b'.storage ∧ b'.size = b.size

theorem Left.same {b b' : MM κ ν} {k : κ} (h : Left b k (fun t t' => t' = t) b') : b' = b := by
  rcases h with h | ⟨i, e, t, _, h⟩
  · exact h
  · exact left_same ⟨e, t, h⟩

theorem through_sim {src : W → E → Prop} (hK : Truthful ke) (hs : ∀ w e, From ke w e → src w e) {left : Buf ν → Buf ν → Prop}
    {f : Buf ν × W → Res E (Buf ν × W) R} {fp : Buf ν → Outcome (Buf ν × R)} (hf : ∀ t w, Sim (f (t, w)) (fp t) (left t) src)
    (k : κ) (s : MM κ ν × W) :
    Sim ((mapPlace ke k s).andThen fun s i => (onPlace i f s).andThen fun s r => .ok s (i, r)) (through s.1 k fp) (Left s.1 k left) src := by
  have := ((mapPlace_sim hK k s).mono (left' := Left s.1 k left) (src' := src) (fun _ h => .inl h) hs).andThen
    (k := fun s i => (onPlace i f s).andThen fun s r => .ok s (i, r))
    (kp := fun b i => arrGet b.storage i >>= fun e => fp e.2 >>= fun x => arrSet b.storage i (e.1, x.1) >>= fun st =>
      .ok (⟨st, b.size⟩, i, x.2)) (by
      intro b w i hb
      have hbs : b = s.1 ∧ Buf.find (fun e => e.1 == k) s.1 = .ok (some i) := by
        obtain ⟨r, hr, h⟩ := Outcome.bind_eq_ok.mp hb
        cases r with
        | none => cases h
        | some j =>
          have h := Outcome.ok.inj h
          simp only [Prod.mk.injEq] at h
          exact ⟨h.1.symm, by rw [hr, h.2]⟩
      obtain ⟨rfl, hi⟩ := hbs
      have := ((onPlace_sim hf i (s.1, w)).mono (left' := Left s.1 k left) (fun b h => by
        obtain ⟨e, t, h⟩ := h
        exact .inr ⟨i, e, t, hi, h⟩) (fun _ _ h => h)).andThen (k := fun s r => .ok s (i, r)) (kp := fun b r => .ok (b, i, r))
        fun b w _ _ => sim_ok b w _
      simp only [bind_assoc', Outcome.ok_bind] at this
      exact this)
  refine cast (congrArg (fun p => Sim _ p _ _) ?_) this
  unfold through
  simp only [bind_assoc']
  congr 1
  funext r
  cases r <;> rfl

theorem through_drop {src : W → E → Prop} (hK : Truthful ke) (hs : ∀ w e, From ke w e → src w e) {left : Buf ν → Buf ν → Prop}
    {f : Buf ν × W → Res E (Buf ν × W) R} {fp : Buf ν → Outcome (Buf ν × R)} (hf : ∀ t w, Sim (f (t, w)) (fp t) (left t) src)
    (k : κ) (s : MM κ ν × W) :
    Sim ((mapPlace ke k s).andThen fun s i => onPlace i f s) (through s.1 k fp >>= fun x => .ok (x.1, x.2.2)) (Left s.1 k left) src := by
  have := (through_sim hK hs hf k s).andThen (k := fun s r => .ok s r.2) (kp := fun b r => .ok (b, r.2)) fun b w _ _ => sim_ok b w _
  refine cast (congrArg (fun p => Sim p _ _ _) ?_) this
  cases mapPlace ke k s with
  | ok s' i =>
    simp only [andThen_ok]
    cases onPlace i f s' <;> rfl
  | _ => rfl

/-- What an operation that throws may have done. -/
def MMLeft (c : Cfg ν) (b : MM κ ν) (o : CxMultimap.Op κ ν) (b' : MM κ ν) : Prop :=
  b' = b ∨ ∃ o' q, MMPart o o' q ∧ CxMultimap.step c b o' = .ok (b', q)

theorem through_ok {b b' : MM κ ν} {k : κ} {i : Nat} {e : κ × Buf ν} {t : Buf ν} {fp : Buf ν → Outcome (Buf ν × R)} {r : R}
    (hi : Buf.find (fun e => e.1 == k) b = .ok (some i)) (he : arrGet b.storage i = .ok e) (ht : fp e.2 = .ok (t, r))
    (h1 : arrSet b.storage i (e.1, t) = .ok b'.storage) (h2 : b'.size = b.size) : through b k fp = .ok (b', i, r) := by
  unfold through
  rw [hi, Outcome.ok_bind]
  simp only
  rw [he, Outcome.ok_bind, ht, Outcome.ok_bind]
  simp only
  rw [h1, Outcome.ok_bind, ← h2]

theorem contains_found {b : MM κ ν} {k : κ} {c : Bool} (h : CxMap.contains b k = .ok c) :
    ∃ r, Buf.find (fun e => e.1 == k) b = .ok r ∧ r.isSome = c := by
  unfold CxMap.contains at h
  exact bind_ok_eq h

/-- **C140, cx_multimap.** Each operation does what it does with comparisons that return, or throws what a comparison has thrown, and has then
changed nothing, except that a call on a set has done what that call has, and that `erase(k, v)` may have erased the value and left
its key. -/
theorem C140_multimap_step (c : Cfg ν) (hK : Truthful ke) (hV : Truthful ve) (o : CxMultimap.Op κ ν) (s : MM κ ν × W) :
    Sim (mmStep c ke ve o s) (CxMultimap.step c s.1 o) (MMLeft c s.1 o) (fun w e => From ke w e ∨ From ve w e) := by
  have hs : ∀ w e, From ke w e → From ke w e ∨ From ve w e := fun _ _ h => .inl h
  cases o with
  | insert k v =>
    refine Sim.mono (left := fun b => b = s.1) (src := fun w e => From ke w e ∨ From ve w e) ?_ (fun b h => .inl h) (fun _ _ h => h)
    have := ((mapContains_sim hK hs k s).andThen
      (k := fun s b => if b then
          (mapPlace ke k s).andThen fun s i => (onPlace i (setInsert ve v) s).andThen fun s _ => .ok s ()
        else match ofList c.ValueN c.d [v] with
          | some t => (mapPut ke k t s).andThen fun s _ => .ok s ()
          | none => .ub)
      (kp := fun b r => if r then
          (CxMultimap.onSet b k (.insert v) >>= fun x => .ok (x.1, ()))
        else match ofList c.ValueN c.d [v] with
          | some t => CxMap.insertOrAssign b k t >>= fun x => .ok (x.1, ())
          | none => .ub) (by
        intro b w r hb
        obtain ⟨_, _, e⟩ := bind_ok_eq (f := fun r => (s.1, r)) hb
        simp only [Prod.mk.injEq] at e
        obtain ⟨rfl, _⟩ := e
        cases r with
        | true =>
          simp only [if_true]
          have := ((through_sim (left := fun t t' => t' = t) hK hs (f := setInsert ve v) (fp := fun t => CxSet.insert t v)
            (fun t w => (setInsert_sim hV v (t, w)).mono (fun _ h => h) (fun _ _ h => .inr h)) k (s.1, w)).mono
            (left' := fun b => b = s.1) (fun _ h => h.same) (fun _ _ h => h)).andThen (k := fun s _ => .ok s ()) (kp := fun b _ => .ok (b, ()))
            fun b w _ _ => sim_ok b w _
          have e1 : ((mapPlace ke k (s.1, w)).andThen fun s i => (onPlace i (setInsert ve v) s).andThen fun s _ => .ok s ()) =
              (((mapPlace ke k (s.1, w)).andThen fun s i => (onPlace i (setInsert ve v) s).andThen fun s r => .ok s (i, r)).andThen
                fun s _ => Res.ok s ()) := by
            cases mapPlace ke k (s.1, w) with
            | ok s' i =>
              simp only [andThen_ok]
              cases onPlace i (setInsert ve v) s' <;> rfl
            | _ => rfl
          rw [e1]
          refine cast (congrArg (fun p => Sim _ p _ _) ?_) this
          rw [onSet_eq]
          simp only [through, bind_assoc', Outcome.ok_bind]
          congr 1
          funext r
          cases r with
          | none => rfl
          | some i => simp only [bind_assoc', Outcome.ok_bind, CxSet.step, Outcome.pure_eq_ok]
        | false =>
          simp only [Bool.false_eq_true, if_false]
          cases ofList c.ValueN c.d [v] with
          | none => intro x hx; cases hx
          | some t =>
            exact (mapPut_sim hK hs k t (s.1, w)).andThen (k := fun s _ => .ok s ()) (kp := fun b _ => .ok (b, ()))
              fun b w _ _ => sim_ok b w _)).andThen
      (k := fun s _ => .ok s (CxMultimap.Out.unit : CxMultimap.Out κ ν)) (kp := fun b _ => .ok (b, .unit)) fun b w _ _ => sim_ok b w _
    refine cast (congrArg (fun p => Sim _ p _ _) ?_) this
    simp only [CxMultimap.step, CxMultimap.insert, CxMultimap.onSet, bind_assoc', Outcome.ok_bind]
    congr 1
    funext r
    cases r with
    | true =>
      simp only [if_true, bind_assoc', Outcome.ok_bind, CxSet.step, Outcome.pure_eq_ok]
    | false =>
      simp only [Bool.false_eq_true, if_false]
      cases ofList c.ValueN c.d [v] with
      | none => rfl
      | some t => simp only [bind_assoc', Outcome.ok_bind, Outcome.pure_eq_ok]
  | insertKey k =>
    refine Sim.mono (left := fun b => b = s.1) (src := fun w e => From ke w e ∨ From ve w e) ?_ (fun b h => .inl h) (fun _ _ h => h)
    have := ((mapContains_sim hK hs k s).andThen
      (k := fun s b => if b then .ok s () else (mapPut ke k (init c.ValueN c.d) s).andThen fun s _ => .ok s ())
      (kp := fun b r => if r then .ok (b, ()) else CxMap.insertOrAssign b k (init c.ValueN c.d) >>= fun x => .ok (x.1, ())) (by
        intro b w r hb
        obtain ⟨_, _, e⟩ := bind_ok_eq (f := fun r => (s.1, r)) hb
        simp only [Prod.mk.injEq] at e
        obtain ⟨rfl, _⟩ := e
        cases r with
        | true => exact sim_ok _ _ _
        | false =>
          exact (mapPut_sim hK hs k _ (s.1, w)).andThen (k := fun s _ => .ok s ()) (kp := fun b _ => .ok (b, ()))
              fun b w _ _ => sim_ok b w _)).andThen
      (k := fun s _ => .ok s (CxMultimap.Out.unit : CxMultimap.Out κ ν)) (kp := fun b _ => .ok (b, .unit)) fun b w _ _ => sim_ok b w _
    refine cast (congrArg (fun p => Sim _ p _ _) ?_) this
    simp only [CxMultimap.step, CxMultimap.insertKey, bind_assoc', Outcome.ok_bind]
    congr 1
    funext r
    cases r with
    | true => rfl
    | false => simp only [Bool.false_eq_true, if_false, bind_assoc', Outcome.ok_bind, Outcome.pure_eq_ok]
  | eraseKey k =>
    refine Sim.mono (left := fun b => b = s.1) (src := fun w e => From ke w e ∨ From ve w e) ?_ (fun b h => .inl h) (fun _ _ h => h)
    exact ((erase_sim hK Prod.fst k s).mono (fun _ h => h) hs).andThen (k := fun s r => .ok s (CxMultimap.Out.nat r))
      (kp := fun b r => .ok (b, .nat r)) fun b w r _ => sim_ok b w _
  | erase k v =>
    have := (((mapContains_sim hK hs k s).mono (left' := MMLeft c s.1 (.erase k v)) (fun _ h => .inl h) (fun _ _ h => h)).andThen
      (k := fun s b => if b then
          ((mapPlace ke k s).andThen fun s i => (onPlace i (setErase ve v) s).andThen fun s r => .ok s (i, r)).andThen fun s ir =>
          (mapRead s ir.1).andThen fun s t => if t.size = 0 then (mapErase ke k s).andThen fun s _ => .ok s ir.2 else .ok s ir.2
        else .ok s 0)
      (kp := fun b r => if r then
          (through b k (fun t => CxSet.erase t v) >>= fun x => arrGet x.1.storage x.2.1 >>= fun e =>
            if e.2.size = 0 then CxMap.erase x.1 k >>= fun y => .ok (y.1, x.2.2) else .ok (x.1, x.2.2))
        else .ok (b, 0)) (by
        intro b w r hb
        obtain ⟨_, _, e⟩ := bind_ok_eq (f := fun r => (s.1, r)) hb
        simp only [Prod.mk.injEq] at e
        obtain ⟨rfl, _⟩ := e
        cases r with
        | false => exact sim_ok _ _ _
        | true =>
          simp only [if_true]
          refine ((through_sim (left := fun t t' => t' = t) hK hs (f := setErase ve v) (fp := fun t => CxSet.erase t v)
            (fun t w => (erase_sim hV (fun x => x) v (t, w)).mono (fun _ h => h) (fun _ _ h => .inr h)) k (s.1, w)).mono
            (left' := MMLeft c s.1 (.erase k v)) (fun _ h => .inl h.same) (fun _ _ h => h)).andThen
            (kp := fun b x => arrGet b.storage x.1 >>= fun e =>
              if e.2.size = 0 then CxMap.erase b k >>= fun y => .ok (y.1, x.2) else .ok (b, x.2)) ?_
          intro b w ir hb
          unfold mapRead
          have e2 : CxMultimap.step c s.1 (.onSet k (.erase v)) = .ok (b, .fromSet (.nat ir.2)) := by
            simp only [CxMultimap.step, onSet_eq]
            simp only [through, CxSet.step, bind_assoc', Outcome.ok_bind, Outcome.pure_eq_ok] at hb ⊢
            obtain ⟨r, hr, hb⟩ := Outcome.bind_eq_ok.mp hb
            rw [hr, Outcome.ok_bind]
            cases r with
            | none => cases hb
            | some i =>
              simp only at hb ⊢
              obtain ⟨e, he, hb⟩ := Outcome.bind_eq_ok.mp hb
              obtain ⟨x, hx, hb⟩ := Outcome.bind_eq_ok.mp hb
              obtain ⟨st, hst, hb⟩ := Outcome.bind_eq_ok.mp hb
              rw [he, Outcome.ok_bind, hx, Outcome.ok_bind]
              rw [hst, Outcome.ok_bind]
              have := Outcome.ok.inj hb
              simp only [Prod.mk.injEq] at this
              rw [← this.1, ← this.2]
              rfl
          cases hg : arrGet b.storage ir.1 with
          | ub => intro x hx; cases hx
          | panic => intro x hx; cases hx
          | ok e =>
            simp only [need, andThen_ok, Outcome.ok_bind]
            by_cases h0 : e.2.size = 0
            · simp only [h0, if_true]
              refine ((erase_sim hK Prod.fst k (b, w)).mono (left' := MMLeft c s.1 (.erase k v)) (fun b' h => ?_) hs).andThen
                (k := fun s _ => .ok s ir.2) (kp := fun b _ => .ok (b, ir.2)) fun b w _ _ => sim_ok b w _
              subst h
              exact .inr ⟨_, _, .erase k v ir.2, e2⟩
            · simp only [h0, if_false]
              exact sim_ok _ _ _)).andThen
      (k := fun s r => .ok s (CxMultimap.Out.nat r : CxMultimap.Out κ ν)) (kp := fun b r => .ok (b, .nat r)) fun b w _ _ => sim_ok b w _
    refine this.of_eq ?_ ?_
    · simp only [mmStep, mmErase]
      congr 2
      funext s b
      cases b with
      | false => rfl
      | true =>
        simp only [if_true]
        cases mapPlace ke k s with
        | ok s' i =>
          simp only [andThen_ok]
          cases onPlace i (setErase ve v) s' <;> rfl
        | _ => rfl
    · simp only [CxMultimap.step, CxMultimap.erase, bind_assoc', Outcome.ok_bind]
      congr 1
      funext r
      cases r with
      | false => rfl
      | true =>
        simp only [if_true, CxMap.get, CxMap.assignGet, through, bind_assoc', Outcome.ok_bind]
        cases hf : Buf.find (fun e => e.1 == k) s.1 with
        | ub => rfl
        | panic => rfl
        | ok r =>
          cases r with
          | none => rfl
          | some i =>
            simp only [Outcome.ok_bind, bind_assoc', Outcome.pure_eq_ok]
            cases hg : arrGet s.1.storage i with
            | ub => rfl
            | panic => rfl
            | ok e =>
              simp only [Outcome.ok_bind]
              cases CxSet.erase e.2 v with
              | ub => rfl
              | panic => rfl
              | ok x =>
                have hi := (List.getElem?_eq_some_iff.mp (arrGet_ok.mp hg)).1
                simp only [Outcome.ok_bind]
                rw [arrSet_of_lt hi]
                simp only [Outcome.ok_bind]
                have : arrGet (s.1.storage.set i (e.1, x.1)) i = .ok (e.1, x.1) := by
                  rw [arrGet_ok, List.getElem?_set_self hi]
                rw [this, Outcome.ok_bind]
  | clear => rfl
  | containsKey k =>
    refine Sim.mono (left := fun b => b = s.1) (src := fun w e => From ke w e ∨ From ve w e) ?_ (fun b h => .inl h) (fun _ _ h => h)
    have := (mapContains_sim hK hs k s).andThen (k := fun s r => .ok s (CxMultimap.Out.bool r : CxMultimap.Out κ ν))
      (kp := fun b r => .ok (b, .bool r)) fun b w r _ => sim_ok b w _
    simp only [bind_assoc', Outcome.ok_bind] at this
    exact this
  | contains k v =>
    refine Sim.mono (left := fun b => b = s.1) (src := fun w e => From ke w e ∨ From ve w e) ?_ (fun b h => .inl h) (fun _ _ h => h)
    have := ((mapContains_sim hK hs k s).andThen
      (k := fun s b => if b then (mapPlace ke k s).andThen fun s i => onPlace i (setContains ve v) s else .ok s false)
      (kp := fun b r => if r then (through b k (fun t => CxSet.contains t v >>= fun c => .ok (t, c)) >>= fun x => .ok (x.1, x.2.2))
        else .ok (b, false)) (by
        intro b w r hb
        obtain ⟨_, _, e⟩ := bind_ok_eq (f := fun r => (s.1, r)) hb
        simp only [Prod.mk.injEq] at e
        obtain ⟨rfl, _⟩ := e
        cases r with
        | false => exact sim_ok _ _ _
        | true =>
          simp only [if_true]
          exact (through_drop (left := fun t t' => t' = t) hK hs
            (fun t w => (setContains_sim hV v (t, w)).mono (fun _ h => h) (fun _ _ h => .inr h)) k (s.1, w)).mono (fun _ h => h.same)
            (fun _ _ h => h))).andThen
      (k := fun s r => .ok s (CxMultimap.Out.bool r : CxMultimap.Out κ ν)) (kp := fun b r => .ok (b, .bool r)) fun b w _ _ => sim_ok b w _
    refine cast (congrArg (fun p => Sim _ p _ _) ?_) this
    simp only [CxMultimap.step, CxMultimap.contains, bind_assoc', Outcome.ok_bind]
    congr 1
    funext r
    cases r with
    | false => rfl
    | true =>
      simp only [if_true, CxMap.get, through, bind_assoc', Outcome.ok_bind]
      congr 1
      funext r
      cases r with
      | none => rfl
      | some i =>
        simp only [bind_assoc', Outcome.ok_bind, Outcome.pure_eq_ok]
        cases hg : arrGet s.1.storage i with
        | ub => rfl
        | panic => rfl
        | ok e =>
          simp only [Outcome.ok_bind]
          congr 1
          funext c
          have : arrSet s.1.storage i (e.1, e.2) = .ok s.1.storage := set_self hg
          rw [this]
          rfl
  | get k =>
    refine Sim.mono (left := fun b => b = s.1) (src := fun w e => From ke w e ∨ From ve w e) ?_ (fun b h => .inl h) (fun _ _ h => h)
    have := ((mapPlace_sim hK k s).mono (fun _ h => h) hs).andThen
      (k := fun s i => (mapRead s i).andThen fun s t => need (elems t) fun l => .ok s (CxMultimap.Out.set l))
      (kp := fun b i => arrGet b.storage i >>= fun e => elems e.2 >>= fun l => .ok (b, (.set l : CxMultimap.Out κ ν))) (by
        intro b w i _
        unfold mapRead
        cases arrGet b.storage i with
        | ub => intro x hx; cases hx
        | panic => intro x hx; cases hx
        | ok e => exact sim_need fun l _ => rfl)
    refine cast (congrArg (fun p => Sim _ p _ _) ?_) this
    simp only [CxMultimap.step, CxMap.get, bind_assoc']
    congr 1
    funext r
    cases r with
    | none => rfl
    | some i => simp only [bind_assoc', Outcome.ok_bind, Outcome.pure_eq_ok]
  | onSet k o =>
    have := ((through_drop (f := setStep ve o) (fp := fun t => CxSet.step t o) hK hs
      (left := fun t t' => t' = t ∨ ∃ o' q, SetPart o o' q ∧ CxSet.step t o' = .ok (t', q))
      (fun t w => (C140_set_step hV o (t, w)).mono (fun _ h => h) (fun _ _ h => .inr h)) k s).mono
      (left' := MMLeft c s.1 (.onSet k o)) (fun b h => by
        rcases h with h | ⟨i, e, t, hi, he, h | ⟨o', q, hp, hq⟩, h1, h2⟩
        · exact .inl h
        · exact .inl (left_same ⟨e, t, he, h, h1, h2⟩)
        · refine .inr ⟨_, _, .onSet k hp, ?_⟩
          simp only [CxMultimap.step, onSet_eq]
          rw [through_ok (r := q) hi he hq h1 h2]
          rfl) (fun _ _ h => h)).andThen
      (k := fun s r => .ok s (CxMultimap.Out.fromSet r : CxMultimap.Out κ ν)) (kp := fun b r => .ok (b, .fromSet r))
      fun b w _ _ => sim_ok b w _
    refine this.of_eq ?_ ?_
    · simp only [mmStep]
      cases mapPlace ke k s with
      | ok s' i => rfl
      | _ => rfl
    · simp only [CxMultimap.step, onSet_eq]
      rfl
  | size => rfl
  | empty => rfl
  | keys => exact sim_need fun q _ => rfl

theorem mm_run (c : Cfg ν) (b : MM κ ν) (os : List (CxMultimap.Op κ ν)) : runWith (CxMultimap.step c) b os = CxMultimap.run c b os := by
  induction os generalizing b with
  | nil => rfl
  | cons o os ih => unfold runWith CxMultimap.run; simp only [ih]

/-- **C140, histories of multimaps.** A history whose exceptions are caught has the effect and the results of the operations that returned
and of the parts that `MMPart` names. -/
theorem C140_multimap_history (c : Cfg ν) (hK : Truthful ke) (hV : Truthful ve) (os : List (CxMultimap.Op κ ν)) (s s' : MM κ ν × W)
    (rs : List (Option (CxMultimap.Out κ ν))) (h : history (mmStep c ke ve) os s = .ok s' rs) :
    ∃ es qs, Took MMPart os rs es qs ∧ CxMultimap.run c s.1 es = .ok (s'.1, qs) := by
  have := history_sim (C140_multimap_step c hK hV) os s
  rw [h] at this
  simp only [mm_run] at this
  exact this

/-- **C140.** A history of a multimap is undefined only at an operation that would be so with comparisons that return. -/
theorem C140_multimap_undefined (c : Cfg ν) (hK : Truthful ke) (hV : Truthful ve) (os : List (CxMultimap.Op κ ν)) (s : MM κ ν × W)
    (h : ∀ s' rs, history (mmStep c ke ve) os s ≠ .ok s' rs) : history (mmStep c ke ve) os s = .ub ∧
    ∃ pre o post rs es qs b, os = pre ++ o :: post ∧ Took MMPart pre rs es qs ∧ CxMultimap.run c s.1 es = .ok (b, qs) ∧
      ∀ x, CxMultimap.step c b o ≠ .ok x := by
  have := history_sim (C140_multimap_step c hK hV) os s
  cases hh : history (mmStep c ke ve) os s with
  | ok s' rs => exact (h s' rs hh).elim
  | threw s' e => rw [hh] at this; exact this.elim
  | terminated => rw [hh] at this; exact this.elim
  | ub =>
    rw [hh] at this
    simp only [mm_run] at this
    exact ⟨rfl, this⟩

end

/-! ## Not all or nothing -/

/-- A comparison of keys that throws once values have been compared, and one of values that tells it. -/
def keysAfter [BEq κ] : Fn Unit Bool (κ × κ) Bool := fun x w => (w, if w then .error () else .ok (x.1 == x.2))
def valuesTell [BEq ν] : Fn Unit Bool (ν × ν) Bool := fun x _ => (true, .ok (x.1 == x.2))

theorem keysAfter_truthful [BEq κ] : Truthful (keysAfter (κ := κ)) := by
  intro x y w w' c h
  cases w
  · cases h; rfl
  · cases h

theorem valuesTell_truthful [BEq ν] : Truthful (valuesTell (ν := ν)) := by
  intro x y w w' c h
  cases h; rfl

/-- **C140, violated.** `erase(k, v)` of the only value of a key compares keys once more after it has erased the value: if that comparison
throws, the value is gone and the key is left with an empty set, a state no `erase` that returns leaves.  This holds for any key
and value. -/
theorem C140_multimap_erase_violated [BEq κ] [LawfulBEq κ] [BEq ν] [LawfulBEq ν] (c : Cfg ν) (dk : κ × Buf ν) (k : κ) (v : ν)
    (hN : 0 < c.KeyN) (hM : 0 < c.ValueN) : ∃ b b',
    CxMultimap.run c (init c.KeyN dk) [.insert k v] = .ok (b, [.unit]) ∧
    mmStep c keysAfter valuesTell (.erase k v) (b, false) = .threw (b', true) () ∧
    CxMultimap.run c b' [.contains k v, .containsKey k, .size] = .ok (b', [.bool false, .bool true, .nat 1]) ∧
    ∃ b'', CxMultimap.run c b [.erase k v, .contains k v, .containsKey k, .size] = .ok (b'', [.nat 1, .bool false, .bool false, .nat 0]) := by
  obtain ⟨n, hn⟩ := Nat.exists_eq_succ_of_ne_zero (Nat.pos_iff_ne_zero.mp hN)
  obtain ⟨m, hm⟩ := Nat.exists_eq_succ_of_ne_zero (Nat.pos_iff_ne_zero.mp hM)
  refine ⟨⟨(k, ⟨v :: List.replicate m c.d, 1⟩) :: List.replicate n dk, 1⟩, ⟨(k, ⟨v :: List.replicate m c.d, 0⟩) :: List.replicate n dk, 1⟩,
    ?_, ?_, ?_, ⟨(k, ⟨v :: List.replicate m c.d, 0⟩) :: List.replicate n dk, 0⟩, ?_⟩
  · have : ofList c.ValueN c.d [v] = some ⟨v :: List.replicate m c.d, 1⟩ := by
      simp [ofList, hm]
    simp [CxMultimap.run, CxMultimap.step, CxMultimap.insert, CxMap.contains, Buf.find, Buf.scan, init, this, CxMap.insertOrAssign, append, hn,
      List.replicate_succ, arrSet, szInc, szMod]
  · simp [mmStep, mmErase, mapContains, mapPlace, mapFind, find, beside, scan, keysAfter, valuesTell, arrGet, need, call, Res.andThen, onPlace,
      setErase, eraseAt, arrSet, mapRead, mapErase, szDec, szMod]
  · simp [CxMultimap.run, CxMultimap.step, CxMultimap.contains, CxMap.contains, CxMap.get, CxSet.contains, Buf.find, Buf.scan, arrGet]
  · simp [CxMultimap.run, CxMultimap.step, CxMultimap.erase, CxMultimap.contains, CxMap.contains, CxMap.get, CxMap.assignGet, CxMap.erase,
      CxSet.erase, eraseIf, Buf.find, Buf.scan, arrGet, arrSet, szDec, szMod]

/-! ## Cases that meet the hypotheses -/

section examples

/-- Both comparisons count; the one of keys throws if it is asked the sixth comparison. -/
private def keys6 : Fn String Nat (Nat × Nat) Bool := fun x w => (w + 1, if w = 5 then .error "sixth" else .ok (x.1 == x.2))
private def vals : Fn String Nat (Nat × Nat) Bool := fun x w => (w + 1, .ok (x.1 == x.2))

example : Truthful keys6 ∧ Truthful vals := by
  constructor
  · intro x y w w' c h
    simp only [keys6] at h
    split at h <;> cases h
    rfl
  · intro x y w w' c h
    cases h; rfl

example : history (mmStep ⟨2, 2, 0⟩ keys6 vals) [.insert 1 10, .insert 2 20, .erase 1 10, .containsKey 1, .contains 1 10]
      (init 2 (0, init 2 0), 0) =
    .ok (⟨[(1, ⟨[10, 0], 0⟩), (2, ⟨[20, 0], 1⟩)], 2⟩, 9) [some .unit, some .unit, none, some (.bool true), some (.bool false)] := rfl

example : Took MMPart [.insert 1 10, .erase 1 10] [some .unit, none] [.insert 1 10, .onSet 1 (.erase 10)]
    [.unit, (.fromSet (.nat 1) : CxMultimap.Out Nat Nat)] :=
  .returned (.partly (.erase 1 10 1) .nil)

end examples

end Verif.Judge
