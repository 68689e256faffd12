import Verif.CxMultimap.Model

/-!
# Tasks in the order of their dependencies, with a `cx_multimap`

A client's program over /repo/include/stdx/cx_multimap.hpp, cx_map.hpp, cx_set.hpp and cx_vector.hpp: which task waits for which is a
`cx_multimap<T, T, KeyN, ValueN>`, in which every task is a key.  All calls are those of the models of the headers.

```
constexpr auto order(cx_multimap<T, T, KeyN, ValueN> deps) -> std::optional<cx_vector<T, KeyN>> {
    cx_vector<T, KeyN> result{};
    while (not deps.empty()) {
        auto const i = std::find_if(deps.begin(), deps.end(), [](auto const &e) { return e.value.empty(); });
        if (i == deps.end()) { return {}; }
        auto const t = i->key;
        result.push_back(t);
        deps.erase(t);
        for (auto &e : deps) { e.value.erase(t); }
    }
    return result;
}
```
-/

namespace Verif.Depend

open Verif.Buf
open Verif.CxMultimap (Cfg MM)

variable {T : Type} [BEq T]

/-- What the client declares: a task, or a task that waits for another. -/
inductive Cmd (T : Type) where
  | task (t : T)
  | dep (t d : T)

/-- `deps.insert(t)` for a task, `deps.insert(t, d); deps.insert(d)` for a dependency (cx_multimap.hpp:54-65). -/
def declare (c : Cfg T) (b : MM T T) : Cmd T → Outcome (MM T T)
  | .task t => CxMultimap.insertKey c b t
  | .dep t d => do
    let b ← CxMultimap.insert c b t d
    CxMultimap.insertKey c b d

/-- All declarations (cx_multimap.hpp:54-65). -/
def build (c : Cfg T) (b : MM T T) : List (Cmd T) → Outcome (MM T T)
  | [] => .ok b
  | k :: ks => do
    let b ← declare c b k
    build c b ks

/-- The key of the first entry with an empty set (cx_multimap.hpp:28-47, cx_set.hpp:97-99); `none` is `end()`. -/
def ready (b : MM T T) : Outcome (Option T) := do
  match ← find (fun e => e.2.size == 0) b with
  | some i => do
    let e ← arrGet b.storage i
    return some e.1
  | none => return none

/-- `for (auto &e : deps) { e.value.erase(t); }` from entry `i` on (cx_multimap.hpp:28-47, cx_set.hpp:81-89). -/
def release (t : T) (b : MM T T) (i : Nat) : Nat → Outcome (MM T T)
  | 0 => .ok b
  | rem + 1 => do
    let e ← arrGet b.storage i
    let (s, _) ← CxSet.erase e.2 t
    let st ← arrSet b.storage i (e.1, s)
    release t ⟨st, b.size⟩ (i + 1) rem

/-- The loop; `fuel` bounds it, and running out of it stands for a loop that does not end
(cx_multimap.hpp:70-72, 94-96; cx_vector.hpp:130-136). -/
def loop : Nat → MM T T → Buf T → Outcome (Option (Buf T))
  | 0, _, _ => .ub
  | fuel + 1, deps, out =>
    if deps.size == 0 then .ok (some out)
    else do
      match ← ready deps with
      | none => return none
      | some t => do
        let out ← append out t
        let (deps, _) ← CxMultimap.eraseKey deps t
        let deps ← release t deps 0 deps.size
        loop fuel deps out

/-- The elements of the result, if there is one (cx_vector.hpp:39-59). -/
def listed : Option (Buf T) → Outcome (Option (List T))
  | none => .ok none
  | some b => do
    let l ← elems b
    return some l

/-- The whole program: the declarations, then `order` (cx_multimap.hpp:19, cx_vector.hpp:32); `d` is the value of an unused slot of the map. -/
def order (c : Cfg T) (d : T × Buf T) (fuel : Nat) (ks : List (Cmd T)) : Outcome (Option (List T)) := do
  let deps ← build c (init c.KeyN d) ks
  let r ← loop fuel deps (init c.KeyN c.d)
  listed r

/-- `for (auto const &k : keys) { deps.erase(k, t); }` with a copy of the keys (cx_multimap.hpp:73-83). -/
def releaseKeys (t : T) (b : MM T T) : List T → Outcome (MM T T)
  | [] => .ok b
  | k :: ks => do
    let (b, _) ← CxMultimap.erase b k t
    releaseKeys t b ks

/-- The loop with `deps.erase(k, t)` in place of `e.value.erase(t)` (cx_multimap.hpp:28-47, 70-83, 94-96). -/
def loopErase : Nat → MM T T → Buf T → Outcome (Option (Buf T))
  | 0, _, _ => .ub
  | fuel + 1, deps, out =>
    if deps.size == 0 then .ok (some out)
    else do
      match ← ready deps with
      | none => return none
      | some t => do
        let out ← append out t
        let (deps, _) ← CxMultimap.eraseKey deps t
        let es ← elems deps
        let deps ← releaseKeys t deps (es.map Prod.fst)
        loopErase fuel deps out

/-- The whole program with that loop (cx_multimap.hpp:19, cx_vector.hpp:32). -/
def orderErase (c : Cfg T) (d : T × Buf T) (fuel : Nat) (ks : List (Cmd T)) : Outcome (Option (List T)) := do
  let deps ← build c (init c.KeyN d) ks
  let r ← loopErase fuel deps (init c.KeyN c.d)
  listed r

end Verif.Depend
