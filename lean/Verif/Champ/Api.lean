import Verif.Champ.Model

/-!
# Model of the public containers `immer::map`, `immer::set`, `immer::table`

The three containers are thin wrappers around `champ` that differ only in the functors they pass.
`Api` collects those functors; `mapApi`, `setApi`, `tableApi` are the three instances.
-/

namespace Champ

variable {K T P : Type}

/-- The functors a container passes to `champ`: `project_value`, `default_value`, `combine_value`
(map.hpp 74-109, table.hpp 110-142).  `set` has no `update`; its instance uses dummies there. -/
structure Api (K T P : Type) where
  cfg : Cfg K T
  project : T → P
  dflt : P
  combine : K → P → T

/-- Requirements on the template arguments.  `combine_key` holds by construction for `map` (it builds
`{k, v}`) and is the documented requirement on `KeyFn` for `table` ("the key k will be replaced inside
the value returned by fn", table.hpp 413-415). -/
structure Api.Lawful (A : Api K T P) : Prop where
  cfg : A.cfg.Lawful
  combine_key : ∀ k p, A.cfg.eqv (A.cfg.key (A.combine k p)) k = true

/-- `immer::map<K, V>` (map.hpp 61-155): elements are pairs, keyed by `first` -/
def mapApi {K V : Type} (B : Nat) (hash : K → BitVec 64) (eqv : K → K → Bool) (dflt : V) :
    Api K (K × V) V where
  cfg := { B, key := Prod.fst, hash, eqv }
  project := Prod.snd
  dflt
  combine k v := (k, v)

/-- `immer::set<T>` (set.hpp 63): elements are their own key -/
def setApi {T : Type} (B : Nat) (hash : T → BitVec 64) (eqv : T → T → Bool) : Api T T Unit where
  cfg := { B, key := id, hash, eqv }
  project _ := ()
  dflt := ()
  combine k _ := k

/-- `immer::table<T, KeyFn>` (table.hpp 97-190); `getKey`/`setKey` are the two overloads of `KeyFn` -/
def tableApi {K T : Type} (B : Nat) (hash : K → BitVec 64) (eqv : K → K → Bool) (dflt : T)
    (getKey : T → K) (setKey : T → K → T) : Api K T T where
  cfg := { B, key := getKey, hash, eqv }
  project := id
  dflt
  combine k v := setKey v k

/-- The persistent operations of the containers.  `set(k, v)` of map (map.hpp 398-401) is
`insert` of the pair `{k, v}`. -/
inductive Op (K T P : Type) where
  /-- map.hpp 383-386, 398-401; set.hpp 218-221; table.hpp 395-398 -/
  | insert (v : T)
  /-- map.hpp 414-420; table.hpp 418-424 -/
  | update (k : K) (f : P → P)
  /-- map.hpp 433-438; table.hpp 437-442 -/
  | updateIfExists (k : K) (f : P → P)
  /-- map.hpp 451; set.hpp 232-235; table.hpp 455 -/
  | erase (k : K)

/-- the `update` functors with a user function that keeps no state -/
def Api.upd (A : Api K T P) (f : P → P) : Upd K T P Unit where
  project := A.project
  dflt := A.dflt
  combine := A.combine
  fn p s := (f p, s)

/-- the `update` functors with a user function `f` that appends each argument it is called with to a log -/
def Api.logged (A : Api K T P) (f : P → P) : Upd K T P (List P) where
  project := A.project
  dflt := A.dflt
  combine := A.combine
  fn p log := (f p, log ++ [p])

variable (A : Api K T P)

/-- one operation -/
def step (m : Map A.cfg) : Op K T P → Option (Map A.cfg)
  | .insert v => m.add v
  | .update k f => (m.update (A.upd f) k ()).map Prod.fst
  | .updateIfExists k f => (m.updateIfExists (A.upd f) k ()).map Prod.fst
  | .erase k => m.sub k

/-- a history, starting from the default-constructed container -/
def run (ops : List (Op K T P)) : Option (Map A.cfg) := ops.foldlM (step A) (Map.empty A.cfg)

variable {A}

/-- `count(k)`: `get<constantly<1>, constantly<0>>` (map.hpp 236-255, set.hpp 154-170, table.hpp 275-291) -/
def Map.count (m : Map A.cfg) (k : K) : Option Nat :=
  (m.get k).map (fun r => match r with | some _ => 1 | none => 0)

/-- `find(k)`: pointer to the projected element or null (map.hpp 341-364, table.hpp 354-377) -/
def Map.find (A : Api K T P) (m : Map A.cfg) (k : K) : Option (Option P) :=
  (m.get k).map (fun r => r.map A.project)

/-- `operator[]` (map.hpp 265-282, table.hpp 304-318) -/
def Map.index (A : Api K T P) (m : Map A.cfg) (k : K) : Option P :=
  (m.get k).map (fun r => match r with | some x => A.project x | none => A.dflt)

/-- outcome of a call that may throw -/
inductive Outcome (α : Type) where
  | value (a : α)
  | outOfRange

/-- `at(k)`: `get<project_value, error_value>` (map.hpp 290-310, table.hpp 332-346) -/
def Map.at (A : Api K T P) (m : Map A.cfg) (k : K) : Option (Outcome P) :=
  (m.get k).map (fun r => match r with | some x => .value (A.project x) | none => .outOfRange)

end Champ
