import Verif.ChampHeap.Model
import Verif.Champ.Api

/-!
# Map and set objects

Models the container objects of `map.hpp`, `set.hpp`, `table.hpp` and of their transients, on the memory of nodes: what the
constructors, assignments, destructors and operations do.  `Cmd` is one call; `step` runs it.

* A container is a `champ`, a pointer to the root and a size; a transient also has an owner token.  Sizes are natural numbers.
* Where a `champ` is passed through parameters and temporaries by moves, only the net effect is modelled: each move makes a
  reference to the static empty node, which is given up with the temporary.
* The arguments of an operation are made by the caller; making them is not part of the call.
* Tokens are allocated by the collector, which keeps them while a node or a transient has them.  Here they are never used
  again.
-/

namespace ChampHeap
open Mm Champ

/-- `champ` (champ.hpp 137-138) -/
structure Ch where
  root : Nat
  size : Nat
deriving DecidableEq

/-- `map`, `set`, `table`, or their transients -/
inductive Kd where
  | value
  | transient
deriving DecidableEq

/-- a container object; `tok` is the token of a transient's `owner` (`gc_transience_policy.hpp` 60) -/
structure Obj where
  kd : Kd
  ch : Ch
  tok : Nat
deriving DecidableEq

section champ
variable {K T P : Type} (A : Api K T P) (E : Env (Dat A.cfg.W) T) (em : Nat)

/-- what `insert` and `set` put (champ.hpp 625) -/
def actInsert (v : T) : Act K T := ⟨A.cfg.key v, fun _ => v, false, false⟩

/-- what `update` and `update_if_exists` put (champ.hpp 834, 903) -/
def actUpdate (k : K) (f : P → P) (ex : Bool) : Act K T :=
  ⟨k, fun o => A.combine k (f (o.elim A.dflt A.project)), true, ex⟩

/-- the operations that make a new `champ`: 625-631 `add`, 834-846 `update`, 903-914 `update_if_exists`, 1278-1292 `sub` -/
def Ch.apply (x : Ch) : Op K T P → HM A.cfg.W T Ch
  | .insert v => (tick .user).bind fun _ =>
      (doPut A.cfg E (actInsert A v) A.cfg.maxDepth x.root (A.cfg.hash (A.cfg.key v)) 0).bind fun r =>
        match r with
        | some (q, added) => M.ret ⟨q, x.size + if added then 1 else 0⟩
        | none => undef
  | .update k f => (tick .user).bind fun _ =>
      (doPut A.cfg E (actUpdate A k f false) A.cfg.maxDepth x.root (A.cfg.hash k) 0).bind fun r =>
        match r with
        | some (q, added) => M.ret ⟨q, x.size + if added then 1 else 0⟩
        | none => undef
  | .updateIfExists k f => (tick .user).bind fun _ =>
      (doPut A.cfg E (actUpdate A k f true) A.cfg.maxDepth x.root (A.cfg.hash k) 0).bind fun r =>
        match r with
        | some (q, _) => M.ret ⟨q, x.size⟩
        | none => (inc E x.root).bind fun _ => M.ret x
  | .erase k => (tick .user).bind fun _ =>
      (doSub A.cfg E em k A.cfg.maxDepth x.root (A.cfg.hash k) 0).bind fun r =>
        match r with
        | .nothing => (inc E x.root).bind fun _ => M.ret x
        | .tree q => M.ret ⟨q, x.size - 1⟩
        | .single _ _ => undef

/-- `if (!res.mutated && root->dec()) delete_deep(root, 0)` -/
def Ch.replaced (x : Ch) (mutated : Bool) : HM A.cfg.W T Unit :=
  if mutated then M.ret () else release E A.cfg.maxDepth x.root

/-- the operations that change a `champ`: 731-739 `add_mut`, 1039-1051 `update_mut`, 1152-1163 `update_if_exists_mut`,
1476-1491 `sub_mut` -/
def Ch.applyMut (e : Nat) (x : Ch) : Op K T P → HM A.cfg.W T Ch
  | .insert v => (tick .user).bind fun _ =>
      (doPutMut A.cfg E e (actInsert A v) A.cfg.maxDepth x.root (A.cfg.hash (A.cfg.key v)) 0).bind fun r =>
        match r with
        | some (q, added, mutated) =>
            (x.replaced A E mutated).bind fun _ => M.ret ⟨q, x.size + if added then 1 else 0⟩
        | none => undef
  | .update k f => (tick .user).bind fun _ =>
      (doPutMut A.cfg E e (actUpdate A k f false) A.cfg.maxDepth x.root (A.cfg.hash k) 0).bind fun r =>
        match r with
        | some (q, added, mutated) =>
            (x.replaced A E mutated).bind fun _ => M.ret ⟨q, x.size + if added then 1 else 0⟩
        | none => undef
  | .updateIfExists k f => (tick .user).bind fun _ =>
      (doPutMut A.cfg E e (actUpdate A k f true) A.cfg.maxDepth x.root (A.cfg.hash k) 0).bind fun r =>
        match r with
        | some (q, _, mutated) => (x.replaced A E mutated).bind fun _ => M.ret ⟨q, x.size⟩
        | none => M.ret x
  | .erase k => (tick .user).bind fun _ =>
      (doSubMut A.cfg E em e k A.cfg.maxDepth x.root (A.cfg.hash k) 0).bind fun r =>
        match r with
        | .nothing => M.ret x
        | .tree q mutated => (x.replaced A E mutated).bind fun _ => M.ret ⟨q, x.size - 1⟩
        | .single _ _ => undef

/-- the loop of 286-306 `from_range` and `from_initializer_list`; when it throws, the destructor of the result runs -/
def Ch.inserts (e : Nat) : Ch → List T → HM A.cfg.W T Ch
  | x, [] => M.ret x
  | x, v :: vs => ((x.applyMut A E em e (.insert v)).guard (release E A.cfg.maxDepth x.root)).bind fun y => Ch.inserts e y vs

/-- 140-150 `empty()` -/
def Ch.empty : HM A.cfg.W T Ch := (ChampHeap.empty A.cfg E em).bind fun p => M.ret ⟨p, 0⟩

/-- 155-159 copy constructor -/
def Ch.copy (x : Ch) : HM A.cfg.W T Ch := (inc E x.root).bind fun _ => M.ret x

/-- 188 destructor -/
def Ch.destroy (x : Ch) : HM A.cfg.W T Unit := release E A.cfg.maxDepth x.root

/-- the loop of 533-561 `get`, with the rest of the hash -/
def getAt (c : Cfg K T) (k : K) : (d p : Nat) → (hash : BitVec 64) → HM c.W T (Option T)
  | 0, p, _ => (collCount p).bind fun n => (scan c k p 0 n).bind fun pos =>
      match pos with
      | some i => (readEl p i).bind fun x => M.ret (some x)
      | none => M.ret none
  | d + 1, p, hash =>
      let bit := bitOf c.W (hash &&& c.mask).toNat
      (getI p).bind fun i =>
        if i.nm &&& bit ≠ 0#c.W then
          (liftO i.cs[rank i.nm bit]?).bind fun ch => getAt c k d ch (hash >>> c.B)
        else if i.dm &&& bit ≠ 0#c.W then
          (liftO i.vals).bind fun vp => (readEl vp (rank i.dm bit)).bind fun x => (eqM c x k).bind fun b =>
            if b then M.ret (some x) else M.ret none
        else M.ret none

/-- 533-561 `get`: the element found -/
def Ch.get (x : Ch) (k : K) : HM A.cfg.W T (Option T) :=
  (tick .user).bind fun _ => getAt A.cfg k A.cfg.maxDepth x.root (A.cfg.hash k)

end champ

/-! ### Objects -/

/-- one call; objects are named by their position -/
inductive Cmd (K T P : Type) where
  /-- default constructor -/
  | new (kd : Kd)
  /-- constructors from a range or a list (map.hpp 178-193, set.hpp 99-114, table.hpp 214-229) -/
  | ofRange (xs : List T)
  /-- copy constructor -/
  | copy (i : Nat)
  /-- move constructor -/
  | move (i : Nat)
  /-- `a[i] = a[j]` -/
  | assign (i j : Nat)
  /-- `a[i] = std::move(a[j])` -/
  | moveAssign (i j : Nat)
  /-- destructor -/
  | destroy (i : Nat)
  /-- `transient() const&` (map.hpp 461, set.hpp 245, table.hpp 471) -/
  | transient (i : Nat)
  /-- `transient() &&` (map.hpp 465, set.hpp 249, table.hpp 480) -/
  | transientMove (i : Nat)
  /-- `persistent() &` (map_transient.hpp 296, set_transient.hpp 162, table_transient.hpp 254) -/
  | persistent (i : Nat)
  /-- `persistent() &&` (map_transient.hpp 301, set_transient.hpp 167, table_transient.hpp 264) -/
  | persistentMove (i : Nat)
  /-- an operation of a container (map.hpp 383-452, set.hpp 218-239, table.hpp 395-459): the result is a new object -/
  | apply (i : Nat) (o : Op K T P)
  /-- the same on an rvalue (`insert_move`, `set_move`, … map.hpp 484-542, set.hpp 268-287, table.hpp 491-539) -/
  | applyMove (i : Nat) (o : Op K T P)
  /-- an operation of a transient (map_transient.hpp 229-290, set_transient.hpp 142-156, table_transient.hpp 200-248) -/
  | applyMut (i : Nat) (o : Op K T P)

section world
variable {K T P : Type}

/-- all objects, the memory, and the next token -/
structure World (c : Cfg K T) where
  st : St (Dat c.W) T
  objs : List Obj
  next : Nat

inductive Ans (c : Cfg K T) (β : Type) where
  | ok (w : World c) (b : β)
  | thrown (w : World c)
  | ub

abbrev WM (c : Cfg K T) (β : Type) := World c → Ans c β

variable {c : Cfg K T}

def WM.ret {β : Type} (b : β) : WM c β := fun w => .ok w b

def WM.bind {β δ : Type} (x : WM c β) (f : β → WM c δ) : WM c δ := fun w =>
  match x w with
  | .ok w' b => f b w'
  | .thrown w' => .thrown w'
  | .ub => .ub

/-- something done to memory -/
def lift {β : Type} (x : HM c.W T β) : WM c β := fun w =>
  match x w.st with
  | .ok s b => .ok { w with st := s } b
  | .thrown s => .thrown { w with st := s }
  | .ub => .ub

/-- an object of this kind; anything else is not a program, and is skipped -/
def withObj (i : Nat) (kd : Option Kd) (f : Obj → WM c Unit) : WM c Unit := fun w =>
  match w.objs[i]? with
  | some h => if kd = none ∨ kd = some h.kd then f h w else .ok w ()
  | none => .ok w ()

/-- a new object -/
def push (h : Obj) : WM c Unit := fun w => .ok { w with objs := w.objs ++ [h] } ()

def setCh (i : Nat) (x : Ch) : WM c Unit := fun w => .ok { w with objs := w.objs.modify i fun h => { h with ch := x } } ()

def setOwner (i t : Nat) : WM c Unit := fun w => .ok { w with objs := w.objs.modify i fun h => { h with tok := t } } ()

end world

section step
variable {K T P : Type} (A : Api K T P) (E : Env (Dat A.cfg.W) T) (em : Nat)

/-- `make_token_` (`gc_transience_policy.hpp` 54-57); `no_transience_policy::owner` is empty (`no_transience_policy.hpp` 26) -/
def newTok : WM A.cfg Nat :=
  (lift (if E.gc then tick .alloc else M.ret ())).bind fun _ w => .ok { w with next := w.next + 1 } w.next

/-- `owner() : token_{make_token_()}`, for a transient -/
def ownerFor : Kd → WM A.cfg Nat
  | .value => WM.ret 0
  | .transient => newTok A E

def step : Cmd K T P → WM A.cfg Unit
  | .new kd =>
      (ownerFor A E kd).bind fun t => (lift (Ch.empty A E em)).bind fun x => push ⟨kd, x, t⟩
  | .ofRange xs =>
      (ownerFor A E .transient).bind fun t => (lift (Ch.empty A E em)).bind fun x =>
        (lift (x.inserts A E em t xs)).bind fun y => push ⟨.value, y, 0⟩
  | .copy i => withObj i none fun h =>
      -- the owner's copy constructor (gc_transience_policy.hpp 67-71)
      (ownerFor A E h.kd).bind fun t => (ownerFor A E h.kd).bind fun t' => (setOwner i t').bind fun _ =>
        (lift (h.ch.copy A E)).bind fun x => push ⟨h.kd, x, t⟩
  | .move i => withObj i none fun h =>
      -- the owner's move constructor (72-74) leaves the token
      (lift (Ch.empty A E em)).bind fun x => (setCh i x).bind fun _ => push h
  | .assign i j => withObj i none fun h => withObj j (some h.kd) fun h' =>
      -- the owner's copy assignment (75-80), then champ's (champ.hpp 167-172)
      (ownerFor A E h.kd).bind fun t' => (setOwner j t').bind fun _ =>
        (ownerFor A E h.kd).bind fun t => (setOwner i t).bind fun _ =>
          (lift (h'.ch.copy A E)).bind fun x => (setCh i x).bind fun _ => lift (h.ch.destroy A E)
  | .moveAssign i j => withObj i none fun h => withObj j (some h.kd) fun h' =>
      -- the owner's move assignment (81-85), then champ's (champ.hpp 174-178)
      (setOwner i h'.tok).bind fun _ => (setCh i h'.ch).bind fun _ => setCh j h.ch
  | .destroy i => withObj i none fun h =>
      (lift (h.ch.destroy A E)).bind fun _ w => .ok { w with objs := w.objs.eraseIdx i } ()
  | .transient i => withObj i (some .value) fun h =>
      -- the owner is made after the copy of the champ, which throws nothing and counts nothing when making an owner may throw
      (ownerFor A E .transient).bind fun t => (lift (h.ch.copy A E)).bind fun x => push ⟨.transient, x, t⟩
  | .transientMove i => withObj i (some .value) fun h =>
      (lift (Ch.empty A E em)).bind fun x => (setCh i x).bind fun _ =>
        (ownerFor A E .transient).bind fun t => push ⟨.transient, h.ch, t⟩
  | .persistent i => withObj i (some .transient) fun h =>
      (ownerFor A E .transient).bind fun t => (setOwner i t).bind fun _ =>
        (lift (h.ch.copy A E)).bind fun x => push ⟨.value, x, 0⟩
  | .persistentMove i => withObj i (some .transient) fun h =>
      (lift (Ch.empty A E em)).bind fun x => (setCh i x).bind fun _ => push ⟨.value, h.ch, 0⟩
  | .apply i o => withObj i (some .value) fun h =>
      (lift (h.ch.apply A E em o)).bind fun x => push ⟨.value, x, 0⟩
  | .applyMove i o => withObj i (some .value) fun h =>
      -- `use_transient_rvalues` (memory_policy.hpp 58-62, 104)
      if E.gc then (lift (h.ch.apply A E em o)).bind fun x => push ⟨.value, x, 0⟩
      else (lift (h.ch.applyMut A E em 0 o)).bind fun x => setCh i x
  | .applyMut i o => withObj i (some .transient) fun h =>
      (lift (h.ch.applyMut A E em h.tok o)).bind fun x => setCh i x

/-- one call, which may throw at a point of its own -/
def call (f : Option (Kind × Nat)) (x : Cmd K T P) (w : World A.cfg) : Ans A.cfg Unit :=
  step A E em x { w with st := { w.st with fault := f } }

/-- a program, which catches exceptions; also tells which calls threw -/
def run : List (Option (Kind × Nat) × Cmd K T P) → World A.cfg → Option (World A.cfg × List Bool)
  | [], w => some (w, [])
  | (f, x) :: xs, w =>
      match call A E em f x w with
      | .ok w' _ => (run xs w').map fun (w'', l) => (w'', false :: l)
      | .thrown w' => (run xs w').map fun (w'', l) => (w'', true :: l)
      | .ub => none

/-- the start: no objects, and the static node of `champ::empty` -/
def start : World A.cfg where
  st := ⟨upd (fun _ => none) em (some ⟨1, 0, [], .inner ⟨0, 0, none, []⟩⟩), 0, none⟩
  objs := []
  next := 1

/-- reading an object: `find` and the like, and `size` -/
def find (i : Nat) (k : K) (w : World A.cfg) : Option (Option T) :=
  match w.objs[i]? with
  | some h => match h.ch.get A k { w.st with fault := none } with
    | .ok _ r => some r
    | _ => none
  | none => none

end step

end ChampHeap
