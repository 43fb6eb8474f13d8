import Verif.VecHeap.Model
import Verif.Rrb.SeqSpec

/-!
# Vector objects

Models the objects of `vector.hpp` and `vector_transient.hpp` (and, with other operations, of `flex_vector.hpp` and
`flex_vector_transient.hpp`) on the memory of nodes: what the constructors, assignments, destructors and operations do.
`Cmd` is one call; `step` runs it.

* An object is a `Vc` (`rbtree`, `rrbtree`); a transient also has an owner token.  Sizes are natural numbers.
* Where a tree is passed through parameters and temporaries by moves, only the net effect is modelled: each move makes
  references to the static empty nodes, which are given up with the temporary.
* The arguments of an operation are made by the caller; making them is not part of the call.
* Tokens are allocated by the collector, which keeps them while a node or a transient has them.  Here they are never used
  again.
-/

namespace VecHeap
open Mm Rrb

/-- The function given to `update`.  `user`: whether it may throw.  It is given the element as an rvalue: if it throws, it has
left some value in the element. -/
structure Fn (T : Type) where
  user : Bool
  f : T → T
  left : T → T

/-- What a kind of vector does.  Operations that work in place return the tree, and if they assign to an element, where it is,
and the function. -/
structure Kit (T : Type) where
  Op : Type
  /-- operations that make a new tree; `er` and `et` are the static empty nodes -/
  apply : (E : Env Dat T) → (er et : Nat) → Vc → Op → HM T Vc
  /-- operations that change a tree, for the owner `e` -/
  applyMut : (E : Env Dat T) → (er et : Nat) → (e : Nat) → Vc → Op → HM T (Vc × Option (Nat × Nat × Fn T))
  /-- `push_back_mut` -/
  pushMut : (E : Env Dat T) → (e : Nat) → Vc → T → HM T Vc
  /-- destructor -/
  drop : (E : Env Dat T) → Vc → HM T Unit
  /-- `operator[]` -/
  get : Vc → Nat → HM T T

/-- operations of `vector` -/
inductive VecOp (T : Type) where
  | push (x : T)
  | set (i : Nat) (x : T)
  | update (i : Nat) (f : Fn T)
  | take (n : Nat)

/-- `vector` and `vector_transient` over `rbtree`: `push_back`, `set`, `update`, `take` (vector.hpp 244-334,
vector_transient.hpp 142-176); `set` is `update` with a function that does not throw (rbtree.hpp 418-426) -/
def vectorKit (T : Type) (c : Cfg) : Kit T where
  Op := VecOp T
  apply E er et v
    | .push x => v.pushBack c E x
    | .set i x => v.update c E false (fun _ => x) i
    | .update i f => v.update c E f.user f.f i
    | .take n => v.take c E er et n
  applyMut E er et e v
    | .push x => (v.pushBackMut c E e x).bind fun v => M.ret (v, none)
    | .set i x => (v.getMut c E e i).bind fun r => M.ret (r.1, some (r.2.1, r.2.2, ⟨false, fun _ => x, id⟩))
    | .update i f => (v.getMut c E e i).bind fun r => M.ret (r.1, some (r.2.1, r.2.2, f))
    | .take n => (v.takeMut c E e er et n).bind fun v => M.ret (v, none)
  pushMut E e v x := v.pushBackMut c E e x
  drop E v := v.drop c E
  get v i := v.get c i

/-- `elem = fn(std::move(elem))` (rbtree.hpp 397) -/
def applyFn {T : Type} (fn : Fn T) (p i : Nat) : HM T Unit :=
  (moveEl p i).bind fun x =>
    ((if fn.user then tick .user else M.ret ()).guard (assignEl p i (fn.left x))).bind fun _ => assignEl p i (fn.f x)

/-- `vector` or `vector_transient` -/
inductive Kd where
  | value
  | transient
deriving DecidableEq

/-- an object; `tok` is the token of a transient's `owner` (`gc_transience_policy.hpp` 60) -/
structure Obj where
  kd : Kd
  v : Vc
  tok : Nat

/-- one call; objects are named by their position -/
inductive Cmd (T Op : Type) where
  /-- default constructor -/
  | new (kd : Kd)
  /-- constructors from a range, a list, or a number of copies (vector.hpp 115-137; rbtree.hpp 55-84) -/
  | ofRange (xs : List T)
  /-- copy constructor -/
  | copy (i : Nat)
  /-- move constructor -/
  | move (i : Nat)
  /-- `a[i] = a[j]` -/
  | assign (i j : Nat)
  /-- `a[i] = std::move(a[j])` -/
  | moveAssign (i j : Nat)
  /-- destructor -/
  | destroy (i : Nat)
  /-- `transient() const&` (vector.hpp 340) -/
  | transient (i : Nat)
  /-- `transient() &&` (vector.hpp 341) -/
  | transientMove (i : Nat)
  /-- `persistent() &` (vector_transient.hpp 182) -/
  | persistent (i : Nat)
  /-- `persistent() &&` (vector_transient.hpp 187) -/
  | persistentMove (i : Nat)
  /-- an operation of a vector: the result is a new object -/
  | apply (i : Nat) (o : Op)
  /-- the same on an rvalue (`push_back_move`, `set_move`, … vector.hpp 378-418) -/
  | applyMove (i : Nat) (o : Op)
  /-- an operation of a transient -/
  | applyMut (i : Nat) (o : Op)

section world
variable {T : Type}

/-- all objects, the memory, and the next token -/
structure World (T : Type) where
  st : St Dat T
  objs : List Obj
  next : Nat

inductive Ans (T β : Type) where
  | ok (w : World T) (b : β)
  | thrown (w : World T)
  | ub

abbrev WM (T β : Type) := World T → Ans T β

def WM.ret {β : Type} (b : β) : WM T β := fun w => .ok w b

def WM.bind {β δ : Type} (x : WM T β) (f : β → WM T δ) : WM T δ := fun w =>
  match x w with
  | .ok w' b => f b w'
  | .thrown w' => .thrown w'
  | .ub => .ub

/-- something done to memory -/
def lift {β : Type} (x : HM T β) : WM T β := fun w =>
  match x w.st with
  | .ok s b => .ok { w with st := s } b
  | .thrown s => .thrown { w with st := s }
  | .ub => .ub

/-- an object of this kind; anything else is not a program, and is skipped -/
def withObj (i : Nat) (kd : Option Kd) (f : Obj → WM T Unit) : WM T Unit := fun w =>
  match w.objs[i]? with
  | some h => if kd = none ∨ kd = some h.kd then f h w else .ok w ()
  | none => .ok w ()

/-- a new object -/
def push (h : Obj) : WM T Unit := fun w => .ok { w with objs := w.objs ++ [h] } ()

def setVc (i : Nat) (x : Vc) : WM T Unit := fun w => .ok { w with objs := w.objs.modify i fun h => { h with v := x } } ()

def setOwner (i t : Nat) : WM T Unit := fun w => .ok { w with objs := w.objs.modify i fun h => { h with tok := t } } ()

end world

section step
variable {T : Type} (c : Cfg) (K : Kit T) (E : Env Dat T) (er et : Nat)

/-- `make_token_` (`gc_transience_policy.hpp` 54-57); `no_transience_policy::owner` is empty (`no_transience_policy.hpp` 26) -/
def newTok : WM T Nat :=
  (lift (if E.gc then tick .alloc else M.ret ())).bind fun _ w => .ok { w with next := w.next + 1 } w.next

/-- `owner() : token_{make_token_()}`, for a transient -/
def ownerFor : Kd → WM T Nat
  | .value => WM.ret 0
  | .transient => newTok E

/-- the loop of `from_range`, `from_initializer_list` and `from_fill`; when it throws, the destructor of the result runs -/
def pushes (e : Nat) : Vc → List T → HM T Vc
  | v, [] => M.ret v
  | v, x :: xs => ((K.pushMut E e v x).guard (K.drop E v)).bind fun v => pushes e v xs

/-- copy constructor -/
def Vc.copy (v : Vc) : HM T Vc := (v.share E).bind fun _ => M.ret v

/-- an operation in place on object `i`: the object has the new tree before the function is called -/
def inPlace (i e : Nat) (h : Obj) (o : K.Op) : WM T Unit :=
  (lift (K.applyMut E er et e h.v o)).bind fun r => (setVc i r.1).bind fun _ =>
    match r.2 with
    | none => WM.ret ()
    | some (p, j, fn) => lift (applyFn fn p j)

def step : Cmd T K.Op → WM T Unit
  | .new kd =>
      (ownerFor E kd).bind fun t => (lift (Vc.empty c E er et)).bind fun v => push ⟨kd, v, t⟩
  | .ofRange xs =>
      (ownerFor E .transient).bind fun t => (lift (Vc.empty c E er et)).bind fun v =>
        (lift (pushes K E t v xs)).bind fun y => push ⟨.value, y, 0⟩
  | .copy i => withObj i none fun h =>
      -- the owner's copy constructor (gc_transience_policy.hpp 67-71)
      (ownerFor E h.kd).bind fun t => (ownerFor E h.kd).bind fun t' => (setOwner i t').bind fun _ =>
        (lift (h.v.copy E)).bind fun x => push ⟨h.kd, x, t⟩
  | .move i => withObj i none fun h =>
      -- the owner's move constructor (72-74) leaves the token
      (lift (Vc.empty c E er et)).bind fun x => (setVc i x).bind fun _ => push h
  | .assign i j => withObj i none fun h => withObj j (some h.kd) fun h' =>
      -- the owner's copy assignment (75-80), then the tree's (rbtree.hpp 116-121)
      (ownerFor E h.kd).bind fun t' => (setOwner j t').bind fun _ =>
        (ownerFor E h.kd).bind fun t => (setOwner i t).bind fun _ =>
          (lift (h'.v.copy E)).bind fun x => (setVc i x).bind fun _ => lift (K.drop E h.v)
  | .moveAssign i j => withObj i none fun h => withObj j (some h.kd) fun h' =>
      -- the owner's move assignment (81-85), then the tree's (rbtree.hpp 123-127)
      (setOwner i h'.tok).bind fun _ => (setVc i h'.v).bind fun _ => setVc j h.v
  | .destroy i => withObj i none fun h =>
      (lift (K.drop E h.v)).bind fun _ w => .ok { w with objs := w.objs.eraseIdx i } ()
  | .transient i => withObj i (some .value) fun h =>
      -- the owner is made before the tree is copied and moved: it is the base class (vector_transient.hpp 45, 193)
      (ownerFor E .transient).bind fun t => (lift (h.v.copy E)).bind fun x => push ⟨.transient, x, t⟩
  | .transientMove i => withObj i (some .value) fun h =>
      -- the parameter of the constructor is moved from the vector before the owner is made
      (lift (Vc.empty c E er et)).bind fun x => (setVc i x).bind fun _ =>
        (ownerFor E .transient).bind fun t => push ⟨.transient, h.v, t⟩
  | .persistent i => withObj i (some .transient) fun h =>
      (ownerFor E .transient).bind fun t => (setOwner i t).bind fun _ =>
        (lift (h.v.copy E)).bind fun x => push ⟨.value, x, 0⟩
  | .persistentMove i => withObj i (some .transient) fun h =>
      (lift (Vc.empty c E er et)).bind fun x => (setVc i x).bind fun _ => push ⟨.value, h.v, 0⟩
  | .apply i o => withObj i (some .value) fun h =>
      (lift (K.apply E er et h.v o)).bind fun x => push ⟨.value, x, 0⟩
  | .applyMove i o => withObj i (some .value) fun h =>
      -- `use_transient_rvalues` (memory_policy.hpp 58-62, 104)
      if E.gc then (lift (K.apply E er et h.v o)).bind fun x => push ⟨.value, x, 0⟩
      else inPlace K E er et i 0 h o
  | .applyMut i o => withObj i (some .transient) fun h => inPlace K E er et i h.tok h o

/-- one call, which may throw at a point of its own -/
def call (f : Option (Kind × Nat)) (x : Cmd T K.Op) (w : World T) : Ans T Unit :=
  step c K E er et x { w with st := { w.st with fault := f } }

/-- a program, which catches exceptions; also tells which calls threw -/
def run : List (Option (Kind × Nat) × Cmd T K.Op) → World T → Option (World T × List Bool)
  | [], w => some (w, [])
  | (f, x) :: xs, w =>
      match call c K E er et f x w with
      | .ok w' _ => (run xs w').map fun (w'', l) => (w'', false :: l)
      | .thrown w' => (run xs w').map fun (w'', l) => (w'', true :: l)
      | .ub => none

/-- The start: no objects, and the static nodes of `empty_root` and `empty_tail` (rbtree.hpp 43-53).  They are made by
`make_inner_n(0)` and `make_leaf_n(0)`. -/
def start : World T where
  st := ⟨upd (upd (fun _ => none) er (some ⟨1, 0, [], .inner (if E.gc then 0 else 2 ^ c.B) none []⟩)) et
    (some ⟨1, 0, List.replicate (if E.gc then 0 else 2 ^ c.BL) .raw, .leaf⟩), 0, none⟩
  objs := []
  next := 1

/-- reading an object: `operator[]` -/
def look (i k : Nat) (w : World T) : Option T :=
  match w.objs[i]? with
  | some h => match K.get h.v k w.st with
    | .ok _ x => some x
    | _ => none
  | none => none

end step

end VecHeap
