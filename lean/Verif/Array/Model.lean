import Mathlib.Data.List.Basic

/-!
# `array` and `array_transient` with reference counting

Model of `detail/arrays/with_capacity.hpp`, `detail/arrays/node.hpp`, `array.hpp`, `array_transient.hpp`.  With reference
counting (`use_transient_rvalues`), `array` and `array_transient` are both a `with_capacity`, and the transience policy is
`no_transience_policy`, so that `edit_t` says nothing and a node may be changed in place only if its count is 1.

Raw memory is explicit: a slot of a node is `none` (no object there) or `some v`.  Anything that C++ leaves undefined, an
element constructed over another, destroyed when not there, or still there when its memory is released, gives `ub`.

Allocation, copies of elements and user functions may throw: `fault = some k` makes the `k`-th of these (from 0) throw.
-/

namespace Arr

variable {α : Type}

abbrev Slots (α : Type) := List (Option α)

/-- a node: reference count, and memory for as many elements as it was allocated for -/
structure Cell (α : Type) where
  refs : Nat
  slots : Slots α

/-- `with_capacity` (28-30) -/
structure H where
  ptr : Nat
  size : Nat
  cap : Nat
deriving DecidableEq

structure St (α : Type) where
  mem : Nat → Option (Cell α)
  /-- objects of type `with_capacity`; 0 is the static one of `empty()`; `none`: destroyed -/
  vars : List (Option H)
  fault : Option Nat
  /-- elements copied so far from one node to another -/
  work : Nat

inductive Res (α : Type) (β : Type) where
  | ok (s : St α) (b : β)
  /-- an exception leaves the operation -/
  | thrown (s : St α)
  | ub
  /-- not a call that a client may make, or not an address that the heap may return -/
  | no

abbrev M (α β : Type) := St α → Res α β

def M.bind {β γ : Type} (x : M α β) (f : β → M α γ) : M α γ := fun s =>
  match x s with
  | .ok s' b => f b s'
  | .thrown s' => .thrown s'
  | .ub => .ub
  | .no => .no

def M.ret {β : Type} (b : β) : M α β := fun s => .ok s b

/-- `IMMER_TRY`/`IMMER_CATCH` … `IMMER_RETHROW` -/
def M.guard {β : Type} (x : M α β) (handler : M α Unit) : M α β := fun s =>
  match x s with
  | .thrown s' =>
      match handler s' with
      | .ok s'' _ => .thrown s''
      | .thrown _ => .ub
      | .ub => .ub
      | .no => .no
  | r => r

/-- something that may throw -/
def tick : M α Unit := fun s =>
  match s.fault with
  | none => .ok s ()
  | some 0 => .thrown { s with fault := none }
  | some (k + 1) => .ok { s with fault := some k } ()

def undef {β : Type} : M α β := fun _ => .ub

def upd {β : Type} (f : Nat → β) (i : Nat) (v : β) : Nat → β := fun j => if j = i then v else f j

/-! ### Elements -/

/-- memory of a live node -/
def cell (p : Nat) : M α (Cell α) := fun s =>
  match s.mem p with
  | some c => .ok s c
  | none => .ub

def setSlots (p : Nat) (sl : Slots α) : M α Unit := fun s =>
  match s.mem p with
  | some c => .ok { s with mem := upd s.mem p (some { c with slots := sl }) } ()
  | none => .ub

/-- `new (data() + i) T{v}` -/
def construct (triv : Bool) (p i : Nat) (v : α) : M α Unit :=
  (cell p).bind fun c =>
    match c.slots[i]? with
    | some none => setSlots p (c.slots.set i (some v))
    | some (some _) => if triv then setSlots p (c.slots.set i (some v)) else undef
    | none => undef

/-- `data()[i] = v` -/
def assign (p i : Nat) (v : α) : M α Unit :=
  (cell p).bind fun c =>
    match c.slots[i]? with
    | some (some _) => setSlots p (c.slots.set i (some v))
    | _ => undef

/-- `data()[i]` -/
def read (p i : Nat) : M α α :=
  (cell p).bind fun c =>
    match c.slots[i]? with
    | some (some v) => M.ret v
    | _ => undef

/-- `destroy_at` (`util.hpp` 65-77) -/
def destroy1 (p i : Nat) : M α Unit :=
  (cell p).bind fun c =>
    match c.slots[i]? with
    | some (some _) => setSlots p (c.slots.set i none)
    | _ => undef

/-- the loop of `destroy_n` (`util.hpp` 104-111) -/
def destroyLoop (p : Nat) (i : Nat) : Nat → M α Unit
  | 0 => M.ret ()
  | n + 1 => (destroy1 p i).bind fun _ => destroyLoop p (i + 1) n

/-- `destroy_n` (`util.hpp` 98-111): nothing for trivially destructible types -/
def destroyN (triv : Bool) (p i n : Nat) : M α Unit := if triv then M.ret () else destroyLoop p i n

/-! ### Nodes (`node.hpp`) -/

/-- `heap::deallocate(sizeof_n(cap), p)`: the size must be that of the allocation, and no element may be left -/
def dealloc (triv : Bool) (p cap : Nat) : M α Unit :=
  (cell p).bind fun c =>
    if c.slots.length = cap ∧ (triv = true ∨ ∀ x ∈ c.slots, x.isNone = true) then
      fun s => .ok { s with mem := upd s.mem p none } ()
    else undef

/-- `delete_n` (64-68) -/
def deleteN (triv : Bool) (p sz cap : Nat) : M α Unit :=
  (destroyN triv p 0 sz).bind fun _ => dealloc triv p cap

/-- `make_n` (70-73); `a` is the address that the heap returns -/
def makeN (a n : Nat) : M α Unit :=
  tick.bind fun _ s => .ok { s with mem := upd s.mem a (some ⟨1, List.replicate n none⟩) } ()

/-- `uninitialized_copy` (`util.hpp` 146-169) of the values `xs` to `data() + k`, where `data()` is the destination of the
whole call: when a copy throws, the elements constructed so far, `[0, k)`, are destroyed -/
def uninitCopy (triv : Bool) (p : Nat) : (k : Nat) → List α → M α Unit
  | _, [] => M.ret ()
  | k, v :: vs =>
      ((tick.bind fun _ => (construct triv p k v).bind fun _ s => .ok { s with work := s.work + 1 } ()).guard
        (destroyN triv p 0 k)).bind fun _ => uninitCopy triv p (k + 1) vs

/-- `copy_n` from a range (98-109) -/
def copyRange (triv : Bool) (a n : Nat) (xs : List α) : M α Unit :=
  (makeN a n).bind fun _ => (uninitCopy triv a 0 xs).guard (dealloc triv a n)

/-- `fill_n` (82-93); `uninitialized_fill_n` is the same loop over `n` times `v` -/
def fillN (triv : Bool) (a n : Nat) (v : α) : M α Unit :=
  (makeN a n).bind fun _ => (uninitCopy triv a 0 (List.replicate n v)).guard (dealloc triv a n)

/-- the first `n` elements -/
def readN (p : Nat) : (n : Nat) → M α (List α)
  | 0 => M.ret []
  | n + 1 => (readN p n).bind fun xs => (read p n).bind fun x => M.ret (xs ++ [x])

/-- `copy_n` from a node (111-114), `copy_e` (116-127) -/
def copyN (triv : Bool) (a n : Nat) (p count : Nat) : M α Unit :=
  (readN p count).bind fun xs => copyRange triv a n xs

/-! ### Handles (`with_capacity.hpp`) -/

def getVar (i : Nat) : M α H := fun s =>
  match s.vars[i]? with
  | some (some h) => .ok s h
  | _ => .no

def setVar (i : Nat) (h : Option H) : M α Unit := fun s => .ok { s with vars := s.vars.set i h } ()

/-- a new object of type `with_capacity` -/
def pushVar (h : H) : M α Unit := fun s => .ok { s with vars := s.vars ++ [some h] } ()

/-- `inc` (90-94) -/
def inc (h : H) : M α Unit :=
  (cell h.ptr).bind fun c s => .ok { s with mem := upd s.mem h.ptr (some { c with refs := c.refs + 1 }) } ()

/-- `dec` (96-101) -/
def dec (triv : Bool) (h : H) : M α Unit :=
  (cell h.ptr).bind fun c =>
    if c.refs = 1 then deleteN triv h.ptr h.size h.cap
    else fun s => .ok { s with mem := upd s.mem h.ptr (some { c with refs := c.refs - 1 }) } ()

/-- `~with_capacity` (88) of the newest object, a temporary -/
def dropLast (triv : Bool) : M α Unit := fun s =>
  match s.vars.getLast? with
  | some (some h) => (dec triv h) { s with vars := s.vars.dropLast }
  | _ => .ub

/-- `swap` (80-86) -/
def swap (i j : Nat) : M α Unit :=
  (getVar i).bind fun x => (getVar j).bind fun y => (setVar i (some y)).bind fun _ => setVar j (some x)

/-- `with_capacity(const with_capacity&)` (45-49) -/
def copyCtor (i : Nat) : M α Unit := (getVar i).bind fun h => (inc h).bind fun _ => pushVar h

def lastVar : M α Nat := fun s => .ok s (s.vars.length - 1)

/-- `with_capacity(with_capacity&&)` (57-61) -/
def moveCtor (i : Nat) : M α Unit := (copyCtor 0).bind fun _ => lastVar.bind fun k => swap k i

/-- `operator=(const with_capacity&)` (63-68): copy, swap, and destroy the copy -/
def copyAssign (triv : Bool) (i j : Nat) : M α Unit :=
  (copyCtor j).bind fun _ => lastVar.bind fun k => (swap i k).bind fun _ => dropLast triv

/-- `*this = {p, size, cap}`: swap (70-74) with a temporary, which is then destroyed -/
def replace (triv : Bool) (i : Nat) (h : H) : M α Unit :=
  (pushVar h).bind fun _ => lastVar.bind fun k => (swap i k).bind fun _ => dropLast triv

/-- `can_mutate` (`node.hpp` 59-62) -/
def canMutate (h : H) : M α Bool := (cell h.ptr).bind fun c => M.ret (c.refs == 1)

/-- `std::numeric_limits<size_t>::max()` -/
def maxSize : Nat := 2 ^ 64 - 1

/-- `recommend_up` (196-203) -/
def recommendUp (sz cap : Nat) : Nat := if sz ≤ cap then cap else if maxSize / 2 ≤ cap then maxSize else max (2 * cap) sz

/-- `recommend_down` (205-212) -/
def recommendDown (sz cap : Nat) : Nat := if sz = 0 then 1 else if sz < cap / 2 then sz * 2 else cap

/-- `push_back` (214-226): a new object -/
def pushBack (triv : Bool) (i : Nat) (v : α) (a : Nat) : M α Unit :=
  (getVar i).bind fun h =>
    let cap := recommendUp (h.size + 1) h.cap
    (copyN triv a cap h.ptr h.size).bind fun _ =>
      ((tick.bind fun _ => construct triv a h.size v).bind fun _ => pushVar ⟨a, h.size + 1, cap⟩).guard
        (deleteN triv a h.size cap)

/-- `push_back_mut` (228-245) -/
def pushBackMut (triv : Bool) (i : Nat) (v : α) (a : Nat) : M α Unit :=
  (getVar i).bind fun h => (canMutate h).bind fun m =>
    if m = true ∧ h.size < h.cap then
      (tick.bind fun _ => construct triv h.ptr h.size v).bind fun _ => setVar i (some ⟨h.ptr, h.size + 1, h.cap⟩)
    else
      let cap := recommendUp (h.size + 1) h.cap
      (copyN triv a cap h.ptr h.size).bind fun _ =>
        ((tick.bind fun _ => construct triv a h.size v).bind fun _ => replace triv i ⟨a, h.size + 1, cap⟩).guard
          (deleteN triv a h.size cap)

/-- `assoc` (247-258) -/
def assoc (triv : Bool) (i idx : Nat) (v : α) (a : Nat) : M α Unit :=
  (getVar i).bind fun h => (copyN triv a h.cap h.ptr h.size).bind fun _ =>
    ((tick.bind fun _ => assign a idx v).bind fun _ => pushVar ⟨a, h.size, h.cap⟩).guard (deleteN triv a h.size h.cap)

/-- `assoc_mut` (260-275); an assignment of an element that throws is taken to have no effect -/
def assocMut (triv : Bool) (i idx : Nat) (v : α) (a : Nat) : M α Unit :=
  (getVar i).bind fun h => (canMutate h).bind fun m =>
    if m = true then tick.bind fun _ => assign h.ptr idx v
    else
      (copyN triv a h.cap h.ptr h.size).bind fun _ =>
        ((tick.bind fun _ => assign a idx v).bind fun _ => replace triv i ⟨a, h.size, h.cap⟩).guard
          (deleteN triv a h.size h.cap)

/-- `elem = op(std::move(elem))`: the element is moved from (which leaves `mv x`) before `op`, which may throw -/
def updateElem (mv : α → α) (p idx : Nat) (f : α → α) : M α Unit :=
  (read p idx).bind fun x => (assign p idx (mv x)).bind fun _ => tick.bind fun _ => assign p idx (f x)

/-- `update` (277-290) -/
def update (triv : Bool) (mv : α → α) (i idx : Nat) (f : α → α) (a : Nat) : M α Unit :=
  (getVar i).bind fun h => (copyN triv a h.cap h.ptr h.size).bind fun _ =>
    ((updateElem mv a idx f).bind fun _ => pushVar ⟨a, h.size, h.cap⟩).guard (deleteN triv a h.size h.cap)

/-- `update_mut` (292-310) -/
def updateMut (triv : Bool) (mv : α → α) (i idx : Nat) (f : α → α) (a : Nat) : M α Unit :=
  (getVar i).bind fun h => (canMutate h).bind fun m =>
    if m = true then updateElem mv h.ptr idx f
    else
      (copyN triv a h.cap h.ptr h.size).bind fun _ =>
        ((updateElem mv a idx f).bind fun _ => replace triv i ⟨a, h.size, h.cap⟩).guard (deleteN triv a h.size h.cap)

/-- `take` (312-318) -/
def take (triv : Bool) (i n : Nat) (a : Nat) : M α Unit :=
  (getVar i).bind fun h =>
    let cap := recommendDown n h.cap
    (copyN triv a cap h.ptr n).bind fun _ => pushVar ⟨a, n, cap⟩

/-- `take_mut` (320-331).  Line 324 destroys `[size, 2 * size - n)`. -/
def takeMut (triv : Bool) (i n : Nat) (a : Nat) : M α Unit :=
  (getVar i).bind fun h => (canMutate h).bind fun m =>
    if m = true then (destroyN triv h.ptr h.size (h.size - n)).bind fun _ => setVar i (some ⟨h.ptr, n, h.cap⟩)
    else
      let cap := recommendDown n h.cap
      (copyN triv a cap h.ptr n).bind fun _ => replace triv i ⟨a, n, cap⟩

/-- `data_mut` (106-114), after which the client writes an element through the pointer -/
def dataMutWrite (triv : Bool) (i idx : Nat) (v : α) (a : Nat) : M α Unit :=
  (getVar i).bind fun h => (canMutate h).bind fun m =>
    if m = true then assign h.ptr idx v
    else (copyN triv a h.cap h.ptr h.size).bind fun _ => (dec triv h).bind fun _ =>
      (setVar i (some ⟨a, h.size, h.cap⟩)).bind fun _ => assign a idx v

/-- `from_range`, `from_initializer_list` (128-148), used by the constructors of `array` -/
def fromRange (triv : Bool) (xs : List α) (a : Nat) : M α Unit :=
  if xs.length = 0 then copyCtor 0 else (copyRange triv a xs.length xs).bind fun _ => pushVar ⟨a, xs.length, xs.length⟩

/-- `from_fill` (150-153) -/
def fromFill (triv : Bool) (n : Nat) (v : α) (a : Nat) : M α Unit :=
  (fillN triv a n v).bind fun _ => pushVar ⟨a, n, n⟩

/-- `~with_capacity` (88) of variable `i` -/
def destroyVar (triv : Bool) (i : Nat) : M α Unit :=
  (getVar i).bind fun h => (setVar i none).bind fun _ => dec triv h

/-! ### Reading -/

/-- `get` (162) -/
def get (i idx : Nat) : M α α := (getVar i).bind fun h => read h.ptr idx

/-- `get_check` (164-169), used by `at`; `none`: `std::out_of_range` -/
def getCheck (i idx : Nat) : M α (Option α) :=
  (getVar i).bind fun h => if h.size ≤ idx then M.ret none else (read h.ptr idx).bind fun x => M.ret (some x)

/-- `std::equal` of `[p, p + n)` and `[q, q + n)`, from the `k`-th element on -/
def equalLoop (beq : α → α → Bool) (p q k : Nat) : Nat → M α Bool
  | 0 => M.ret true
  | n + 1 => (read p k).bind fun x => (read q k).bind fun y => if beq x y then equalLoop beq p q (k + 1) n else M.ret false

/-- `equals` (171-176) -/
def equals (beq : α → α → Bool) (i j : Nat) : M α Bool :=
  (getVar i).bind fun h => (getVar j).bind fun g =>
    if h.ptr = g.ptr then M.ret true else if h.size = g.size then equalLoop beq h.ptr g.ptr 0 h.size else M.ret false

/-- `identity` (`array.hpp` 318) -/
def identity (i : Nat) : M α Nat := (getVar i).bind fun h => M.ret h.ptr

/-! ### Client programs -/

/-- Operations.  A new array or transient becomes the next variable.  `transient()` and `persistent()` are copies, or moves
on rvalues; an operation on an rvalue array is the `Mut` version, followed by a move. -/
inductive Op (α : Type) where
  | fromRange (xs : List α)
  | fromFill (n : Nat) (v : α)
  | copyCtor (i : Nat)
  | moveCtor (i : Nat)
  | copyAssign (i j : Nat)
  | moveAssign (i j : Nat)
  | destroy (i : Nat)
  | pushBack (i : Nat) (v : α)
  | pushBackMut (i : Nat) (v : α)
  | set (i idx : Nat) (v : α)
  | setMut (i idx : Nat) (v : α)
  | update (i idx : Nat) (f : α → α)
  | updateMut (i idx : Nat) (f : α → α)
  | take (i n : Nat)
  | takeMut (i n : Nat)
  | dataMutWrite (i idx : Nat) (v : α)

def exec (triv : Bool) (mv : α → α) (a : Nat) : Op α → M α Unit
  | .fromRange xs => fromRange triv xs a
  | .fromFill n v => fromFill triv n v a
  | .copyCtor i => copyCtor i
  | .moveCtor i => moveCtor i
  | .copyAssign i j => copyAssign triv i j
  | .moveAssign i j => swap i j
  | .destroy i => destroyVar triv i
  | .pushBack i v => pushBack triv i v a
  | .pushBackMut i v => pushBackMut triv i v a
  | .set i idx v => assoc triv i idx v a
  | .setMut i idx v => assocMut triv i idx v a
  | .update i idx f => update triv mv i idx f a
  | .updateMut i idx f => updateMut triv mv i idx f a
  | .take i n => take triv i n a
  | .takeMut i n => takeMut triv i n a
  | .dataMutWrite i idx v => dataMutWrite triv i idx v a

/-! ### Specification: variables that hold lists -/

/-- the list in a variable other than the static one, if it is alive -/
def val (e : List (Option (List α))) (i : Nat) : Option (List α) := if i = 0 then none else (e[i]?).join

/-- what an operation does to the variables when it does not throw; `none`: not allowed (no such variable, index or size
out of range, size at the limit of `size_t`) -/
def spec (op : Op α) (e : List (Option (List α))) : Option (List (Option (List α))) :=
  match op with
  | .fromRange xs => some (e ++ [some xs])
  | .fromFill n v => some (e ++ [some (List.replicate n v)])
  | .copyCtor i => (val e i).map fun xs => e ++ [some xs]
  | .moveCtor i => (val e i).map fun xs => e.set i (some []) ++ [some xs]
  | .copyAssign i j => (val e i).bind fun _ => (val e j).map fun ys => e.set i (some ys)
  | .moveAssign i j => (val e i).bind fun xs => (val e j).map fun ys => (e.set i (some ys)).set j (some xs)
  | .destroy i => (val e i).map fun _ => e.set i none
  | .pushBack i v => (val e i).bind fun xs => if xs.length < maxSize then some (e ++ [some (xs ++ [v])]) else none
  | .pushBackMut i v => (val e i).bind fun xs => if xs.length < maxSize then some (e.set i (some (xs ++ [v]))) else none
  | .set i idx v => (val e i).bind fun xs => if idx < xs.length then some (e ++ [some (xs.set idx v)]) else none
  | .setMut i idx v | .dataMutWrite i idx v =>
      (val e i).bind fun xs => if idx < xs.length then some (e.set i (some (xs.set idx v))) else none
  | .update i idx f => (val e i).bind fun xs => (xs[idx]?).map fun x => e ++ [some (xs.set idx (f x))]
  | .updateMut i idx f => (val e i).bind fun xs => (xs[idx]?).map fun x => e.set i (some (xs.set idx (f x)))
  | .take i n => (val e i).bind fun xs => if n ≤ xs.length then some (e ++ [some (xs.take n)]) else none
  | .takeMut i n => (val e i).bind fun xs => if n ≤ xs.length then some (e.set i (some (xs.take n))) else none

/-- what the variables may be when the operation throws: as before, except that an update in place may leave the element
moved from -/
def specThrow (mv : α → α) (op : Op α) (e e' : List (Option (List α))) : Prop :=
  e' = e ∨ ∃ i idx f xs x, op = .updateMut i idx f ∧ val e i = some xs ∧ xs[idx]? = some x ∧
    e' = e.set i (some (xs.set idx (mv x)))

/-- an event: an operation, the address that the heap would return, and which of its steps, if any, throws -/
structure Ev (α : Type) where
  op : Op α
  a : Nat
  fault : Option Nat

end Arr
