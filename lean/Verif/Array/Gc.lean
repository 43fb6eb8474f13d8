import Mathlib.Data.List.Basic

/-!
# `array` and `array_transient` under a garbage collector

Model of `detail/arrays/no_capacity.hpp`, `detail/arrays/with_capacity.hpp`, `detail/arrays/node.hpp`, `array.hpp`,
`array_transient.hpp` and `transience/gc_transience_policy.hpp` for memory policies without reference counts
(`no_refcount_policy`): `array` is a `no_capacity` and never changes memory that others can see; `array_transient` is a
`with_capacity` and has a token; it may change a node in place if the node has the same token.

`inc()` and `dec()` do nothing, destructors of arrays neither.  The collector may release a node that no object points to at any
time (`Op.collect`).  Tokens are fresh numbers: a token is memory that stays allocated while a node or a transient has it.

Raw memory is explicit, as in `Array/Model.lean`: what C++ leaves undefined gives `ub`.  Allocation (also of tokens), copies of
elements and user functions may throw: the `k`-th of these (from 0) if the fault is `some k`.
-/

namespace ArrGc

variable {α β γ : Type}

/-- a node: the token in `ownee` (0: none), and memory for as many elements as it was allocated for -/
structure Cell (α : Type) where
  tok : Nat
  slots : List (Option α)

abbrev Mem (α : Type) := Nat → Option (Cell α)

inductive Res (α β : Type) where
  | ok (m : Mem α) (f : Option Nat) (b : β)
  /-- an exception leaves the function -/
  | thrown (m : Mem α) (f : Option Nat)
  | ub

abbrev M (α β : Type) := Mem α → Option Nat → Res α β

def M.ret (b : β) : M α β := fun m f => .ok m f b

def M.bind (x : M α β) (k : β → M α γ) : M α γ := fun m f =>
  match x m f with
  | .ok m f b => k b m f
  | .thrown m f => .thrown m f
  | .ub => .ub

/-- `IMMER_TRY`/`IMMER_CATCH` … `IMMER_RETHROW` -/
def M.guard (x : M α β) (h : M α Unit) : M α β := fun m f =>
  match x m f with
  | .thrown m f =>
      match h m f with
      | .ok m f _ => .thrown m f
      | _ => .ub
  | r => r

def undef : M α β := fun _ _ => .ub

/-- something that may throw -/
def tick : M α Unit := fun m f =>
  match f with
  | none => .ok m none ()
  | some 0 => .thrown m none
  | some (k + 1) => .ok m (some k) ()

def upd {β : Type} (f : Nat → β) (i : Nat) (v : β) : Nat → β := fun j => if j = i then v else f j

/-! ### Elements -/

def cell (p : Nat) : M α (Cell α) := fun m f =>
  match m p with
  | some c => .ok m f c
  | none => .ub

def put (p : Nat) (c : Cell α) : M α Unit := fun m f => .ok (upd m p (some c)) f ()

/-- `new (data() + i) T{v}`; over an object only if it needs no destructor -/
def construct (triv : Bool) (p i : Nat) (v : α) : M α Unit :=
  (cell p).bind fun c =>
    match c.slots[i]? with
    | some none => put p { c with slots := c.slots.set i (some v) }
    | some (some _) => if triv then put p { c with slots := c.slots.set i (some v) } else undef
    | none => undef

/-- `data()[i] = v` -/
def assign (p i : Nat) (v : α) : M α Unit :=
  (cell p).bind fun c =>
    match c.slots[i]? with
    | some (some _) => put p { c with slots := c.slots.set i (some v) }
    | _ => undef

/-- `data()[i]` -/
def read (p i : Nat) : M α α :=
  (cell p).bind fun c =>
    match c.slots[i]? with
    | some (some v) => M.ret v
    | _ => undef

/-- `destroy_at` (`util.hpp` 65-77) -/
def destroy1 (p i : Nat) : M α Unit :=
  (cell p).bind fun c =>
    match c.slots[i]? with
    | some (some _) => put p { c with slots := c.slots.set i none }
    | _ => undef

/-- `destroy_n` (`util.hpp` 98-111), `destroy` (83-96): nothing for trivially destructible types -/
def destroyLoop (p : Nat) (i : Nat) : Nat → M α Unit
  | 0 => M.ret ()
  | n + 1 => (destroy1 p i).bind fun _ => destroyLoop p (i + 1) n

def destroyN (triv : Bool) (p i n : Nat) : M α Unit := if triv then M.ret () else destroyLoop p i n

/-! ### Nodes (`node.hpp`) -/

/-- `heap::deallocate(sizeof_n(cap), p)`: the size must be that of the allocation, and no element may be left -/
def dealloc (triv : Bool) (p cap : Nat) : M α Unit :=
  (cell p).bind fun c =>
    if c.slots.length = cap ∧ (triv = true ∨ ∀ x ∈ c.slots, x.isNone = true) then fun m f => .ok (upd m p none) f ()
    else undef

/-- `delete_n` (62-66) -/
def deleteN (triv : Bool) (p sz cap : Nat) : M α Unit := (destroyN triv p 0 sz).bind fun _ => dealloc triv p cap

/-- `make_n` (68-71); `a` is the address that the heap returns -/
def makeN (a n : Nat) : M α Unit := tick.bind fun _ => put a ⟨0, List.replicate n none⟩

/-- `uninitialized_copy` (`util.hpp` 146-169) of the values `xs` to `data() + k`; when a copy throws, what was constructed since
`data()` is destroyed -/
def uninitCopy (triv : Bool) (p : Nat) : (k : Nat) → List α → M α Unit
  | _, [] => M.ret ()
  | k, v :: vs => ((tick.bind fun _ => construct triv p k v).guard (destroyN triv p 0 k)).bind fun _ => uninitCopy triv p (k + 1) vs

/-- `copy_n` from a range (93-108); `fill_n` (80-91) is the same loop over `n` times `v` -/
def copyRange (triv : Bool) (a n : Nat) (xs : List α) : M α Unit :=
  (makeN a n).bind fun _ => (uninitCopy triv a 0 xs).guard (dealloc triv a n)

/-- the first `n` elements -/
def readN (p : Nat) : (n : Nat) → M α (List α)
  | 0 => M.ret []
  | n + 1 => (readN p n).bind fun xs => (read p n).bind fun x => M.ret (xs ++ [x])

/-- `copy_n` from a node (110-113) -/
def copyN (triv : Bool) (a n p count : Nat) : M α Unit := (readN p count).bind fun xs => copyRange triv a n xs

/-- `p->ownee() = e` -/
def own (p e : Nat) : M α Unit := (cell p).bind fun c => put p { c with tok := e }

/-- `copy_e` (115-126) -/
def copyE (triv : Bool) (e a n p count : Nat) : M α Unit := (copyN triv a n p count).bind fun _ => own a e

/-- `can_mutate` (57-60): `refs().unique()` is false (`no_refcount_policy.hpp` 27) -/
def canMutate (p e : Nat) : M α Bool := (cell p).bind fun c => M.ret (c.tok == e)

/-- `elem = op(std::move(elem))`: the element is moved from (which leaves `mv x`) before `op`, which may throw -/
def updateElem (mv : α → α) (p idx : Nat) (g : α → α) : M α Unit :=
  (read p idx).bind fun x => (assign p idx (mv x)).bind fun _ => tick.bind fun _ => assign p idx (g x)

/-! ### `no_capacity` -/

/-- `array`: a node and a size (`no_capacity.hpp` 30-31) -/
structure A where
  ptr : Nat
  size : Nat
deriving DecidableEq

namespace A
variable (triv : Bool) (mv : α → α)

/-- `from_range` (109-119), `from_initializer_list` (126-131); `ea` is the node of `empty()` (33-40) -/
def fromRange (ea : Nat) (xs : List α) (a : Nat) : M α A :=
  if xs.length = 0 then M.ret ⟨ea, 0⟩ else (copyRange triv a xs.length xs).bind fun _ => M.ret ⟨a, xs.length⟩

/-- `from_fill` (121-124) -/
def fromFill (n : Nat) (v : α) (a : Nat) : M α A := (copyRange triv a n (List.replicate n v)).bind fun _ => M.ret ⟨a, n⟩

/-- `push_back` (161-172) -/
def pushBack (x : A) (v : α) (a : Nat) : M α A :=
  (copyN triv a (x.size + 1) x.ptr x.size).bind fun _ =>
    ((tick.bind fun _ => construct triv a x.size v).bind fun _ => M.ret (A.mk a (x.size + 1))).guard (deleteN triv a x.size (x.size + 1))

/-- `assoc` (174-185) -/
def assoc (x : A) (idx : Nat) (v : α) (a : Nat) : M α A :=
  (copyN triv a x.size x.ptr x.size).bind fun _ =>
    ((tick.bind fun _ => assign a idx v).bind fun _ => M.ret (A.mk a x.size)).guard (deleteN triv a x.size x.size)

/-- `update` (187-200) -/
def update (x : A) (idx : Nat) (g : α → α) (a : Nat) : M α A :=
  (copyN triv a x.size x.ptr x.size).bind fun _ =>
    ((updateElem mv a idx g).bind fun _ => M.ret (A.mk a x.size)).guard (deleteN triv a x.size x.size)

/-- `take` (202-206) -/
def take (x : A) (n : Nat) (a : Nat) : M α A := (copyN triv a n x.ptr n).bind fun _ => M.ret ⟨a, n⟩

end A

/-! ### `with_capacity` -/

/-- `array_transient`: node, size and capacity (`with_capacity.hpp` 31-33), and the token of its `owner` -/
structure Tr where
  ptr : Nat
  size : Nat
  cap : Nat
  tok : Nat
deriving DecidableEq

/-- `std::numeric_limits<size_t>::max()` -/
def maxSize : Nat := 2 ^ 64 - 1

/-- `recommend_up` (178-185) -/
def recommendUp (sz cap : Nat) : Nat := if sz ≤ cap then cap else if maxSize / 2 ≤ cap then maxSize else max (2 * cap) sz

/-- `recommend_down` (187-193) -/
def recommendDown (sz cap : Nat) : Nat := if sz = 0 then 1 else if sz < cap / 2 then sz * 2 else cap

namespace Tr
variable (triv : Bool) (mv : α → α)

/-- `push_back_mut` (209-226); `*this = …` (72-76) is a swap with a temporary, whose destructor does nothing -/
def pushBack (t : Tr) (v : α) (a : Nat) : M α Tr :=
  (canMutate t.ptr t.tok).bind fun b =>
    if b = true ∧ t.size < t.cap then
      (tick.bind fun _ => construct triv t.ptr t.size v).bind fun _ => M.ret { t with size := t.size + 1 }
    else
      (copyE triv t.tok a (recommendUp (t.size + 1) t.cap) t.ptr t.size).bind fun _ =>
        ((tick.bind fun _ => construct triv a t.size v).bind fun _ => M.ret (Tr.mk a (t.size + 1) (recommendUp (t.size + 1) t.cap) t.tok)).guard
          (deleteN triv a t.size (recommendUp (t.size + 1) t.cap))

/-- `assoc_mut` (241-256).  Line 246 has `copy_n`: the new node does not get the token.  An assignment of an element that throws
is taken to have no effect. -/
def assoc (t : Tr) (idx : Nat) (v : α) (a : Nat) : M α Tr :=
  (canMutate t.ptr t.tok).bind fun b =>
    if b = true then (tick.bind fun _ => assign t.ptr idx v).bind fun _ => M.ret t
    else
      (copyN triv a t.cap t.ptr t.size).bind fun _ =>
        ((tick.bind fun _ => assign a idx v).bind fun _ => M.ret { t with ptr := a }).guard (deleteN triv a t.size t.cap)

/-- `update_mut` (273-291) -/
def update (t : Tr) (idx : Nat) (g : α → α) (a : Nat) : M α Tr :=
  (canMutate t.ptr t.tok).bind fun b =>
    if b = true then (updateElem mv t.ptr idx g).bind fun _ => M.ret t
    else
      (copyE triv t.tok a t.cap t.ptr t.size).bind fun _ =>
        ((updateElem mv a idx g).bind fun _ => M.ret { t with ptr := a }).guard (deleteN triv a t.size t.cap)

/-- `take_mut` (301-312).  Line 305 destroys `[size, 2 * size - n)`. -/
def take (t : Tr) (n : Nat) (a : Nat) : M α Tr :=
  (canMutate t.ptr t.tok).bind fun b =>
    if b = true then (destroyN triv t.ptr t.size (t.size - n)).bind fun _ => M.ret { t with size := n }
    else
      (copyE triv t.tok a (recommendDown n t.cap) t.ptr n).bind fun _ => M.ret ⟨a, n, recommendDown n t.cap, t.tok⟩

/-- `data_mut` (104-112), after which the client writes an element through the pointer -/
def dataMutWrite (t : Tr) (idx : Nat) (v : α) (a : Nat) : M α Tr :=
  (canMutate t.ptr t.tok).bind fun b =>
    if b = true then (assign t.ptr idx v).bind fun _ => M.ret t
    else (copyE triv t.tok a t.cap t.ptr t.size).bind fun _ => (assign a idx v).bind fun _ => M.ret { t with ptr := a }

/-- `operator no_capacity_t` (114-122) -/
def toA (t : Tr) (a : Nat) : M α A :=
  if t.size = t.cap then M.ret ⟨t.ptr, t.size⟩
  else (copyN triv a t.size t.ptr t.size).bind fun _ => M.ret ⟨a, t.size⟩

end Tr

/-! ### Client programs -/

inductive Obj where
  | arr (x : A)
  | tr (t : Tr)
deriving DecidableEq

structure St (α : Type) where
  mem : Mem α
  /-- arrays and transients; `none`: destroyed -/
  vars : List (Option Obj)
  /-- the next token -/
  next : Nat

/-- Operations.  A new object becomes the next variable.  Operations on rvalue arrays are the same as on others (`array.hpp`
335-338, 345-348, 356-360, 367-370), as is `transient()`. -/
inductive Op (α : Type) where
  | fromRange (xs : List α)
  | fromFill (n : Nat) (v : α)
  /-- `array_transient()` -/
  | newTr
  | copyCtor (i : Nat)
  | moveCtor (i : Nat)
  | copyAssign (i j : Nat)
  | moveAssign (i j : Nat)
  | destroy (i : Nat)
  /-- on an array: a new one; on a transient: in place -/
  | pushBack (i : Nat) (v : α)
  | set (i idx : Nat) (v : α)
  | update (i idx : Nat) (g : α → α)
  | take (i n : Nat)
  | dataMutWrite (i idx : Nat) (v : α)
  | transient (i : Nat)
  /-- `persistent() &` -/
  | persistent (i : Nat)
  /-- `persistent() &&` -/
  | persistentMove (i : Nat)
  /-- the collector releases a node -/
  | collect (p : Nat)

/-- the outcome of an operation -/
inductive Done (α : Type) where
  | ok (s : St α)
  | thrown (s : St α)
  | ub
  /-- not a call that a client may make, or not something the collector does -/
  | no

/-- where an object points to -/
def Obj.ptr : Obj → Nat
  | .arr x => x.ptr
  | .tr t => t.ptr

section
variable (triv : Bool) (mv : α → α) (ea ew : Nat)

/-- run `x` and change the objects accordingly -/
def St.run (s : St α) (f : Option Nat) (x : M α β) (k : Mem α → β → St α) : Done α :=
  match x s.mem f with
  | .ok m _ b => .ok (k m b)
  | .thrown m _ => .thrown { s with mem := m }
  | .ub => .ub

def St.obj (s : St α) (i : Nat) : Option Obj := (s.vars[i]?).join

/-- One operation.  `a` is where the heap finds memory; `ea` and `ew` are the static nodes of `no_capacity::empty()` and
`with_capacity::empty()` (35-39). -/
def step (a : Nat) (f : Option Nat) (op : Op α) (s : St α) : Done α :=
  let fresh (x : M α A) : Done α := s.run f x fun m r => { s with mem := m, vars := s.vars ++ [some (.arr r)] }
  let inPlace (i : Nat) (x : M α Tr) : Done α := s.run f x fun m r => { s with mem := m, vars := s.vars.set i (some (.tr r)) }
  match op with
  | .fromRange xs => fresh (A.fromRange triv ea xs a)
  | .fromFill n v => fresh (A.fromFill triv n v a)
  | .newTr => s.run f tick fun m _ => { s with mem := m, vars := s.vars ++ [some (.tr ⟨ew, 0, 1, s.next⟩)], next := s.next + 1 }
  | .copyCtor i =>
    match s.obj i with
    | some (.arr x) => .ok { s with vars := s.vars ++ [some (.arr x)] }
    -- `owner(const owner&)` (gc_transience_policy.hpp 65-69): a new token for both
    | some (.tr t) => match tick s.mem f with
      | .ok m f _ => match tick m f with
        | .ok m _ _ => .ok { s with mem := m, vars := s.vars.set i (some (.tr { t with tok := s.next + 1 })) ++ [some (.tr { t with tok := s.next })], next := s.next + 2 }
        | .thrown m _ => .thrown { s with mem := m, next := s.next + 1 }
        | .ub => .ub
      | .thrown m _ => .thrown { s with mem := m }
      | .ub => .ub
    | none => .no
  | .moveCtor i =>
    match s.obj i with
    | some (.arr x) => .ok { s with vars := s.vars.set i (some (.arr ⟨ea, 0⟩)) ++ [some (.arr x)] }
    -- `owner(owner&&)` (70-72): the same token; `with_capacity(with_capacity&&)` (59-63)
    | some (.tr t) => .ok { s with vars := s.vars.set i (some (.tr ⟨ew, 0, 1, t.tok⟩)) ++ [some (.tr t)] }
    | none => .no
  | .copyAssign i j =>
    match s.obj i, s.obj j with
    | some (.arr _), some (.arr y) => .ok { s with vars := s.vars.set i (some (.arr y)) }
    -- `operator=(const owner&)` (73-78)
    | some (.tr _), some (.tr u) => match tick s.mem f with
      | .ok m f _ => match tick m f with
        | .ok m _ _ => .ok { s with mem := m, vars := (s.vars.set j (some (.tr { u with tok := s.next }))).set i (some (.tr { u with tok := s.next + 1 })), next := s.next + 2 }
        | .thrown m _ => .thrown { s with mem := m, vars := s.vars.set j (some (.tr { u with tok := s.next })), next := s.next + 1 }
        | .ub => .ub
      | .thrown m _ => .thrown { s with mem := m }
      | .ub => .ub
    | _, _ => .no
  | .moveAssign i j =>
    match s.obj i, s.obj j with
    | some (.arr x), some (.arr y) => .ok { s with vars := (s.vars.set j (some (.arr x))).set i (some (.arr y)) }
    -- `operator=(owner&&)` (79-83) takes the token, `operator=(with_capacity&&)` (72-76) swaps
    | some (.tr t), some (.tr u) => .ok { s with vars := (s.vars.set j (some (.tr { t with tok := u.tok }))).set i (some (.tr u)) }
    | _, _ => .no
  | .destroy i => match s.obj i with
    | some _ => .ok { s with vars := s.vars.set i none }
    | none => .no
  | .pushBack i v => match s.obj i with
    | some (.arr x) => fresh (A.pushBack triv x v a)
    | some (.tr t) => inPlace i (Tr.pushBack triv t v a)
    | none => .no
  | .set i idx v => match s.obj i with
    | some (.arr x) => fresh (A.assoc triv x idx v a)
    | some (.tr t) => inPlace i (Tr.assoc triv t idx v a)
    | none => .no
  | .update i idx g => match s.obj i with
    | some (.arr x) => fresh (A.update triv mv x idx g a)
    | some (.tr t) => inPlace i (Tr.update triv mv t idx g a)
    | none => .no
  | .take i n => match s.obj i with
    | some (.arr x) => fresh (A.take triv x n a)
    | some (.tr t) => inPlace i (Tr.take triv t n a)
    | none => .no
  | .dataMutWrite i idx v => match s.obj i with
    | some (.tr t) => inPlace i (Tr.dataMutWrite triv t idx v a)
    | _ => .no
  -- `array::transient()` (array.hpp 303-310), `with_capacity(const no_capacity_t&)` (53-57), `owner()` (62-64)
  | .transient i => match s.obj i with
    | some (.arr x) => s.run f tick fun m _ => { s with mem := m, vars := s.vars ++ [some (.tr ⟨x.ptr, x.size, x.size, s.next⟩)], next := s.next + 1 }
    | _ => .no
  -- `array_transient::persistent() &` (array_transient.hpp 184-188): a new token first
  | .persistent i => match s.obj i with
    | some (.tr t) => match tick s.mem f with
      | .ok m f _ =>
        let s1 : St α := { s with mem := m, vars := s.vars.set i (some (.tr { t with tok := s.next })), next := s.next + 1 }
        s1.run f (Tr.toA triv t a) fun m r => { s1 with mem := m, vars := s1.vars ++ [some (.arr r)] }
      | .thrown m _ => .thrown { s with mem := m }
      | .ub => .ub
    | _ => .no
  -- `persistent() &&` (189-192): the conversion is `const`, so that nothing is moved, and the token stays
  | .persistentMove i => match s.obj i with
    | some (.tr t) => fresh (Tr.toA triv t a)
    | _ => .no
  | .collect p => if p ≠ ea ∧ p ≠ ew ∧ ∀ o ∈ s.vars, o.map Obj.ptr ≠ some p then .ok { s with mem := upd s.mem p none } else .no

/-- the start: the two static nodes -/
def start : St α where
  mem := upd (upd (fun _ => none) ea (some ⟨0, []⟩)) ew (some ⟨0, [none]⟩)
  vars := []
  next := 1

end

/-! ### Reading -/

/-- `get` (`no_capacity.hpp` 145, `with_capacity.hpp` 162) -/
def get (p idx : Nat) : M α α := read p idx

/-- `get_check` (`no_capacity.hpp` 147-152, `with_capacity.hpp` 164-169); `none`: `std::out_of_range` -/
def getCheck (p size idx : Nat) : M α (Option α) := if size ≤ idx then M.ret none else (read p idx).bind fun x => M.ret (some x)

/-- `std::equal` of `[p, p + n)` and `[q, q + n)`, from the `k`-th element on -/
def equalLoop (beq : α → α → Bool) (p q k : Nat) : Nat → M α Bool
  | 0 => M.ret true
  | n + 1 => (read p k).bind fun x => (read q k).bind fun y => if beq x y then equalLoop beq p q (k + 1) n else M.ret false

/-- `equals` (`no_capacity.hpp` 154-159) -/
def A.equals (beq : α → α → Bool) (x y : A) : M α Bool :=
  if x.ptr = y.ptr then M.ret true else if x.size = y.size then equalLoop beq x.ptr y.ptr 0 x.size else M.ret false

end ArrGc
