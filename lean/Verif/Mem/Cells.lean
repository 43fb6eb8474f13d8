import Mathlib.Data.List.Basic

/-!
# Memory of nodes

Raw memory as the node classes of immer use it: nodes with a reference count, an ownership token, an array of elements, and
pointers to other nodes.

* An element slot is `raw` (no object there), `live x`, or `moved` (an object that was moved from: it may only be assigned to
  or destroyed).  Anything that C++ leaves undefined gives `ub`: access to memory that is not allocated or to an object that is
  not there, construction over a live object, memory released while an object is left in it or with a size other than the
  allocated one, a count below zero.
* Allocation, copies of elements, and user functions (`Hash`, `Equal`, the function given to `update`) may throw; moves of
  elements may not.  `fault = some (k, n)`: the `n`-th such event of kind `k` throws.
* `gc = false`: `refcount_policy`, `no_transience_policy` (the default).  `gc = true`: `no_refcount_policy`,
  `gc_transience_policy`, `gc_heap`.  Under the collector, released memory may not be touched either (the real `deallocate`
  does nothing, so this asks for more).
* The allocator is an arbitrary function of the time and of the memory.
-/

namespace Mm

inductive Slot (T : Type) where
  | raw
  | live (x : T)
  | moved

structure Cell (D T : Type) where
  /-- `refs_t` (`refcount/refcount_policy.hpp` 26-41); not used under the collector -/
  rc : Nat
  /-- `ownee_t` (`transience/gc_transience_policy.hpp` 90-107); 0 is `nullptr`; not used with reference counting -/
  tok : Nat
  /-- memory for elements -/
  els : List (Slot T)
  /-- the rest of the node -/
  data : D

abbrev Mem (D T : Type) := Nat → Option (Cell D T)

/-- what may throw -/
inductive Kind where
  | alloc
  | copy
  | user
  /-- allocation of a table of sizes for a node that is changed in place; counted apart from the others because not all code
  is prepared for it to fail (see F24) -/
  | table
deriving DecidableEq

structure St (D T : Type) where
  mem : Mem D T
  clock : Nat
  fault : Option (Kind × Nat)

/-- memory policy and allocator -/
structure Env (D T : Type) where
  gc : Bool
  alloc : Nat → Mem D T → Nat

/-- the allocator returns memory that is not in use, as long as there is any; `nullptr` is not an address -/
def Env.Fresh {D T : Type} (E : Env D T) : Prop :=
  ∀ t (m : Mem D T), (∃ l : List Nat, ∀ p, m p ≠ none → p ∈ l) → m (E.alloc t m) = none ∧ E.alloc t m ≠ 0

inductive Res (D T β : Type) where
  | ok (s : St D T) (b : β)
  /-- an exception -/
  | thrown (s : St D T)
  | ub

abbrev M (D T β : Type) := St D T → Res D T β

variable {D T β δ : Type}

def M.bind (x : M D T β) (f : β → M D T δ) : M D T δ := fun s =>
  match x s with
  | .ok s' b => f b s'
  | .thrown s' => .thrown s'
  | .ub => .ub

def M.ret (b : β) : M D T β := fun s => .ok s b

/-- `IMMER_TRY`/`IMMER_CATCH` … `IMMER_RETHROW` -/
def M.guard (x : M D T β) (handler : M D T Unit) : M D T β := fun s =>
  match x s with
  | .thrown s' =>
      match handler s' with
      | .ok s'' _ => .thrown s''
      | .thrown _ => .ub
      | .ub => .ub
  | r => r

def undef : M D T β := fun _ => .ub

/-- something that may throw -/
def tick (k : Kind) : M D T Unit := fun s =>
  match s.fault with
  | none => .ok s ()
  | some (k', n) =>
      if k = k' then
        match n with
        | 0 => .thrown { s with fault := none }
        | n + 1 => .ok { s with fault := some (k', n) } ()
      else .ok s ()

def upd {γ : Type} (f : Nat → γ) (i : Nat) (v : γ) : Nat → γ := fun j => if j = i then v else f j

/-! ### Nodes -/

def cell (p : Nat) : M D T (Cell D T) := fun s =>
  match s.mem p with
  | some c => .ok s c
  | none => .ub

/-- change an allocated node -/
def modify (p : Nat) (f : Cell D T → Cell D T) : M D T Unit := fun s =>
  match s.mem p with
  | some c => .ok { s with mem := upd s.mem p (some (f c)) } ()
  | none => .ub

/-- `heap::allocate` and construction of a node: a count of 1, no owner, and `n` raw slots -/
def alloc (E : Env D T) (n : Nat) (x : D) : M D T Nat :=
  (tick .alloc).bind fun _ s =>
    .ok { s with mem := upd s.mem (E.alloc s.clock s.mem) (some ⟨1, 0, List.replicate n .raw, x⟩), clock := s.clock + 1 }
      (E.alloc s.clock s.mem)

/-- `heap::deallocate` of memory for `n` elements and `k` pointers (`room` says for how many it was allocated) -/
def dealloc (room : D → Nat) (p n k : Nat) : M D T Unit :=
  (cell p).bind fun c =>
    if c.els.length = n ∧ room c.data = k ∧ c.els.all (fun x => match x with | .raw => true | _ => false) = true then
      fun s => .ok { s with mem := upd s.mem p none } ()
    else undef

/-- `refs.inc()` (`refcount_policy.hpp` 33, `no_refcount_policy.hpp` 33) -/
def inc (E : Env D T) (p : Nat) : M D T Unit :=
  (cell p).bind fun _ => if E.gc then M.ret () else modify p fun c => { c with rc := c.rc + 1 }

/-- `refs.dec()` (`refcount_policy.hpp` 35, `no_refcount_policy.hpp` 34): whether that was the last reference -/
def dec (E : Env D T) (p : Nat) : M D T Bool :=
  (cell p).bind fun c =>
    if E.gc then M.ret false
    else if c.rc = 0 then undef
    else (modify p fun c => { c with rc := c.rc - 1 }).bind fun _ => M.ret (c.rc == 1)

/-- `refs.unique() || ownee.can_mutate(e)` (`refcount_policy.hpp` 37, `no_refcount_policy.hpp` 35,
`no_transience_policy.hpp` 31, `gc_transience_policy.hpp` 102) -/
def mutable (E : Env D T) (e : Nat) (c : Cell D T) : Bool := if E.gc then c.tok == e else c.rc == 1

def canMutate (E : Env D T) (e p : Nat) : M D T Bool := (cell p).bind fun c => M.ret (mutable E e c)

/-- `ownee(x) = e` -/
def setTok (E : Env D T) (p e : Nat) : M D T Unit :=
  (cell p).bind fun _ => if E.gc then modify p fun c => { c with tok := e } else M.ret ()

/-! ### Elements -/

def setEls (p : Nat) (l : List (Slot T)) : M D T Unit := modify p fun c => { c with els := l }

/-- a `const` access to an element -/
def readEl (p i : Nat) : M D T T :=
  (cell p).bind fun c =>
    match c.els[i]? with
    | some (.live v) => M.ret v
    | _ => undef

/-- `T{*x}`: an element copied out of a node -/
def copyEl (p i : Nat) : M D T T := (readEl p i).bind fun v => (tick .copy).bind fun _ => M.ret v

/-- `T{std::move(*x)}` -/
def moveEl (p i : Nat) : M D T T :=
  (cell p).bind fun c =>
    match c.els[i]? with
    | some (.live v) => (setEls p (c.els.set i .moved)).bind fun _ => M.ret v
    | _ => undef

/-- `new (x) T{std::move(v)}` -/
def construct (p i : Nat) (v : T) : M D T Unit :=
  (cell p).bind fun c =>
    match c.els[i]? with
    | some .raw => setEls p (c.els.set i (.live v))
    | _ => undef

/-- `*x = std::move(v)` -/
def assignEl (p i : Nat) (v : T) : M D T Unit :=
  (cell p).bind fun c =>
    match c.els[i]? with
    | some (.live _) => setEls p (c.els.set i (.live v))
    | some .moved => setEls p (c.els.set i (.live v))
    | _ => undef

/-- `destroy_at` (`util.hpp` 65-77); for trivially destructible types nothing happens, which leaves less to go wrong -/
def destroy1 (p i : Nat) : M D T Unit :=
  (cell p).bind fun c =>
    match c.els[i]? with
    | some (.live _) => setEls p (c.els.set i .raw)
    | some .moved => setEls p (c.els.set i .raw)
    | _ => undef

/-- `destroy_n`, `destroy` (`util.hpp` 79-111) -/
def destroyN (p i : Nat) : Nat → M D T Unit
  | 0 => M.ret ()
  | n + 1 => (destroy1 p i).bind fun _ => destroyN p (i + 1) n

/-- the loop of `uninitialized_copy` (`util.hpp` 146-169); `k` elements of the destination, which starts at `o`, are done,
and are destroyed when a copy throws -/
def uninitCopyLoop (src : Nat) (dst o : Nat) : (i k n : Nat) → M D T Unit
  | _, _, 0 => M.ret ()
  | i, k, n + 1 =>
      (((copyEl src i).bind fun v => construct dst (o + k) v).guard (destroyN dst o k)).bind fun _ =>
        uninitCopyLoop src dst o (i + 1) (k + 1) n

/-- `uninitialized_copy(src + i, src + i + n, dst + o)` -/
def uninitCopy (src i n dst o : Nat) : M D T Unit := uninitCopyLoop src dst o i 0 n

/-- `uninitialized_move(src + i, src + i + n, dst + o)` (`util.hpp` 113-144) -/
def uninitMove (src i : Nat) : (n dst o : Nat) → M D T Unit
  | 0, _, _ => M.ret ()
  | n + 1, dst, o => (moveEl src i).bind fun v => (construct dst o v).bind fun _ => uninitMove src (i + 1) n dst (o + 1)

end Mm
