import Verif.VecHeap.Model

/-!
# Code that runs in several threads

The memory of `Mem/Cells.lean`, with references counted, used by several threads at once.  The code of a thread is a tree of
single accesses to memory; between two of them other threads may do anything.

* A node has two parts that are accessed separately: its count, which is atomic (`refcount/refcount_policy.hpp` 23-41), and the
  rest, which is not.  `inc`, `dec` and `unique` are the operations of the count.
* Plain accesses read or write all of the rest of a node in one step.  `Threads/Machine.lean` says which of them would be a data
  race; where there are no races it does not matter how large the steps are.
* There are no exceptions.
-/

namespace Thr
open Mm

/-- the rest of the code of a thread -/
inductive Prog (D T β : Type) where
  | ret (b : β)
  | undef
  | read (p : Nat) (k : D → List (Slot T) → Prog D T β)
  /-- `none` is undefined -/
  | write (p : Nat) (f : D → List (Slot T) → Option (D × List (Slot T))) (k : Prog D T β)
  /-- `refs.inc()` (`refcount_policy.hpp` 33) -/
  | inc (p : Nat) (k : Prog D T β)
  /-- `refs.dec()` (`refcount_policy.hpp` 35): whether that was the last reference -/
  | dec (p : Nat) (k : Bool → Prog D T β)
  /-- `refs.unique()` (`refcount_policy.hpp` 37) -/
  | unique (p : Nat) (k : Bool → Prog D T β)
  /-- memory for `n` elements and a node with a count of 1 -/
  | alloc (n : Nat) (x : D) (k : Nat → Prog D T β)
  /-- memory for `n` elements and `j` pointers -/
  | free (p n j : Nat) (k : Prog D T β)

namespace Prog
variable {D T β δ : Type}

def bind : Prog D T β → (β → Prog D T δ) → Prog D T δ
  | ret b, f => f b
  | undef, _ => undef
  | read p k, f => read p fun d e => (k d e).bind f
  | write p g k, f => write p g (k.bind f)
  | inc p k, f => inc p (k.bind f)
  | dec p k, f => dec p fun b => (k b).bind f
  | unique p k, f => unique p fun b => (k b).bind f
  | alloc n x k, f => alloc n x fun p => (k p).bind f
  | free p n j k, f => free p n j (k.bind f)

end Prog

/-- what was done to a node: whether `dec` was the last one, whether `unique` was true -/
inductive Op where
  | read | write | inc | dec (last : Bool) | unique (yes : Bool) | alloc | free
  deriving DecidableEq

/-- kinds of access: to the count, plain ones, and to all of a node when it is made or freed -/
inductive Cls where
  | count | read | write | whole
  deriving DecidableEq

def Op.cls : Op → Cls
  | .read => .read
  | .write => .write
  | .inc => .count
  | .dec _ => .count
  | .unique _ => .count
  | .alloc => .whole
  | .free => .whole

/-- accesses to the same node that must not happen at the same time: one of them writes, and they are not both atomic -/
def Cls.conflict : Cls → Cls → Bool
  | .whole, _ => true
  | _, .whole => true
  | .write, .write => true
  | .write, .read => true
  | .read, .write => true
  | _, _ => false

namespace Prog
variable {D T β δ : Type}

/-- a single access to memory; `room` says for how many pointers there is room in a node -/
inductive Step (room : D → Nat) : Mem D T → Prog D T β → Op → Nat → Mem D T → Prog D T β → Prop
  | read {m : Mem D T} {p : Nat} {c : Cell D T} {k : D → List (Slot T) → Prog D T β} (hc : m p = some c) :
      Step room m (read p k) .read p m (k c.data c.els)
  | write {m : Mem D T} {p : Nat} {c : Cell D T} {f : D → List (Slot T) → Option (D × List (Slot T))} {r : D × List (Slot T)}
      {k : Prog D T β} (hc : m p = some c) (hf : f c.data c.els = some r) :
      Step room m (write p f k) .write p (upd m p (some { c with data := r.1, els := r.2 })) k
  | inc {m : Mem D T} {p : Nat} {c : Cell D T} {k : Prog D T β} (hc : m p = some c) :
      Step room m (inc p k) .inc p (upd m p (some { c with rc := c.rc + 1 })) k
  | dec {m : Mem D T} {p : Nat} {c : Cell D T} {k : Bool → Prog D T β} (hc : m p = some c) (h0 : 0 < c.rc) :
      Step room m (dec p k) (.dec (c.rc == 1)) p (upd m p (some { c with rc := c.rc - 1 })) (k (c.rc == 1))
  /-- the load may see an older value of the count (`World.Step.load`); a 1 is the last value, see `Fine.sees` -/
  | unique {m : Mem D T} {p : Nat} {c : Cell D T} {k : Bool → Prog D T β} {b : Bool} (hc : m p = some c) (hb : b = true → c.rc = 1) :
      Step room m (unique p k) (.unique b) p m (k b)
  | alloc {m : Mem D T} {n p : Nat} {x : D} {k : Nat → Prog D T β} (hp : m p = none) (h0 : p ≠ 0) :
      Step room m (alloc n x k) .alloc p (upd m p (some ⟨1, 0, List.replicate n .raw, x⟩)) (k p)
  | free {m : Mem D T} {p n j : Nat} {c : Cell D T} {k : Prog D T β} (hc : m p = some c) (he : c.els = List.replicate n .raw)
      (hj : room c.data = j) : Step room m (free p n j k) .free p (upd m p none) k

/-- the access to an existing node that a thread is about to make -/
def next : Prog D T β → Option (Nat × Cls)
  | read p _ => some (p, .read)
  | write p _ _ => some (p, .write)
  | inc p _ => some (p, .count)
  | dec p _ => some (p, .count)
  | unique p _ => some (p, .count)
  | free p _ _ _ => some (p, .whole)
  | _ => none

end Prog
end Thr
