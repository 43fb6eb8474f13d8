import Verif.Threads.Model
import Verif.Threads.Spec
import Verif.Rrb.VecSpec

/-!
# Threads with vectors

`n` threads, each with some vectors, run commands (`Threads/Spec.lean`) on them.  Any thread may make the next access to memory
at any time.  A thread that is not within a command may pass a vector on to others through a pool (say, a queue with a lock).

Every access has a number.  `know` is what *happens before* the next access of a thread: the accesses before it in the same
thread, and what the thread got to know through counts and through the pool.

* `dec()` is `fetch_sub` with `memory_order_acq_rel`: what the thread knows, this access included, is released to those that
  acquire it, and what was released through the count before is acquired.
* `inc()` is `fetch_add` with `memory_order_relaxed`: nothing is acquired or released.  What was released before stays
  available, as changes of the count are all read-modify-write operations ("release sequence").
* `unique()` is a load (`refcount == 1`, sequentially consistent).  It may see any value of the count since the last one that
  was set by an access that happens before the load.  What was released up to that value is acquired.  (If it is false nothing is
  acquired here, as nothing depends on it.)
* Passing a vector on through the pool releases, taking one acquires.

A data race is an access that does not have before it all those that it conflicts with (`Cls.conflict`).  Memory that is freed
and allocated again is new, as `malloc` and `free` see to that.
-/

namespace Thr
open Mm Rrb VecHeap
open Thr.Prog (ret undef)
open Spec (Cmd Ev)

variable {T : Type}

/-- a thread: its vectors, or the command it is running and what is left to do of it -/
inductive Phase (T : Type) where
  | idle (hs : List Vc)
  | busy (x : Cmd T) (p : TM T (List Vc × Option T))

structure Thread (T : Type) where
  know : List Nat
  phase : Phase T

/-- accesses to the nodes since they were allocated, and what was released through their counts -/
structure Clk where
  acc : Nat → List (Nat × Cls)
  rel : Nat → List Nat

/-- a value of a count: the access that set it, and what is acquired with it -/
structure Mod where
  id : Nat
  val : Nat
  rel : List Nat

structure World (T : Type) where
  mem : Mem Dat T
  th : Nat → Thread T
  /-- vectors passed on, with what was known to those that did -/
  pool : List (Vc × List Nat)
  clk : Clk
  /-- the values of the counts since the nodes were allocated, the last one first -/
  hist : Nat → List Mod
  /-- the number of the next access -/
  now : Nat
  log : List (Ev T)

section
variable (c : Cfg) (er et : Nat)

/-- the code of a command (`vector.hpp`): the constructors and the destructor (`rbtree.hpp` 87-139), `operator[]` (203-206),
`push_back` (243-251) and `update` (298-308), where the versions for rvalues work in place (`push_back_move` 378-382,
`update_move` 398-403) -/
def code : Cmd T → List Vc → TM T (List Vc × Option T)
  | .make, hs => (empty c er et).bind fun v => ret (hs ++ [v], none)
  | .copy i, hs => match hs[i]? with
    | some v => (share v).bind fun _ => ret (hs ++ [v], none)
    | none => undef
  | .drop i, hs => match hs[i]? with
    | some v => (drop c v).bind fun _ => ret (hs.eraseIdx i, none)
    | none => undef
  | .get i k, hs => match hs[i]? with
    | some v => (get c v k).bind fun x => ret (hs, some x)
    | none => undef
  | .push i x, hs => match hs[i]? with
    | some v => (pushBack c v x).bind fun w => ret (hs ++ [w], none)
    | none => undef
  | .pushIn i x, hs => match hs[i]? with
    | some v => (pushBackMut c v x).bind fun w => ret (hs.set i w, none)
    | none => undef
  | .update i k f, hs => match hs[i]? with
    | some v => (update c f v k).bind fun w => ret (hs ++ [w], none)
    | none => undef
  | .updateIn i k f, hs => match hs[i]? with
    | some v => (updateMut c f v k).bind fun w => ret (hs.set i w, none)
    | none => undef

/-- what callers have to see to: there is such a vector and such an element; reading needs a tree that is not too high
(DESIGN.md, F4) -/
def Allowed : Cmd T → List Vc → Prop
  | .make, _ => True
  | .copy i, hs => i < hs.length
  | .drop i, hs => i < hs.length
  | .get i k, hs => ∃ v, hs[i]? = some v ∧ k < v.size ∧ Vec.Fits c v.size
  | .push i _, hs => i < hs.length
  | .pushIn i _, hs => i < hs.length
  | .update i k _, hs => ∃ v, hs[i]? = some v ∧ k < v.size
  | .updateIn i k _, hs => ∃ v, hs[i]? = some v ∧ k < v.size

/-- whether what was released through the count is acquired -/
def Op.acquires : Op → Bool
  | .dec _ => true
  | .unique b => b
  | _ => false

/-- what a thread that knew `K` knows after access number `n`, to node `a` -/
def Op.know (o : Op) (a n : Nat) (K : List Nat) (k : Clk) : List Nat := n :: (K ++ if o.acquires then k.rel a else [])

def Clk.after (k : Clk) (o : Op) (a n : Nat) (K : List Nat) : Clk where
  acc := upd k.acc a (match o with
    | .alloc => [(n, .whole)]
    | .free => []
    | o => (n, o.cls) :: k.acc a)
  rel := upd k.rel a (match o with
    | .alloc => []
    | .free => []
    | .dec _ => n :: (K ++ k.rel a)
    | _ => k.rel a)

/-- the values of counts after an access; `m'` is memory after it -/
def histAfter {D : Type} (h : Nat → List Mod) (k : Clk) (o : Op) (a n : Nat) (K : List Nat) (m' : Mem D T) : Nat → List Mod :=
  upd h a (match o with
    | .alloc => [⟨n, ((m' a).map Cell.rc).getD 0, (k.after o a n K).rel a⟩]
    | .free => []
    | .inc => ⟨n, ((m' a).map Cell.rc).getD 0, (k.after o a n K).rel a⟩ :: h a
    | .dec _ => ⟨n, ((m' a).map Cell.rc).getD 0, (k.after o a n K).rel a⟩ :: h a
    | _ => h a)

inductive World.Step (n : Nat) : World T → World T → Prop
  | start {w : World T} {t : Nat} {K : List Nat} {hs : List Vc} {x : Cmd T} (ht : t < n) (h : w.th t = ⟨K, .idle hs⟩) (hx : Allowed c x hs) :
      World.Step n w { w with th := upd w.th t ⟨K, .busy x (code c er et x hs)⟩ }
  | run {w : World T} {t : Nat} {K : List Nat} {x : Cmd T} {p p' : TM T (List Vc × Option T)} {o : Op} {a : Nat} {m' : Mem Dat T} (ht : t < n)
      (h : w.th t = ⟨K, .busy x p⟩) (ho : ∀ b, o ≠ .unique b) (hs : Prog.Step room w.mem p o a m' p') :
      World.Step n w { w with mem := m', th := upd w.th t ⟨o.know a w.now K w.clk, .busy x p'⟩, clk := w.clk.after o a w.now K,
                              hist := histAfter w.hist w.clk o a w.now K m', now := w.now + 1 }
  | load {w : World T} {t : Nat} {K : List Nat} {x : Cmd T} {a : Nat} {k : Bool → TM T (List Vc × Option T)} {pre post : List Mod} {y : Mod} (ht : t < n)
      (h : w.th t = ⟨K, .busy x (.unique a k)⟩) (hm : w.mem a ≠ none) (hh : w.hist a = pre ++ y :: post) (hp : ∀ z ∈ pre, z.id ∉ K) :
      World.Step n w { w with th := upd w.th t ⟨w.now :: (K ++ if y.val = 1 then y.rel else []), .busy x (k (y.val == 1))⟩,
                              clk := w.clk.after (.unique (y.val == 1)) a w.now K, now := w.now + 1 }
  | finish {w : World T} {t : Nat} {K : List Nat} {x : Cmd T} {hs : List Vc} {r : Option T} (ht : t < n) (h : w.th t = ⟨K, .busy x (ret (hs, r))⟩) :
      World.Step n w { w with th := upd w.th t ⟨K, .idle hs⟩, log := w.log ++ [.done t x r] }
  | send {w : World T} {t i : Nat} {K : List Nat} {hs : List Vc} {v : Vc} (ht : t < n) (h : w.th t = ⟨K, .idle hs⟩) (hv : hs[i]? = some v) :
      World.Step n w { w with th := upd w.th t ⟨K, .idle (hs.eraseIdx i)⟩, pool := w.pool ++ [(v, K)], log := w.log ++ [.send t i] }
  | recv {w : World T} {t j : Nat} {K K' : List Nat} {hs : List Vc} {v : Vc} (ht : t < n) (h : w.th t = ⟨K, .idle hs⟩) (hv : w.pool[j]? = some (v, K')) :
      World.Step n w { w with th := upd w.th t ⟨K ++ K', .idle (hs ++ [v])⟩, pool := w.pool.eraseIdx j, log := w.log ++ [.recv t j] }

/-- The start: the static nodes of `empty_root` and `empty_tail` (rbtree.hpp 43-53) and nothing else. -/
def World.init : World T where
  mem := upd (upd (fun _ => none) er (some ⟨1, 0, [], .inner (2 ^ c.B) none []⟩)) et (some ⟨1, 0, List.replicate (2 ^ c.BL) .raw, .leaf⟩)
  th := fun _ => ⟨[], .idle []⟩
  pool := []
  clk := ⟨fun _ => [], fun _ => []⟩
  hist := fun _ => [⟨0, 1, []⟩]
  now := 1
  log := []

/-- worlds that `n` threads can get to -/
inductive Reached (n : Nat) : World T → Prop
  | init : Reached n (World.init c er et)
  | step {w w' : World T} : Reached n w → World.Step c er et n w w' → Reached n w'

end

/-- thread `t` is about to make an access that conflicts with an earlier one that does not happen before it -/
def World.Race (w : World T) (t : Nat) : Prop :=
  ∃ x p a k, (w.th t).phase = .busy x p ∧ p.next = some (a, k) ∧ ∃ e ∈ w.clk.acc a, k.conflict e.2 = true ∧ e.1 ∉ (w.th t).know

/-- the vectors of a thread that is not within a command -/
def Phase.vectors : Phase T → Option (List Vc)
  | .idle hs => some hs
  | .busy _ _ => none

end Thr
