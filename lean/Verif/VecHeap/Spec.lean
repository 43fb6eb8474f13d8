import Verif.VecHeap.Api

/-!
# What programs with vectors are supposed to do

The state of a program is a list of objects, each with its contents, a list.  Nothing here mentions nodes, counts or owners.
-/

namespace VecHeap.Spec
open Mm

/-- A *shell* is a transient that has been moved from, under the collector.  It may only be destroyed or assigned to. -/
inductive SKd where
  | value
  | transient
  | shell
deriving DecidableEq

def SKd.of : Kd → SKd
  | .value => .value
  | .transient => .transient

/-- the C++ type of an object -/
def SKd.kd : SKd → Kd
  | .value => .value
  | .transient => .transient
  | .shell => .transient

/-- what becomes of an object that is moved from -/
def SKd.moved (gc : Bool) : SKd → SKd
  | .value => .value
  | _ => if gc then .shell else .transient

structure SObj (T : Type) where
  kd : SKd
  val : List T

/-- What operations do.  `run`: to the list; `none` if the operation may not be called.  `left`: what is left in an object
that is changed in place when the user's function throws; `none` if there is no such function. -/
structure Ops (Op T : Type) where
  run : Op → List T → Option (List T)
  left : Op → List T → Option (List T)

/-- operations of vectors -/
def vecOps (T : Type) : Ops (VecOp T) T where
  run
    | .push x, l => some (l ++ [x])
    | .set i x, l => if i < l.length then some (l.set i x) else none
    | .update i f, l => l[i]?.map fun x => l.set i (f.f x)
    | .take n, l => some (l.take n)
  left
    | .update i f, l => if f.user then l[i]?.map fun x => l.set i (f.left x) else none
    | _, _ => none

variable {T Op : Type} (S : Ops Op T) (gc : Bool) (M : List (SObj T))

/-- do something with object `i`, if it is there and has the type -/
def on (i : Nat) (kd : Option Kd) (f : SObj T → List (SObj T)) : List (SObj T) :=
  match M[i]? with
  | some s => if kd = none ∨ kd = some s.kd.kd then f s else M
  | none => M

/-- what a call does -/
def step : Cmd T Op → List (SObj T)
  | .new kd => M ++ [⟨.of kd, []⟩]
  | .ofRange xs => M ++ [⟨.value, xs⟩]
  | .copy i => on M i none fun s => M ++ [s]
  | .move i => on M i none fun s => M.set i ⟨s.kd.moved gc, []⟩ ++ [s]
  | .assign i j => on M i none fun s => on M j (some s.kd.kd) fun s' => M.set i s'
  | .moveAssign i j => on M i none fun s => on M j (some s.kd.kd) fun s' => (M.set i s').set j ⟨s'.kd.moved gc, s.val⟩
  | .destroy i => M.eraseIdx i
  | .transient i => on M i (some .value) fun s => M ++ [⟨.transient, s.val⟩]
  | .transientMove i => on M i (some .value) fun s => M.set i ⟨.value, []⟩ ++ [⟨.transient, s.val⟩]
  | .persistent i => on M i (some .transient) fun s => M ++ [⟨.value, s.val⟩]
  | .persistentMove i => on M i (some .transient) fun s => M.set i ⟨s.kd.moved gc, []⟩ ++ [⟨.value, s.val⟩]
  | .apply i o => on M i (some .value) fun s => ((S.run o s.val).map fun l => M ++ [⟨.value, l⟩]).getD M
  | .applyMove i o => on M i (some .value) fun s =>
      ((S.run o s.val).map fun l => if gc then M ++ [⟨.value, l⟩] else M.set i ⟨.value, l⟩).getD M
  | .applyMut i o => on M i (some .transient) fun s => ((S.run o s.val).map fun l => M.set i ⟨.transient, l⟩).getD M

/-- What a call that throws may do, if what throws is `f`: nothing, except that `std::move(v).transient()` leaves `v` empty when
no owner can be made, and that a function that throws when an element is updated in place leaves what it leaves there. -/
def failed (f : Option (Kind × Nat)) : Cmd T Op → List (List (SObj T))
  | .transientMove i => [on M i (some .value) fun _ => M.set i ⟨.value, []⟩]
  | .applyMut i o => M ::
      if f.map Prod.fst = some .user then
        [on M i (some .transient) fun s => ((S.left o s.val).map fun l => M.set i ⟨.transient, l⟩).getD M]
      else []
  | .applyMove i o => M ::
      if f.map Prod.fst = some .user then
        [on M i (some .value) fun s => ((S.left o s.val).map fun l => if gc then M else M.set i ⟨.value, l⟩).getD M]
      else []
  | _ => [M]

/-- object `i` has not been moved from -/
def Whole (i : Nat) : Prop := ∀ s, M[i]? = some s → s.kd ≠ .shell

/-- the operation may be called on object `i` -/
def Legal (i : Nat) (o : Op) : Prop := ∀ s, M[i]? = some s → S.run o s.val ≠ none

/-- Calls the theorems are about: under the collector a transient is not used after it has been moved from (see F11), and
indices are in range. -/
def Allowed : Cmd T Op → Prop
  | .new _ => True
  | .ofRange _ => True
  | .copy i => Whole M i
  | .move i => Whole M i
  | .assign _ j => Whole M j
  | .moveAssign _ j => Whole M j
  | .destroy _ => True
  | .transient _ => True
  | .transientMove _ => True
  | .persistent i => Whole M i
  | .persistentMove i => Whole M i
  | .apply i o => Legal S M i o
  | .applyMove i o => Legal S M i o
  | .applyMut i o => Legal S M i o ∧ Whole M i

/-- the calls of a program are allowed, whichever of them throw -/
def AllAllowed : List (SObj T) → List (Option (Kind × Nat) × Cmd T Op) → Prop
  | _, [] => True
  | M, (f, x) :: xs => Allowed S M x ∧ AllAllowed (step S gc M x) xs ∧ (f ≠ none → ∀ M' ∈ failed S gc M f x, AllAllowed M' xs)

/-- what a program may do, given which calls throw -/
def Runs : List (SObj T) → List ((Option (Kind × Nat) × Cmd T Op) × Bool) → List (SObj T) → Prop
  | M, [], M' => M' = M
  | M, ((_, x), false) :: xs, M' => Runs (step S gc M x) xs M'
  | M, ((f, x), true) :: xs, M' => ∃ M₁ ∈ failed S gc M f x, Runs M₁ xs M'

/-- When the operations of a kind of vector can be relied on, where that depends on how a vector is represented or on what
throws.  `can`: when elements can be read.  `ok`: when an operation can be called, in place or not.  `okPush`: when elements
can be pushed one after the other. -/
structure Terms (Op : Type) where
  can : Vc → Prop
  ok : Bool → Option (Kind × Nat) → Vc → Op → Prop
  okPush : Option (Kind × Nat) → Prop

/-- no terms but for reading -/
def Terms.free (can : Vc → Prop) : Terms Op := ⟨can, fun _ _ _ _ => True, fun _ => True⟩

/-- a call is on these terms -/
def Terms.On (Q : Terms Op) (w : World T) (f : Option (Kind × Nat)) : Cmd T Op → Prop
  | .ofRange _ => Q.okPush f
  | .apply i o => ∀ h, w.objs[i]? = some h → Q.ok false f h.v o
  | .applyMove i o => ∀ h, w.objs[i]? = some h → Q.ok (!gc) f h.v o
  | .applyMut i o => ∀ h, w.objs[i]? = some h → Q.ok true f h.v o
  | _ => True

theorem Terms.free_on {can : Vc → Prop} {w : World T} {f : Option (Kind × Nat)} {x : Cmd T Op} : (Terms.free can : Terms Op).On gc w f x := by
  cases x <;> first | trivial | exact fun _ _ => trivial

/-- the object whose own nodes a call may change or release -/
def hurt : Cmd T Op → Option Nat
  | .assign i _ => some i
  | .destroy i => some i
  | .applyMut i _ => some i
  | .applyMove i _ => if gc then none else some i
  | _ => none

end VecHeap.Spec
