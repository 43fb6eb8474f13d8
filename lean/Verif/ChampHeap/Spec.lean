import Verif.ChampHeap.Api
import Verif.Champ.Spec

/-!
# What programs with maps and sets are supposed to do

The state of a program is a list of objects, each with its contents, a partial function.  Nothing here mentions nodes, counts
or owners.
-/

namespace ChampHeap.Spec
open Mm Champ

/-- A *shell* is a transient that has been moved from, under the collector.  It may only be destroyed or assigned to. -/
inductive SKd where
  | value
  | transient
  | shell
deriving DecidableEq

def SKd.of : Kd → SKd
  | .value => .value
  | .transient => .transient

/-- the C++ type of an object -/
def SKd.kd : SKd → Kd
  | .value => .value
  | .transient => .transient
  | .shell => .transient

/-- what becomes of an object that is moved from -/
def SKd.moved (gc : Bool) : SKd → SKd
  | .value => .value
  | _ => if gc then .shell else .transient

structure SObj (K T : Type) where
  kd : SKd
  val : K → Option T

variable {K T P : Type} (A : Api K T P) (gc : Bool) (M : List (SObj K T))

/-- do something with object `i`, if it is there and has the type -/
def on (i : Nat) (kd : Option Kd) (f : SObj K T → List (SObj K T)) : List (SObj K T) :=
  match M[i]? with
  | some s => if kd = none ∨ kd = some s.kd.kd then f s else M
  | none => M

/-- what a call does -/
def step : Cmd K T P → List (SObj K T)
  | .new kd => M ++ [⟨.of kd, Champ.Spec.empty⟩]
  | .ofRange xs => M ++ [⟨.value, (xs.map Op.insert).foldl (Champ.Spec.step A) Champ.Spec.empty⟩]
  | .copy i => on M i none fun s => M ++ [s]
  | .move i => on M i none fun s => M.set i ⟨s.kd.moved gc, Champ.Spec.empty⟩ ++ [s]
  | .assign i j => on M i none fun s => on M j (some s.kd.kd) fun s' => M.set i s'
  | .moveAssign i j => on M i none fun s => on M j (some s.kd.kd) fun s' => (M.set i s').set j ⟨s'.kd.moved gc, s.val⟩
  | .destroy i => M.eraseIdx i
  | .transient i => on M i (some .value) fun s => M ++ [⟨.transient, s.val⟩]
  | .transientMove i => on M i (some .value) fun s => M.set i ⟨.value, Champ.Spec.empty⟩ ++ [⟨.transient, s.val⟩]
  | .persistent i => on M i (some .transient) fun s => M ++ [⟨.value, s.val⟩]
  | .persistentMove i => on M i (some .transient) fun s => M.set i ⟨s.kd.moved gc, Champ.Spec.empty⟩ ++ [⟨.value, s.val⟩]
  | .apply i o => on M i (some .value) fun s => M ++ [⟨.value, Champ.Spec.step A s.val o⟩]
  | .applyMove i o => on M i (some .value) fun s =>
      if gc then M ++ [⟨.value, Champ.Spec.step A s.val o⟩] else M.set i ⟨.value, Champ.Spec.step A s.val o⟩
  | .applyMut i o => on M i (some .transient) fun s => M.set i ⟨.transient, Champ.Spec.step A s.val o⟩

/-- what a call that throws does: nothing, except that `std::move(m).transient()` leaves `m` empty when no owner can be made -/
def failed : Cmd K T P → List (SObj K T)
  | .transientMove i => on M i (some .value) fun _ => M.set i ⟨.value, Champ.Spec.empty⟩
  | _ => M

/-- object `i` has not been moved from -/
def Whole (i : Nat) : Prop := ∀ s, M[i]? = some s → s.kd ≠ .shell

/-- two different stored keys have the same hash, and the operation replaces the element of one of them (defect F7) -/
def Clash (m : K → Option T) : Op K T P → Prop
  | .insert v => Two m (A.cfg.key v)
  | .update k _ => Two m k
  | .updateIfExists k _ => Two m k
  | .erase _ => False
where
  Two (m : K → Option T) (k : K) : Prop :=
    (m k).isSome ∧ ∃ k', (m k').isSome ∧ A.cfg.hash k' = A.cfg.hash k ∧ A.cfg.eqv k' k = false

/-- Calls the theorems are about, and what may be thrown in them.

* Operations that change nodes in place do not throw (see F22).
* Operations that make new nodes may throw anything; a throwing copy is excluded where the code has a defect (F7).
* Under the collector a transient is not used after it has been moved from (see F11). -/
def Allowed (f : Option (Kind × Nat)) : Cmd K T P → Prop
  | .new _ => True
  | .ofRange _ => f = none
  | .copy i => Whole M i
  | .move i => Whole M i
  | .assign _ j => Whole M j
  | .moveAssign _ j => Whole M j
  | .destroy _ => True
  | .transient _ => True
  | .transientMove _ => True
  | .persistent i => Whole M i
  | .persistentMove i => Whole M i
  | .apply i o => ¬ Bad f i o
  | .applyMove i o => if gc then ¬ Bad f i o else f = none
  | .applyMut i _ => f = none ∧ Whole M i
where
  Bad (f : Option (Kind × Nat)) (i : Nat) (o : Op K T P) : Prop :=
    (∃ n, f = some (.copy, n)) ∧ ∃ s, M[i]? = some s ∧ Clash A s.val o

/-- the calls of a program are allowed, whichever of them throw -/
def AllAllowed : List (SObj K T) → List (Option (Kind × Nat) × Cmd K T P) → Prop
  | _, [] => True
  | M, (f, x) :: xs => Allowed A gc M f x ∧ AllAllowed (step A gc M x) xs ∧ (f ≠ none → AllAllowed (failed M x) xs)

/-- what a program does, given which calls throw -/
def run : List (SObj K T) → List (Cmd K T P × Bool) → List (SObj K T)
  | M, [] => M
  | M, (x, false) :: xs => run (step A gc M x) xs
  | M, (x, true) :: xs => run (failed M x) xs

/-- the object whose own nodes a call may change or release -/
def hurt : Cmd K T P → Option Nat
  | .assign i _ => some i
  | .destroy i => some i
  | .applyMut i _ => some i
  | .applyMove i _ => if gc then none else some i
  | _ => none

end ChampHeap.Spec
