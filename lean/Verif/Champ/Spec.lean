import Verif.Champ.Api

/-!
# What a map/set/table is supposed to do

A container is specified by a mathematical partial function `K → Option T` giving the element stored
for a key (keys are taken up to the user's key equality).  Nothing here mentions hashes or tries.
-/

namespace Champ.Spec

variable {K T P : Type} (A : Api K T P)

/-- no elements -/
def empty : K → Option T := fun _ => none

/-- write an element: exactly the keys equal to its key see it -/
def insert (m : K → Option T) (v : T) : K → Option T :=
  fun k => if A.cfg.eqv (A.cfg.key v) k then some v else m k

/-- remove a key -/
def erase (m : K → Option T) (k0 : K) : K → Option T :=
  fun k => if A.cfg.eqv k0 k then none else m k

/-- what one operation does -/
def step (m : K → Option T) : Op K T P → (K → Option T)
  | .insert v => insert A m v
  | .update k f =>
    let old := match m k with | some x => A.project x | none => A.dflt
    insert A m (A.combine k (f old))
  | .updateIfExists k f =>
    match m k with
    | some x => insert A m (A.combine k (f (A.project x)))
    | none => m
  | .erase k => erase A m k

/-- what a history does -/
def run (ops : List (Op K T P)) : K → Option T := ops.foldl (step A) empty

/-- two lookup results agree with respect to an element comparison -/
def Agree (eq : T → T → Bool) : Option T → Option T → Prop
  | none, none => True
  | some x, some y => eq x y = true
  | _, _ => False

end Champ.Spec
