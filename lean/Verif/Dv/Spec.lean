/-! What programs with `dvektor` are, and what a user expects of them.  Independent of the model. -/

namespace Dv

/-- an operation on version `v` of all vectors made so far; it makes a new version -/
inductive Cmd (T : Type) where
  | push (v : Nat) (x : T)
  | update (v i : Nat) (f : T → T)

/-- a vector, and whether the last thing done to make it was `push_back` -/
structure Ver (T : Type) where
  val : List T
  pushed : Bool

/-- The terms: indices are within the vector, there is room in a display of `depth` levels, and `push_back` is only used on a vector of up to `2^(3B)`
elements or on one just made by `push_back`. -/
def Allowed (B depth : Nat) {T : Type} (vs : List (Ver T)) : Cmd T → Prop
  | .push v _ => ∃ a, vs[v]? = some a ∧ a.val.length < 2 ^ (depth * B) ∧ (a.val.length ≤ 2 ^ (3 * B) ∨ a.pushed = true)
  | .update v i _ => ∃ a, vs[v]? = some a ∧ i < a.val.length

def sstep {T : Type} (vs : List (Ver T)) : Cmd T → List (Ver T)
  | .push v x => vs ++ (vs[v]?.map fun a => (⟨a.val ++ [x], true⟩ : Ver T)).toList
  | .update v i f => vs ++ (vs[v]?.map fun a => (⟨a.val.modify i f, false⟩ : Ver T)).toList

/-- all operations are allowed when it is their turn -/
def AllowedAll (B depth : Nat) {T : Type} : List (Ver T) → List (Cmd T) → Prop
  | _, [] => True
  | vs, c :: cs => Allowed B depth vs c ∧ AllowedAll B depth (sstep vs c) cs

/-- the versions a program makes, from an empty vector -/
def sruns {T : Type} (cs : List (Cmd T)) : List (Ver T) := cs.foldl sstep [⟨[], true⟩]

end Dv
