import Verif.FlexHeap.Api
import Verif.VecHeap.Examples

/-!
# Programs with `flex_vector` that go wrong (F23, F24)
-/

namespace FlexHeap
open Mm Rrb VecHeap

abbrev FProg := List (Option (Kind × Nat) × Cmd Nat (FlexOp Nat))

/-- elements that assigning to themselves by a move does not change -/
def plainEl : Elem Nat := ⟨true, id⟩

/-- elements that assigning to themselves by a move empties, as it may for containers -/
def emptyingEl : Elem Nat := ⟨true, fun _ => 0⟩

/-- what the objects contain after a program; `none` if it does something undefined -/
noncomputable def fShow (gc : Bool) (X : Elem Nat) (p : FProg) : Option (List (List (Option Nat)) × List Bool) :=
  (run c2 (flexKit Nat c2 X) (exEnv Nat gc) 1 2 p (start c2 (exEnv Nat gc) 1 2)).map fun (w, fl) =>
    (w.objs.mapIdx fun i (o : Obj) => (List.range o.v.size).map fun k => look (flexKit Nat c2 X) i k w, fl)

def dropCopy : FProg := [(none, .ofRange [10, 11, 12, 13, 14, 15, 16]), (none, .apply 0 (.drop 2))]
def dropMove : FProg := [(none, .ofRange [10, 11, 12, 13, 14, 15, 16]), (none, .applyMove 0 (.drop 2))]

/-- **F23.**  `drop` on an rvalue gives other elements than `drop`, if it cuts at the start of a leaf and the move assignment of
an element to itself changes the element: `slice_left_mut_visitor::visit_leaf` moves every element of the leaf to where it is
(operations.hpp 1382-1386). -/
theorem drop_self_move_fails :
    fShow false emptyingEl dropCopy = some ([[some 10, some 11, some 12, some 13, some 14, some 15, some 16], [some 12, some 13, some 14, some 15, some 16]], [false, false]) ∧
    fShow false emptyingEl dropMove = some ([[some 0, some 0, some 14, some 15, some 16]], [false, false]) := by
  constructor <;> decide +kernel

/-- with other elements the two agree -/
example : fShow false plainEl dropMove = some ([[some 12, some 13, some 14, some 15, some 16]], [false, false]) := by decide +kernel

/-- a transient that shares its table of sizes with a vector is shortened; the copy of the table cannot be allocated -/
def takeTable : FProg :=
  [(none, .ofRange [10, 11, 12, 13, 14, 15, 16, 17, 18, 19, 20]), (none, .apply 0 (.drop 1)), (none, .transient 1), (none, .applyMut 2 (.set 0 77)),
    (some (.table, 0), .applyMut 2 (.take 3)), (none, .destroy 2), (none, .destroy 1), (none, .destroy 0)]

/-- the same program, but nothing throws -/
def takeTableOk : FProg := takeTable.map fun x => (none, x.2)

/-- **F24.**  When the table of sizes of a node that a transient owns cannot be copied (`ensure_mutable_relaxed_n`, node.hpp
919-942, called at operations.hpp 933 and 965 after the child has been changed), the child of the node is the one that has
been released.  Destroying the transient then uses a node that is gone. -/
theorem take_table_throws_fails : fShow false plainEl takeTable = none ∧ fShow false plainEl takeTableOk = some ([], [false, false, false, false, false, false, false, false]) := by
  constructor <;> decide +kernel

/-- the same for `push_back` -/
def pushTable : FProg :=
  [(none, .ofRange [10, 11, 12, 13, 14, 15, 16]), (none, .apply 0 (.drop 1)), (none, .transient 1), (none, .applyMut 2 (.set 0 77)), (some (.table, 0), .applyMut 2 (.push 9)),
    (some (.table, 0), .applyMut 2 (.push 9)), (some (.table, 0), .applyMut 2 (.push 9)), (none, .destroy 2), (none, .destroy 1), (none, .destroy 0)]

/-- **F24**, `push_back`: the tail is pushed into the tree, then the table cannot be copied; the transient still has the tail
(operations.hpp 705-713). -/
theorem push_table_throws_fails : fShow false plainEl pushTable = none := by decide +kernel

end FlexHeap
