import Verif.FlexHeap.ConcatMut
import Verif.VecHeap.Examples

/-!
# Concatenations that go wrong (F2, F8, F25)
-/

namespace FlexHeap
open Mm Rrb VecHeap

abbrev CProg := List (Option (Kind × Nat) × FCmd Nat)

abbrev c4 : Cfg := ⟨2, 1, false⟩

/-- what the objects contain after a program; `none` if it does something undefined -/
noncomputable def cShow (gc : Bool) (p : CProg) : Option (List (List (Option Nat)) × List Bool) :=
  (frun c4 (exEnv Nat gc) ⟨true, id⟩ 1 2 p (start c4 (exEnv Nat gc) 1 2)).map fun (w, fl) =>
    (w.objs.mapIdx fun i (o : Obj) => (List.range o.v.size).map fun k => look (flexKit Nat c4 ⟨true, id⟩) i k w, fl)

/-- two transients, the first with a full tail, the second with a tail only; they are joined, and the first is destroyed -/
def joinFull (b : Bin) : CProg :=
  [(none, .one (.ofRange [1, 2])), (none, .one (.ofRange [3])), (none, .one (.transientMove 0)), (none, .one (.transientMove 1)),
    (none, .two b 2 3), (none, .one (.destroy 2))]

/-- **F2.**  `r.prepend(std::move(l))` puts the tail of `l` in the tree of `r`, and does not count that reference
(`concat_mut_lr_r`, rrbtree.hpp 1201-1208).  Once `l` is destroyed, the elements of `r` are gone, and destroying `r` is
undefined. -/
theorem C26_fails :
    cShow false (joinFull .prependMove) = some ([[], [], [none, none, some 3]], [false, false, false, false, false, false]) ∧
    cShow false (joinFull .prependMove ++ [(none, .one (.destroy 2))]) = none := by
  constructor <;> decide +kernel

/-- `r.prepend(l)` (`concat_mut_r`) counts it. -/
example : cShow false (joinFull .prependTo) = some ([[], [], [some 1, some 2, some 3]], [false, false, false, false, false, false]) ∧
    cShow false (joinFull .prependTo ++ [(none, .one (.destroy 2))]) = some ([[], []], [false, false, false, false, false, false, false]) := by
  constructor <;> decide +kernel

/-- `l + r`, with `l` an rvalue, where the new tail cannot be allocated -/
def appendThrows : CProg :=
  [(none, .one (.ofRange [1])), (none, .one (.ofRange [3, 4])), (some (.alloc, 0), .two .appendTo 0 1)]

/-- **F8.**  The handler of `concat_mut_l` (rrbtree.hpp 829) destroys elements of the right operand, which has been passed by
`const&`, instead of those that it has put in the left one.  Destroying either operand is undefined. -/
theorem append_throws_fails :
    cShow false appendThrows = some ([[some 1], [some 3, none]], [false, false, true]) ∧
    cShow false (appendThrows ++ [(none, .one (.destroy 0))]) = none ∧
    cShow false (appendThrows ++ [(none, .one (.destroy 1))]) = none := by
  refine ⟨?_, ?_, ?_⟩ <;> decide +kernel

/-- `l + r`, where the copy of an element throws while leaves are merged -/
def plusThrows (f : Option (Kind × Nat)) : CProg :=
  [(none, .one (.ofRange [0, 1, 2, 3, 4, 5, 6, 7, 8, 9, 10, 11])), (none, .one (.ofRange [12, 13, 14])), (none, .one (.apply 1 (.drop 1))),
    (none, .two .plus 0 1), (none, .two .plus 2 2), (f, .two .plus 3 4)]

/-- **F25.**  Under the collector, when the copy of an element throws while leaves are merged, the leaf that is being filled is
given back with the size of its elements so far, not with the size it was allocated with (`concat_merger::abort`, operations.hpp
1692-1702, with `delete_leaf`, node.hpp 850-857).  A heap that relies on the size, such as `free_list_heap`, is then corrupt. -/
theorem concat_abort_size_fails :
    cShow true (plusThrows (some (.copy, 0))) = none ∧
    (cShow true (plusThrows none)).map (fun x => x.1.getLast?) = some (some [some 0, some 1, some 2, some 3, some 4, some 5, some 6, some 7, some 8, some 9, some 10, some 11, some 12, some 13, some 14, some 13, some 14, some 13, some 14]) ∧
    (cShow false (plusThrows (some (.copy, 0)))).map (fun x => x.2) = some [false, false, false, false, false, true] := by
  refine ⟨?_, ?_, ?_⟩ <;> decide +kernel

end FlexHeap
