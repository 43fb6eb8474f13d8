import Verif.FlexHeap.Model
import Verif.VecHeap.Api

/-!
# `flex_vector` objects

The operations of `flex_vector.hpp` and `flex_vector_transient.hpp` on one object, for the programs of `VecHeap/Api.lean`.
-/

namespace FlexHeap
open Mm Rrb VecHeap

/-- operations of `flex_vector` with one operand -/
inductive FlexOp (T : Type) where
  | push (x : T)
  | set (i : Nat) (x : T)
  | update (i : Nat) (f : Fn T)
  | take (n : Nat)
  | drop (n : Nat)

/-- `flex_vector` and `flex_vector_transient` over `rrbtree`: `push_back`, `set`, `update`, `take`, `drop` (flex_vector.hpp
281-405, flex_vector_transient.hpp 160-212); `set` is `update` with a function that does not throw (rrbtree.hpp 570-578) -/
def flexKit (T : Type) (c : Cfg) (X : Elem T) : Kit T where
  Op := FlexOp T
  apply E er et v
    | .push x => Fc.pushBack c E v x
    | .set i x => Fc.update c E false (fun _ => x) v i
    | .update i f => Fc.update c E f.user f.f v i
    | .take n => Fc.take c E er et v n
    | .drop n => Fc.dropN c E X er et v n
  applyMut E er et e v
    | .push x => (Fc.pushBackMut c E e v x).bind fun v => M.ret (v, none)
    | .set i x => (Fc.getMut c E e v i).bind fun r => M.ret (r.1, some (r.2.1, r.2.2, ⟨false, fun _ => x, id⟩))
    | .update i f => (Fc.getMut c E e v i).bind fun r => M.ret (r.1, some (r.2.1, r.2.2, f))
    | .take n => (Fc.takeMut c E e er et v n).bind fun v => M.ret (v, none)
    | .drop n => (Fc.dropMut c E X e er et v n).bind fun v => M.ret (v, none)
  pushMut E e v x := Fc.pushBackMut c E e v x
  drop E v := Fc.drop c E v
  get v i := Fc.get c v i

end FlexHeap
