import Verif.FlexHeap.Concat
import Verif.FlexHeap.Api

/-!
# Concatenation of transients and of rvalues

`concat_mut_l`, `concat_mut_r`, `concat_mut_lr_l` and `concat_mut_lr_r` (`rrbtree.hpp` 782-1330) **when references are counted**:
then `supports_transient_concat` is false, and trees are joined by `concat_trees`.  Under the collector they use
`concat_trees_mut`, which is not modelled.
-/

namespace FlexHeap
open Mm Rrb VecHeap

variable {T β : Type} (c : Cfg) (E : Env Dat T)

/-- what has been done when `x` throws is kept: `none` stands for the exception -/
def attempt (x : HM T β) : HM T (Option β) := fun s =>
  match x s with
  | .ok s' b => .ok s' (some b)
  | .thrown s' => .ok s' none
  | .ub => .ub

namespace Fc

/-- `concat_mut_l(l, el, r)` (782-906), or, if `mv`, `concat_mut_lr_l(l, el, r, er)` (1022-1185), which moves the elements of `r`'s
tail if it may: `l` afterwards, and whether it threw.  `e` is `el`; without tokens `er` does not matter. -/
def concatMutL (mv : Bool) (e : Nat) (l r : Vc) : HM T (Vc × Bool) :=
  if l.size = 0 then (r.share E).bind fun _ => (drop c E l).bind fun _ => M.ret (r, false)
  else if r.size = 0 then M.ret (l, false)
  else
    (off c r).bind fun ro => (off c l).bind fun o =>
      if ro = 0 then
        if l.size - o = 2 ^ c.BL then
          (pushTailMut c E e l.root l.shift o l.tail (l.size - o)).bind fun x => (inc E r.tail).bind fun _ =>
            M.ret (⟨l.size + r.size, x.1, x.2, r.tail⟩, false)
        else
          (Vc.mutableTail c E e l (l.size - o)).bind fun l =>
            let n := min r.size (2 ^ c.BL - (l.size - o))
            (canMutate E e r.tail).bind fun b =>
              (attempt
                ((if mv && b then uninitMove r.tail 0 n l.tail (l.size - o) else uninitCopy r.tail 0 n l.tail (l.size - o)).bind fun _ =>
                  if l.size - o + r.size ≤ 2 ^ c.BL then M.ret { l with size := l.size + r.size }
                  else
                    ((copyLeafI c E (some e) r.tail n r.size).bind fun nt =>
                      ((pushTailMut c E e l.root l.shift o l.tail (2 ^ c.BL)).bind fun x =>
                        M.ret (Vc.mk (l.size + r.size) x.1 x.2 nt)).guard (delLeaf c E nt (r.size - n))).guard
                    -- `r.tail` instead of `l.tail` (829, 1093)
                    (destroyN r.tail (l.size - o) n))).bind fun x =>
              match x with
              | some l' => M.ret (l', false)
              | none => M.ret (l, true)
      else
        (if o = 0 then concatTreesTail c E l.tail (l.size - o) r.root r.shift ro
          else concatTrees c E l.root l.shift o l.tail (l.size - o) r.root r.shift ro).bind fun x =>
          (inc E r.tail).bind fun _ => (drop c E l).bind fun _ => M.ret (⟨l.size + r.size, x.1, x.2, r.tail⟩, false)

/-- `concat_mut_r(l, r, er)` (908-1020) with `share`, `concat_mut_lr_r(l, el, r, er)` (1187-1330) without: `r` afterwards -/
def concatMutR (share : Bool) (e : Nat) (l r : Vc) : HM T Vc :=
  if r.size = 0 then (l.share E).bind fun _ => (drop c E r).bind fun _ => M.ret l
  else if l.size = 0 then M.ret r
  else
    (off c r).bind fun ro => (off c l).bind fun o =>
      (if ro = 0 then concatTail c E (some e) share l o r
      else
        (if o = 0 then concatTreesTail c E l.tail (l.size - o) r.root r.shift ro
          else concatTrees c E l.root l.shift o l.tail (l.size - o) r.root r.shift ro).bind fun x =>
          (inc E r.tail).bind fun _ => M.ret (x.1, x.2, r.tail)).bind fun x =>
      (drop c E r).bind fun _ => M.ret ⟨l.size + r.size, x.1, x.2.1, x.2.2⟩

end Fc

/-- calls with two flexible vectors -/
inductive Bin where
  /-- `operator+(const&, const&)` (flex_vector.hpp 397-401): a new object -/
  | plus
  /-- `operator+(&&, const&)` (403-407), `append(&)` (flex_vector_transient.hpp 202-206): changes the first -/
  | appendTo
  /-- `operator+(const&, &&)` (409-413), `prepend(&)` (flex_vector_transient.hpp 217-221): changes the second -/
  | prependTo
  /-- `operator+(&&, &&)` (415-419), `append(&&)` (flex_vector_transient.hpp 207-210): changes the first.  The second, which has
  been moved from, is then destroyed; in C++ it need not be at once, but destroying and assigning to it is all that can be done. -/
  | appendMove
  /-- `prepend(&&)` (flex_vector_transient.hpp 222-225): changes the second -/
  | prependMove
deriving DecidableEq

/-- which objects have the function; if `none`, vectors and transients have -/
def Bin.kd : Bin → Option Kd
  | .plus => some .value
  | .prependMove => some .transient
  | _ => none

/-- programs with one or two objects in a call -/
inductive FCmd (T : Type) where
  | one (x : Cmd T (FlexOp T))
  | two (b : Bin) (i j : Nat)

section
variable (X : Elem T) (er et : Nat)

/-- the functions that change an object; an object is not appended to itself -/
def changeBin (b : Bin) (i j : Nat) (h h' : Obj) : WM T Unit :=
  if i = j then WM.ret ()
  else
    match b with
    | .plus => WM.ret ()
    | .appendTo => (lift (Fc.concatMutL c E false h.tok h.v h'.v)).bind fun x => (setVc i x.1).bind fun _ w =>
        if x.2 then .thrown w else .ok w ()
    | .prependTo => (lift (Fc.concatMutR c E true h'.tok h.v h'.v)).bind fun x => setVc j x
    | .appendMove => (lift (Fc.concatMutL c E true h.tok h.v h'.v)).bind fun x => (setVc i x.1).bind fun _ =>
        if x.2 then fun w => .thrown w
        else (lift (Fc.drop c E h'.v)).bind fun _ w => .ok { w with objs := w.objs.eraseIdx j } ()
    | .prependMove => (lift (Fc.concatMutR c E false h'.tok h.v h'.v)).bind fun x => setVc j x

/-- The two objects are of the same kind.  Under the collector, `concat_move` (flex_vector.hpp 592-614) makes a new vector
(`use_transient_rvalues`, memory_policy.hpp 58-62, 104).  Not modelled: what transients do under the collector. -/
def stepBin (b : Bin) (i j : Nat) : WM T Unit :=
  withObj i b.kd fun h => withObj j (some h.kd) fun h' =>
    if b = .plus ∨ (E.gc = true ∧ h.kd = .value) then (lift (Fc.concat c E h.v h'.v)).bind fun x => push ⟨.value, x, 0⟩
    else changeBin c E b i j h h'

def fstep : FCmd T → WM T Unit
  | .one x => step c (flexKit T c X) E er et x
  | .two b i j => stepBin c E b i j

/-- a program, which catches exceptions; also tells which calls threw -/
def frun : List (Option (Kind × Nat) × FCmd T) → World T → Option (World T × List Bool)
  | [], w => some (w, [])
  | (f, x) :: xs, w =>
      match fstep c E X er et x { w with st := { w.st with fault := f } } with
      | .ok w' _ => (frun xs w').map fun (w'', l) => (w'', false :: l)
      | .thrown w' => (frun xs w').map fun (w'', l) => (w'', true :: l)
      | .ub => none

end

end FlexHeap
