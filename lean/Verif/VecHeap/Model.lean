import Verif.Mem.Cells
import Verif.Rrb.Vec

/-!
# Vectors in memory

The functions of `detail/rbts/node.hpp`, `operations.hpp` and `rbtree.hpp` that `immer::vector` and its transients use, on raw
memory (`Mem/Cells.lean`), for regular nodes; a vector has no relaxed nodes.

* The children of an inner node are kept as the list of the slots in use.  Where the code releases children on the right and
  leaves their pointers behind (`slice_right_mut_visitor`), the list is cut; reading such a stale pointer is undefined here.
* `own = none` stands for the functions `make_*_n`, `copy_*`, and `own = some e` for `make_*_e`, `copy_*_e`.
  The visitors `push_tail_mut_visitor<_, false>` and `slice_right_mut_visitor<_, _, false>` do the same as `push_tail_visitor`
  and `slice_right_visitor` except for that, and are one definition.
* A child is kept in a local variable until the parent is filled, where the code writes it to the slot first.
* Elements are moved without exceptions.
* Recursion is on the number of inner levels; a leaf position on an inner level, or the reverse, is undefined.
-/

namespace VecHeap
open Mm Rrb

variable {T β : Type}

/-- what is in a node besides elements (`node.hpp` 33-88).  `cap`: slots that were allocated (`sizeof_inner_n`,
`max_sizeof_inner`; `node.hpp` 95-200), `kids`: slots in use, `rel`: the table of sizes of a relaxed node, which is a node of
its own (`embed_relaxed = false`). -/
inductive Dat where
  | leaf
  | inner (cap : Nat) (rel : Option Nat) (kids : List Nat)
  | table (cap : Nat) (sizes : List Nat)

/-- sizes in memory of inner nodes and of tables, which are different -/
def innerSz (n : Nat) : Nat := 2 * n + 1
def tableSz (n : Nat) : Nat := 2 * n + 2

def room : Dat → Nat
  | .leaf => 0
  | .inner cap _ _ => innerSz cap
  | .table cap _ => tableSz cap

abbrev HM (T β : Type) := M Dat T β

def liftO : Option β → HM T β
  | some b => M.ret b
  | none => undef

/-! ## Positions

A position without its node.  What the code computes from it does not depend on the node. -/

inductive Shp where
  | leaf (size : Nat)
  | leafSub (n : Nat)
  | fullLeaf
  | reg (shift size : Nat)
  | regSub (shift size : Nat)
  | full (shift : Nat)

namespace Shp

/-- the position of a node -/
def pos : Shp → Node T → Pos T
  | leaf size, n => .leaf n size
  | leafSub k, n => .leafSub n k
  | fullLeaf, n => .fullLeaf n
  | reg s size, n => .reg n s size
  | regSub s size, n => .regSub n s size
  | full s, n => .full n s

variable (c : Cfg)

def isLeaf : Shp → Bool
  | leaf _ | leafSub _ | fullLeaf => true
  | _ => false

/-- `shift()`, `count()`, `size()`, `index(idx)` -/
def shift (sh : Shp) : Nat := (sh.pos (.leaf [] : Node Unit)).shift
def count (sh : Shp) : Nat := (sh.pos (.leaf [] : Node Unit)).count c
def size (sh : Shp) : Option Nat := (sh.pos (.leaf [] : Node Unit)).size c
def index (sh : Shp) (idx : Nat) : Option Nat := (sh.pos (.leaf [] : Node Unit)).index c idx

def kidFull (s : Nat) : Shp := if s = c.BL then fullLeaf else full (s - c.B)

def kidReg (s size : Nat) : Shp := if s = c.BL then leaf size else reg (s - c.B) size

/-- `each` (position.hpp 235-245, 335-378, 828-838, 1173-1206): the children's positions -/
def each (sh : Shp) : Option (List Shp) :=
  match sh with
  | reg s size => some (List.replicate (sh.count c - 1) (kidFull c s) ++ [kidReg c s size])
  | regSub s size => some (List.replicate (sh.count c - 1) (kidFull c s) ++ [kidReg c s size])
  | full s => some (List.replicate (2 ^ c.B) (kidFull c s))
  | _ => none

/-- `each_right(v, start)` (position.hpp 491-523, 1256-1260) -/
def eachRight (sh : Shp) (start : Nat) : Option (List Shp) :=
  match sh with
  | reg s size =>
      some (if start ≤ sh.count c - 1 then List.replicate (sh.count c - 1 - start) (kidFull c s) ++ [kidReg c s size] else [])
  | regSub s size =>
      some (if start ≤ sh.count c - 1 then List.replicate (sh.count c - 1 - start) (kidFull c s) ++ [kidReg c s size] else [])
  | full s => if start ≤ 2 ^ c.B then some (List.replicate (2 ^ c.B - start) (kidFull c s)) else none
  | _ => none

/-- `towards_oh`, `towards_oh_ch` (position.hpp 280-296, 622-644, 902-919, 1315-1323); the index stays the same -/
def towards (sh : Shp) (off : Nat) : Option Shp :=
  match sh with
  | reg s size => some (if off + 1 ≠ sh.count c then kidFull c s else kidReg c s size)
  | regSub s size => some (if off + 1 ≠ sh.count c then kidFull c s else kidReg c s size)
  | full s => some (kidFull c s)
  | _ => none

/-- `last_oh` (position.hpp 305-309, 674-688, 927-931) -/
def last : Shp → Option Shp
  | reg s size => some (kidReg c s size)
  | regSub s size => some (kidReg c s size)
  | _ => none

end Shp

/-! ## Nodes (`node.hpp`) -/

variable (c : Cfg) (E : Env Dat T)

/-- `sizeof_inner_n` (`node.hpp` 95, 145-150): room for all children when counting references -/
def innerRoom (n : Nat) : Nat := if E.gc then n else 2 ^ c.B

/-- `sizeof_leaf_n` (`node.hpp` 95, 139-144) -/
def leafRoom (n : Nat) : Nat := if E.gc then n else 2 ^ c.BL

/-- `make_inner_n` (213), `make_inner_e` (220) -/
def newInner (own : Option Nat) (n : Nat) : HM T Nat :=
  match own with
  | none => alloc E 0 (.inner (innerRoom c E n) none [])
  | some e => (alloc E 0 (.inner (2 ^ c.B) none [])).bind fun p => (setTok E p e).bind fun _ => M.ret p

/-- `make_leaf_n` (329), `make_leaf_e` (337) -/
def newLeaf (own : Option Nat) (n : Nat) : HM T Nat :=
  match own with
  | none => alloc E (leafRoom c E n) .leaf
  | some e => (alloc E (2 ^ c.BL) .leaf).bind fun p => (setTok E p e).bind fun _ => M.ret p

/-- `heap::deallocate` of a leaf made by `newLeaf own n` -/
def freeLeaf (own : Option Nat) (p n : Nat) : HM T Unit :=
  dealloc room p (match own with | none => leafRoom c E n | some _ => 2 ^ c.BL) 0

/-- `delete_inner` (797-804) -/
def delInner (p n : Nat) : HM T Unit :=
  (cell p).bind fun x => dealloc room p 0 (innerSz (if E.gc && x.tok != 0 then 2 ^ c.B else innerRoom c E n))

/-- `delete_inner_e` (806-811) -/
def delInnerE (p : Nat) : HM T Unit := dealloc room p 0 (innerSz (2 ^ c.B))

/-- what the handlers do with a node made by `newInner own n` -/
def freeInner (own : Option Nat) (p n : Nat) : HM T Unit :=
  match own with
  | none => delInner c E p n
  | some _ => delInnerE c p

/-- `delete_leaf` (845-852) -/
def delLeaf (p n : Nat) : HM T Unit :=
  (destroyN p 0 n).bind fun _ =>
    (cell p).bind fun x => dealloc room p (if E.gc && x.tok != 0 then 2 ^ c.BL else leafRoom c E n) 0

/-- `p->inner()` -/
def kids (p : Nat) : HM T (List Nat) :=
  (cell p).bind fun x =>
    match x.data with
    | .inner _ _ ks => M.ret ks
    | _ => undef

/-- `p->inner()[i]` -/
def kid (p i : Nat) : HM T Nat := (kids p).bind fun ks => liftO ks[i]?

/-- `p->inner()[0..] = ks`, in the memory that was allocated -/
def setKids (p : Nat) (ks : List Nat) : HM T Unit :=
  (cell p).bind fun x =>
    match x.data with
    | .inner cap r _ => if ks.length ≤ cap then modify p fun x => { x with data := .inner cap r ks } else undef
    | _ => undef

/-- `p->inner()[i] = q` -/
def putKid (p i q : Nat) : HM T Unit :=
  (kids p).bind fun ks =>
    if i < ks.length then setKids p (ks.set i q) else if i = ks.length then setKids p (ks ++ [q]) else undef

/-- the slots from `n` on are not used any more -/
def cutKids (p n : Nat) : HM T Unit := (kids p).bind fun ks => setKids p (ks.take n)

/-- `inc_nodes` (`node.hpp` 967-972) -/
def incAll : List Nat → HM T Unit
  | [] => M.ret ()
  | p :: ps => (inc E p).bind fun _ => incAll ps

/-- `do_copy_inner` (548-556); `copy_inner_n` and `copy_inner_e` are `newInner` and this -/
def doCopyInner (dst src n : Nat) : HM T Unit :=
  (kids src).bind fun ks => (liftO (slice ks 0 n)).bind fun ks => (incAll E ks).bind fun _ => setKids dst ks

/-- `do_copy_inner_replace` (558-570) -/
def doCopyInnerReplace (dst src n off child : Nat) : HM T Unit :=
  (kids src).bind fun ks => (liftO (slice ks 0 n)).bind fun ks =>
    if off < ks.length then
      (incAll E (ks.take off)).bind fun _ => (incAll E (ks.drop (off + 1))).bind fun _ => setKids dst (ks.set off child)
    else undef

/-- `copy_leaf_n(allocn, src, n)` (685-699), `copy_leaf(src, n)` (655-668) with `allocn = n`, `copy_leaf_e` (670-683) -/
def copyLeafN (own : Option Nat) (allocn src n : Nat) : HM T Nat :=
  (newLeaf c E own allocn).bind fun dst =>
    ((uninitCopy src 0 n dst 0).guard (freeLeaf c E own dst allocn)).bind fun _ => M.ret dst

def copyLeaf (own : Option Nat) (src n : Nat) : HM T Nat := copyLeafN c E own n src n

/-- `copy_leaf_emplace` (782-795) -/
def copyLeafEmplace (src n : Nat) (x : T) : HM T Nat :=
  (copyLeafN c E none (n + 1) src n).bind fun dst => (construct dst n x).bind fun _ => M.ret dst

/-- `make_leaf_n(1, x)` (458-471), `make_leaf_e(e, x)` (474-485) -/
def leafOf (own : Option Nat) (x : T) : HM T Nat :=
  (newLeaf c E own 1).bind fun p => (construct p 0 x).bind fun _ => M.ret p

/-- `make_path` (487-503), `make_path_e` (505-522) -/
def makePath (own : Option Nat) : Nat → Nat → HM T Nat
  | 0, p => M.ret p
  | k + 1, p =>
      (newInner c E own 1).bind fun n =>
        ((makePath own k p).guard
          (dealloc room n 0 (innerSz (match own with | none => innerRoom c E 1 | some _ => 2 ^ c.B)))).bind fun q =>
        (putKid n 0 q).bind fun _ => M.ret n

/-! ## Visitors (`operations.hpp`) -/

/-- `visit` of positions in order -/
def eachDo (f : Nat → Shp → HM T Unit) : List Nat → List Shp → HM T Unit
  | _, [] => M.ret ()
  | p :: ps, sh :: shs => (f p sh).bind fun _ => eachDo f ps shs
  | [], _ :: _ => undef

/-- `dec_visitor` (514-550) -/
def decV : Nat → Nat → Shp → HM T Unit
  | 0, p, sh =>
      if sh.isLeaf then (dec E p).bind fun last => if last then delLeaf c E p (sh.count c) else M.ret () else undef
  | L + 1, p, sh =>
      (dec E p).bind fun last =>
        if last then
          (liftO (sh.each c)).bind fun shs => (kids p).bind fun ks =>
            (eachDo (decV L) ks shs).bind fun _ => delInner c E p (sh.count c)
        else M.ret ()

/-- `dec_leaf` (552-556) -/
def decLeaf (p n : Nat) : HM T Unit := decV c E 0 p (.leafSub n)

/-- `dec_empty_regular` (576-580); `empty_regular_pos::each` visits nothing (position.hpp 27-59) -/
def decEmpty (p : Nat) : HM T Unit := (dec E p).bind fun last => if last then delInner c E p 0 else M.ret ()

/-- `pos.each_right(dec_visitor{}, start)` -/
def decRest (L p : Nat) (sh : Shp) (start : Nat) : HM T Unit :=
  (liftO (sh.eachRight c start)).bind fun shs => (kids p).bind fun ks => eachDo (decV c E L) (ks.drop start) shs

/-- `dec_right_visitor` (859-892) for an inner node on level `L + 1` -/
def decRight (L p : Nat) (sh : Shp) (start : Nat) : HM T Unit :=
  (dec E p).bind fun last =>
    if last then (decRest c E L p sh start).bind fun _ => delInner c E p (sh.count c) else M.ret ()

/-- `x = fn(std::move(x))` for an element; `user`: whether `fn` may throw -/
def applyEl (user : Bool) (f : T → T) (p i : Nat) : HM T Unit :=
  (moveEl p i).bind fun v => (if user then tick .user else M.ret ()).bind fun _ => assignEl p i (f v)

/-- `update_visitor` (457-512) -/
def updateV (user : Bool) (f : T → T) : Nat → Nat → Shp → Nat → HM T Nat
  | 0, p, sh, idx =>
      if sh.isLeaf then
        (liftO (sh.index c idx)).bind fun off =>
          (copyLeaf c E none p (sh.count c)).bind fun n =>
            ((applyEl user f n off).guard (delLeaf c E n (sh.count c))).bind fun _ => M.ret n
      else undef
  | L + 1, p, sh, idx =>
      (liftO (sh.index c idx)).bind fun off =>
        (newInner c E none (sh.count c)).bind fun n =>
          (((liftO (sh.towards c off)).bind fun sh' => (kid p off).bind fun q => updateV user f L q sh' idx).guard
            (delInner c E n (sh.count c))).bind fun child =>
          (doCopyInnerReplace E n p (sh.count c) off child).bind fun _ => M.ret n

/-- `get_mut_visitor` (583-662): what is at `*location` afterwards, and the leaf and index of the element -/
def getMut (e : Nat) : Nat → Nat → Shp → Nat → HM T (Nat × Nat × Nat)
  | 0, p, sh, idx =>
      if sh.isLeaf then
        (canMutate E e p).bind fun b =>
          if b then (liftO (sh.index c idx)).bind fun i => M.ret (p, p, i)
          else
            (copyLeaf c E (some e) p (sh.count c)).bind fun n =>
              (decV c E 0 p sh).bind fun _ => (liftO (sh.index c idx)).bind fun i => M.ret (n, n, i)
      else undef
  | L + 1, p, sh, idx =>
      (liftO (sh.index c idx)).bind fun off =>
        (canMutate E e p).bind fun b =>
          if b then
            (liftO (sh.towards c off)).bind fun sh' => (kid p off).bind fun q =>
              (getMut e L q sh' idx).bind fun r => (putKid p off r.1).bind fun _ => M.ret (p, r.2)
          else
            (newInner c E (some e) 0).bind fun n =>
              (doCopyInner E n p (sh.count c)).bind fun _ =>
                (((liftO (sh.towards c off)).bind fun sh' => (kid p off).bind fun q =>
                    (getMut e L q sh' idx).bind fun r =>
                      (putKid n off r.1).bind fun _ => M.ret r.2).guard
                  ((liftO (sh.size c)).bind fun size => decV c E (L + 1) n (.reg sh.shift size))).bind fun r =>
                (decV c E (L + 1) p sh).bind fun _ => M.ret (n, r)

/-- `push_tail_visitor` (779-857) and `push_tail_mut_visitor<_, false>` (665-777) up to the release of the old node -/
def pushTailNew (own : Option Nat) (tail : Nat) : Nat → Nat → Shp → HM T Nat
  | 0, _, _ => undef
  | L + 1, p, sh =>
      (liftO (sh.size c)).bind fun size => (liftO (sh.index c (size - 1))).bind fun idx =>
        (liftO (sh.index c (size + 2 ^ c.BL - 1))).bind fun ni =>
          (newInner c E own (ni + 1)).bind fun n =>
            ((if idx = ni then
                (liftO (sh.last c)).bind fun sh' => (kid p idx).bind fun q => pushTailNew own tail L q sh'
              else makePath c E own L tail).guard (freeInner c E own n (ni + 1))).bind fun child =>
            (doCopyInner E n p ni).bind fun _ => (putKid n ni child).bind fun _ => M.ret n

/-- `push_tail_mut_visitor<_, true>` (665-777) -/
def pushTailMut (e tail : Nat) : Nat → Nat → Shp → HM T Nat
  | 0, _, _ => undef
  | L + 1, p, sh =>
      (canMutate E e p).bind fun b =>
        if b then
          (liftO (sh.size c)).bind fun size => (liftO (sh.index c (size - 1))).bind fun idx =>
            (liftO (sh.index c (size + 2 ^ c.BL - 1))).bind fun ni =>
              (if idx = ni then
                (liftO (sh.last c)).bind fun sh' => (kid p idx).bind fun q => pushTailMut e tail L q sh'
              else makePath c E (some e) L tail).bind fun child =>
              (putKid p ni child).bind fun _ => M.ret p
        else (pushTailNew c E (some e) tail (L + 1) p sh).bind fun n => (decV c E (L + 1) p sh).bind fun _ => M.ret n

/-- the result of the slicing visitors: shift, root if any, size of the tail, tail -/
abbrev Sliced := Nat × Option Nat × Nat × Nat

/-- the `IMMER_TRY` blocks of `slice_right_visitor::visit_regular` (1125-1145) and `slice_right_mut_visitor::visit_regular`
(1003-1041); `mu` is `Mutating`, `b` is `mutate`, `r` are the results for the child `idx` -/
def sliceNode (own : Option Nat) (mu b collapse : Bool) (L p : Nat) (sh : Shp) (idx : Nat) (r : Sliced) : HM T Sliced :=
  match r.2.1 with
  | some next =>
      if b then
        (putKid p idx next).bind fun _ => (decRest c E L p sh (idx + 1)).bind fun _ =>
          (cutKids p (idx + 1)).bind fun _ => M.ret (sh.shift, some p, r.2.2)
      else
        (newInner c E own (idx + 1)).bind fun n => (doCopyInner E n p idx).bind fun _ => (putKid n idx next).bind fun _ =>
          (if mu then decV c E (L + 1) p sh else M.ret ()).bind fun _ => M.ret (sh.shift, some n, r.2.2)
  | none =>
      if idx = 0 then (if mu then decRight c E L p sh 1 else M.ret ()).bind fun _ => M.ret (sh.shift, none, r.2.2)
      else if collapse ∧ idx = 1 ∧ c.BL < sh.shift then
        (kid p 0).bind fun x => (if b then M.ret () else inc E x).bind fun _ =>
          (if mu then decRight c E L p sh 2 else M.ret ()).bind fun _ => M.ret (sh.shift - c.B, some x, r.2.2)
      else if b then
        (decRest c E L p sh (idx + 1)).bind fun _ => (cutKids p idx).bind fun _ => M.ret (sh.shift, some p, r.2.2)
      else
        (newInner c E own idx).bind fun n => (doCopyInner E n p idx).bind fun _ =>
          (if mu then decV c E (L + 1) p sh else M.ret ()).bind fun _ => M.ret (sh.shift, some n, r.2.2)

/-- the handlers of these blocks (1038-1046, 1146-1153) -/
def sliceCatch (L : Nat) (sh : Shp) (last : Nat) (r : Sliced) : HM T Unit :=
  (match r.2.1 with
    | some next => decV c E L next (.reg (sh.shift - c.B) (last + 1 - r.2.2.1))
    | none => M.ret ()).bind fun _ => decLeaf c E r.2.2.2 r.2.2.1

/-- `Mutating && node->can_mutate(e)`; the visitors that mutate have `own = some e` -/
def mayMutate (own : Option Nat) (mu : Bool) (p : Nat) : HM T Bool :=
  match own with
  | some e => if mu then canMutate E e p else M.ret false
  | none => M.ret false

/-- `slice_right_visitor` (1080-1188) with `own = none`, `slice_right_mut_visitor` (894-1078) with `own = some e` -/
def sliceRight (own : Option Nat) : Bool → Bool → Nat → Nat → Shp → Nat → HM T Sliced
  | mu, _, 0, p, sh, last =>
      if sh.isLeaf then
        (liftO (sh.index c last)).bind fun i => (mayMutate E own mu p).bind fun b =>
          if i + 1 = sh.count c then (if mu then M.ret () else inc E p).bind fun _ => M.ret (0, none, i + 1, p)
          else if b then (destroyN p (i + 1) (sh.count c - (i + 1))).bind fun _ => M.ret (0, none, i + 1, p)
          else (copyLeaf c E own p (i + 1)).bind fun t =>
            (if mu then decV c E 0 p sh else M.ret ()).bind fun _ => M.ret (0, none, i + 1, t)
      else undef
  | mu, collapse, L + 1, p, sh, last =>
      (liftO (sh.index c last)).bind fun idx => (mayMutate E own mu p).bind fun b =>
        (liftO (sh.towards c idx)).bind fun sh' => (kid p idx).bind fun q =>
          if collapse ∧ idx = 0 then
            (sliceRight own b collapse L q sh' last).bind fun r =>
              (if mu then decRight c E L p sh 1 else M.ret ()).bind fun _ => M.ret r
          else
            (sliceRight own b false L q sh' last).bind fun r =>
              (sliceNode c E own mu b collapse L p sh idx r).guard (sliceCatch c E L sh last r)

/-! ## Vectors (`rbtree.hpp`) -/

/-- `rbtree` (32-35) -/
structure Vc where
  size : Nat
  shift : Nat
  root : Nat
  tail : Nat

namespace Vc

/-- `tail_offset()` (150) -/
def off (v : Vc) : Nat := Vec.tailOffset c v.size

/-- `make_regular_sub_pos(root, shift, tail_off)` -/
def shp (v : Vc) : Shp := .regSub v.shift (v.off c)

/-- `rbtree()` (86-93); `er` and `et` are the nodes of `empty_root()` and `empty_tail()` (43-53) -/
def empty (er et : Nat) : HM T Vc := (inc E er).bind fun _ => (inc E et).bind fun _ => M.ret ⟨0, c.BL, er, et⟩

/-- `inc()` (139-143) -/
def share (v : Vc) : HM T Unit := (inc E v.root).bind fun _ => inc E v.tail

/-- `dec()` (145), `traverse` (152-164) -/
def drop (v : Vc) : HM T Unit :=
  (if v.off c ≠ 0 then decV c E (levels c v.shift) v.root (v.shp c) else decEmpty c E v.root).bind fun _ =>
    decLeaf c E v.tail (v.size - v.off c)

/-- `ensure_mutable_tail` (262-269) -/
def mutableTail (e : Nat) (v : Vc) (n : Nat) : HM T Vc :=
  (canMutate E e v.tail).bind fun b =>
    if b then M.ret v
    else (copyLeaf c E (some e) v.tail n).bind fun t => (decLeaf c E v.tail n).bind fun _ => M.ret { v with tail := t }

/-- `push_back_mut` (271-315) -/
def pushBackMut (e : Nat) (v : Vc) (x : T) : HM T Vc :=
  if v.size - v.off c < 2 ^ c.BL then
    (mutableTail c E e v (v.size - v.off c)).bind fun v =>
      (construct v.tail (v.size - v.off c) x).bind fun _ => M.ret { v with size := v.size + 1 }
  else
    (leafOf c E (some e) x).bind fun nt =>
      (if v.off c = 2 ^ c.B <<< v.shift then
        (newInner c E (some e) 2).bind fun nr =>
          (((makePath c E (some e) (levels c v.shift) v.tail).bind fun path =>
            (putKid nr 0 v.root).bind fun _ => (putKid nr 1 path).bind fun _ =>
              M.ret (Vc.mk (v.size + 1) (v.shift + c.B) nr nt))).guard (delInnerE c nr)
      else if v.off c ≠ 0 then
        (pushTailMut c E e v.tail (levels c v.shift) v.root (v.shp c)).bind fun nr =>
          M.ret (Vc.mk (v.size + 1) v.shift nr nt)
      else
        (makePath c E (some e) (levels c v.shift) v.tail).bind fun nr =>
          (decEmpty c E v.root).bind fun _ => M.ret (Vc.mk (v.size + 1) v.shift nr nt)).guard (delLeaf c E nt 1)

/-- `push_back` (317-359) -/
def pushBack (v : Vc) (x : T) : HM T Vc :=
  if v.size - v.off c < 2 ^ c.BL then
    (copyLeafEmplace c E v.tail (v.size - v.off c) x).bind fun t =>
      (inc E v.root).bind fun _ => M.ret ⟨v.size + 1, v.shift, v.root, t⟩
  else
    (leafOf c E none x).bind fun nt =>
      (if v.off c = 2 ^ c.B <<< v.shift then
        (newInner c E none 2).bind fun nr =>
          (((makePath c E none (levels c v.shift) v.tail).bind fun path =>
            (putKid nr 0 v.root).bind fun _ => (putKid nr 1 path).bind fun _ =>
              (inc E v.root).bind fun _ => (inc E v.tail).bind fun _ =>
                M.ret (Vc.mk (v.size + 1) (v.shift + c.B) nr nt))).guard (delInner c E nr 2)
      else if v.off c ≠ 0 then
        (pushTailNew c E none v.tail (levels c v.shift) v.root (v.shp c)).bind fun nr =>
          (inc E v.tail).bind fun _ => M.ret (Vc.mk (v.size + 1) v.shift nr nt)
      else
        (makePath c E none (levels c v.shift) v.tail).bind fun nr =>
          (inc E v.tail).bind fun _ => M.ret (Vc.mk (v.size + 1) v.shift nr nt)).guard (delLeaf c E nt 1)

/-- `get_mut` (366-376): the leaf and index of the element -/
def getMut (e : Nat) (v : Vc) (idx : Nat) : HM T (Vc × Nat × Nat) :=
  if v.off c ≤ idx then
    (mutableTail c E e v (v.size - v.off c)).bind fun v => M.ret (v, v.tail, idx &&& (2 ^ c.BL - 1))
  else
    (VecHeap.getMut c E e (levels c v.shift) v.root (v.shp c) idx).bind fun r => M.ret ({ v with root := r.1 }, r.2)

/-- `update` (400-416), `assoc` (423-426) -/
def update (user : Bool) (f : T → T) (v : Vc) (idx : Nat) : HM T Vc :=
  if v.off c ≤ idx then
    (updateV c E user f 0 v.tail (.leafSub (v.size - v.off c)) (idx - v.off c)).bind fun t =>
      (inc E v.root).bind fun _ => M.ret { v with tail := t }
  else
    (updateV c E user f (levels c v.shift) v.root (v.shp c) idx).bind fun r =>
      (inc E v.tail).bind fun _ => M.ret { v with root := r }

/-- `take` (428-454) -/
def take (er et : Nat) (v : Vc) (n : Nat) : HM T Vc :=
  if n = 0 then empty c E er et
  else if v.size ≤ n then (v.share E).bind fun _ => M.ret v
  else if v.off c < n then
    (copyLeaf c E none v.tail (n - v.off c)).bind fun t => (inc E v.root).bind fun _ => M.ret ⟨n, v.shift, v.root, t⟩
  else
    (sliceRight c E none false true (levels c v.shift) v.root (v.shp c) (n - 1)).bind fun r =>
      match r.2.1 with
      | some root => M.ret ⟨n, r.1, root, r.2.2.2⟩
      | none => (inc E er).bind fun _ => M.ret ⟨n, c.BL, er, r.2.2.2⟩

/-- `take_mut` (456-497) -/
def takeMut (e er et : Nat) (v : Vc) (n : Nat) : HM T Vc :=
  if n = 0 then (empty c E er et).bind fun u => (v.drop c E).bind fun _ => M.ret u
  else if v.size ≤ n then M.ret v
  else if v.off c < n then
    (canMutate E e v.tail).bind fun b =>
      if b then
        (destroyN v.tail (n - v.off c) (v.size - v.off c - (n - v.off c))).bind fun _ => M.ret { v with size := n }
      else
        (copyLeaf c E (some e) v.tail (n - v.off c)).bind fun t =>
          (decLeaf c E v.tail (v.size - v.off c)).bind fun _ => M.ret ⟨n, v.shift, v.root, t⟩
  else
    (sliceRight c E (some e) true true (levels c v.shift) v.root (v.shp c) (n - 1)).bind fun r =>
      (match r.2.1 with
        | some root => M.ret (Vc.mk n r.1 root r.2.2.2)
        | none => (inc E er).bind fun _ => M.ret (Vc.mk n c.BL er r.2.2.2)).bind fun u =>
      (decLeaf c E v.tail (v.size - v.off c)).bind fun _ => M.ret u

end Vc

/-- `regular_descent_pos` (position.hpp 1044-1105): the leaf -/
def descend : Nat → Nat → Nat → HM T Nat
  | 0, p, _ => M.ret p
  | L + 1, p, idx => (kid p ((idx >>> (c.BL + c.B * L)) &&& (2 ^ c.B - 1))).bind fun q => descend L q idx

/-- `get` (377-380), `descend` (217-222), `visit_regular_descent` (position.hpp 1107-1136) -/
def Vc.get (v : Vc) (idx : Nat) : HM T T :=
  (if v.off c ≤ idx then M.ret v.tail
    else (liftO (descentLevels c v.shift)).bind fun r => descend c r.1 v.root idx).bind fun p =>
  readEl p (idx &&& (2 ^ c.BL - 1))

end VecHeap
