import Verif.FlexHeap.Model

/-!
# Concatenation in memory

`detail/rbts/operations.hpp` 1461-2004 and `concat` of `rrbtree.hpp`, on raw memory.

* The positions of the nodes that are merged are read once.  (The code visits them twice, and reads each as it gets there.  Nothing
  that is merged is changed meanwhile.)
* A node that is shared is counted before it is put in its new parent, rather than after (1619-1620, 1655-1656).  Nothing throws
  in between.
* `merge` has one handler, which calls `abort` (1809-1812).  Here each step that may throw has it, with the state of the merger at
  that moment.
* The mutable versions `concat_trees_mut`, which are used under the collector only (`supports_transient_concat`), are not here.
-/

namespace FlexHeap
open Mm Rrb VecHeap

variable {T β : Type} (c : Cfg) (E : Env Dat T)

/-! ## Positions of children with exact sizes -/

/-- a node and its position -/
abbrev HPos := Nat × RShp

/-- leaf positions -/
def RShp.isLeaf : RShp → Bool
  | .reg sh => sh.isLeaf
  | .rel _ _ => false

/-- nodes with regular positions -/
def pairUp : List Nat → List Shp → Option (List HPos)
  | _, [] => some []
  | q :: qs, sh :: shs => (pairUp qs shs).map fun r => (q, .reg sh) :: r
  | [], _ :: _ => none

/-- the loops of `relaxed_pos` over children (position.hpp 1526-1549, 1552-1580); `prev` is the size before -/
def relSubs (s : Nat) : Nat → List Nat → List Nat → HM T (List HPos)
  | _, _, [] => M.ret []
  | prev, q :: qs, e :: es => (kidRel c s (e - prev) q).bind fun sh => (relSubs s e qs es).bind fun r => M.ret ((q, sh) :: r)
  | _, [], _ :: _ => undef

/-- the last child of a regular position -/
def kidRegSub (s size : Nat) : Shp := if s = c.BL then .leafSub size else .regSub (s - c.B) size

/-- `each_left_sub` (position.hpp 903-907, 1607-1611): all children but the last -/
def eachLeftSub (p : Nat) : RShp → HM T (List HPos)
  | .reg (.regSub s size) =>
      (liftO (eachLeft c (.regSub s size) ((Shp.regSub s size).count c - 1))).bind fun shs => (kids p).bind fun ks =>
        liftO (pairUp ks shs)
  | .rel s sz => (liftO (slice sz 0 (sz.length - 1))).bind fun sz => (kids p).bind fun ks => relSubs c s 0 ks sz
  | _ => undef

/-- `each_right_sub` (869-901, 1294-1298, 1637-1641): all children but the first; `last << shift_` is computed in 32 bits -/
def eachRightSub (p : Nat) : RShp → HM T (List HPos)
  | .reg (.regSub s size) =>
      if 1 < (Shp.regSub s size).count c then
        (liftO (Pos.shl32 ((Shp.regSub s size).count c - 1) s)).bind fun l => (kids p).bind fun ks =>
          liftO (pairUp (ks.drop 1)
            (List.replicate ((Shp.regSub s size).count c - 1 - 1) (Shp.kidFull c s) ++ [kidRegSub c s (size - l)]))
      else M.ret []
  | .reg (.full s) => (kids p).bind fun ks => liftO (pairUp (ks.drop 1) (List.replicate (2 ^ c.B - 1) (Shp.kidFull c s)))
  | .rel s sz =>
      if 1 ≤ sz.length then
        (liftO (Pos.szBefore sz 1)).bind fun b => (kids p).bind fun ks => relSubs c s b (ks.drop 1) (sz.drop 1)
      else undef
  | _ => undef

/-- `last_sub` (948-958, 1740-1750) -/
def lastSub (p : Nat) : RShp → HM T HPos
  | .reg (.regSub s size) =>
      (kid p ((Shp.regSub s size).count c - 1)).bind fun q =>
        M.ret (q, .reg (kidRegSub c s (size - (((Shp.regSub s size).count c - 1) <<< s))))
  | .rel s sz =>
      (kid p (sz.length - 1)).bind fun q => (liftO ((RShp.rel s sz).sizeAt (sz.length - 1))).bind fun z =>
        (kidRel c s z q).bind fun sh => M.ret (q, sh)
  | _ => undef

/-- `first_sub` (960-974, 1351-1358, 1752-1763) -/
def firstSub (p : Nat) : RShp → HM T HPos
  | .reg (.regSub s size) =>
      (kid p 0).bind fun q => M.ret (q, .reg (if 1 <<< s ≤ size then Shp.kidFull c s else kidRegSub c s size))
  | .reg (.full s) => (kid p 0).bind fun q => M.ret (q, .reg (Shp.kidFull c s))
  | .rel s sz => (kid p 0).bind fun q => (liftO sz[0]?).bind fun z => (kidRel c s z q).bind fun sh => M.ret (q, sh)
  | _ => undef

/-- `first_sub_leaf` (976-984, 1360-1366, 1765-1772) -/
def firstSubLeaf (p : Nat) : RShp → HM T HPos
  | .reg (.regSub _ size) =>
      (kid p 0).bind fun q => M.ret (q, .reg (if 2 ^ c.BL ≤ size then .fullLeaf else .leafSub size))
  | .reg (.full _) => (kid p 0).bind fun q => M.ret (q, .reg .fullLeaf)
  | .rel _ sz => (kid p 0).bind fun q => (liftO sz[0]?).bind fun z => M.ret (q, .reg (.leafSub z))
  | _ => undef

/-- left operands; `singleton_regular_sub_pos` (position.hpp 713-762) is a leaf posing as the only child of an inner node -/
inductive HLeft where
  | pos (p : HPos)
  | single (leaf count : Nat)

namespace HLeft

def shift : HLeft → Nat
  | pos p => p.2.shift
  | single _ _ => c.BL

def lastSub : HLeft → HM T HPos
  | pos p => FlexHeap.lastSub c p.1 p.2
  | single p k => M.ret (p, .reg (.leafSub k))

def eachLeftSub : HLeft → HM T (List HPos)
  | pos p => FlexHeap.eachLeftSub c p.1 p.2
  | single _ _ => M.ret []

end HLeft

/-! ## `concat_center_pos` (1461-1557) -/

/-- up to three nodes with cumulative sizes; it holds a reference to each of them -/
structure HCenter where
  shift : Nat
  nodes : List Nat
  sizes : List Nat

/-- leaves with their sizes -/
def leafSubs : Nat → List Nat → List Nat → Option (List HPos)
  | _, [], [] => some []
  | b, q :: qs, e :: es => (leafSubs e qs es).map fun r => (q, .reg (.leafSub (e - b))) :: r
  | _, _, _ => none

/-- relaxed nodes with their tables -/
def relNodes (s : Nat) : List Nat → HM T (List HPos)
  | [] => M.ret []
  | p :: ps => (theTable p).bind fun t => (sizesOf t).bind fun sz => (relNodes s ps).bind fun r => M.ret ((p, .rel s sz) :: r)

/-- `each_sub` (1505-1520) -/
def HCenter.subs (x : HCenter) : HM T (List HPos) :=
  if x.shift = c.BL then liftO (leafSubs 0 x.nodes x.sizes) else relNodes (x.shift - c.B) x.nodes

/-- `dec_visitor` on nodes of level `L` -/
def decAll (L : Nat) : List HPos → HM T Unit
  | [] => M.ret ()
  | p :: ps => (decR c E L p.1 p.2).bind fun _ => decAll L ps

/-- `each_sub(dec_visitor{})` -/
def HCenter.drop (x : HCenter) : HM T Unit := (x.subs c).bind fun ps => decAll c E (levels c x.shift - 1) ps

/-- `realize` (1522-1541): shift and node -/
def HCenter.realize (x : HCenter) : HM T (Nat × Nat) :=
  if 1 < x.nodes.length then
    ((newInnerR c E none x.nodes.length).guard (x.drop c E)).bind fun p => (theTable p).bind fun t =>
      (setKids p x.nodes).bind fun _ => (setSizes t x.sizes).bind fun _ => M.ret (x.shift, p)
  else (liftO x.nodes[0]?).bind fun p => M.ret (x.shift - c.B, p)

/-! ## `concat_merger` (1559-1702) -/

/-- `curr_`, `n_`, the parents and their cumulative sizes (`result_`), and the node being filled: `to_`, `to_offset_`,
`to_size_` -/
structure HMerger where
  curr : List Nat
  n : Nat
  shift : Nat
  nodes : List Nat
  sizes : List Nat
  dst : Option Nat
  toOff : Nat
  toSize : Nat

namespace HMerger

/-- constructor (1572-1578) -/
def init (shift : Nat) (counts : List Nat) : HM T HMerger :=
  (newInnerR c E none (min counts.length (2 ^ c.B))).bind fun p =>
    M.ret ⟨counts, counts.length, shift + c.B, [p], [0], none, 0, 0⟩

/-- `abort` (1692-1702) -/
def abort (m : HMerger) : HM T Unit :=
  (match m.dst with
    | none => M.ret ()
    | some q =>
        if m.shift - c.B = c.BL then delLeaf c E q m.toOff
        else
          (theTable q).bind fun t => (sizesOf t).bind fun sz =>
            decR c E (levels c (m.shift - c.B) - 1) q (.rel (m.shift - c.B - c.B) sz)).bind fun _ =>
  (relNodes (m.shift - c.B) m.nodes).bind fun ps => decAll c E (levels c m.shift - 1) ps

/-- first half of `add_child` (1584-1599) -/
def mkRoom (m : HMerger) : HM T HMerger :=
  (liftO m.nodes.getLast?).bind fun p => (theTable p).bind fun t => (sizesOf t).bind fun sz =>
    if sz.length = 2 ^ c.B then
      if m.nodes.length < 3 then
        (liftO m.sizes.getLast?).bind fun z => (newInnerR c E none (min (m.n - 2 ^ c.B) (2 ^ c.B))).bind fun q =>
          M.ret { m with curr := m.curr.tail, n := m.n - 2 ^ c.B, nodes := m.nodes ++ [q], sizes := m.sizes ++ [z] }
      else undef
    else M.ret { m with curr := m.curr.tail }

/-- second half of `add_child` (1600-1605) -/
def put (m : HMerger) (q size : Nat) : HM T HMerger :=
  (liftO m.nodes.getLast?).bind fun p => (theTable p).bind fun t => (sizesOf t).bind fun sz =>
    (liftO m.sizes.getLast?).bind fun z => (liftO (Pos.szBefore sz sz.length)).bind fun b =>
      (setSizes t (sz ++ [size + b])).bind fun _ => (putKid p sz.length q).bind fun _ =>
        M.ret { m with sizes := m.sizes.dropLast ++ [z + size] }

/-- `add_child` (1584-1606) for the node being filled -/
def addDst (m : HMerger) (q size : Nat) : HM T HMerger :=
  ((m.mkRoom c E).guard (m.abort c E)).bind fun m => (m.put q size).bind fun m => M.ret { m with dst := none }

/-- `add_child` for a node that is shared -/
def addShared (m : HMerger) (q size : Nat) : HM T HMerger :=
  ((m.mkRoom c E).guard (m.abort c E)).bind fun m => (inc E q).bind fun _ => m.put q size

/-- the loop of `merge_leaf` (1624-1640), from element `off` on, with `rem` to go -/
def leafLoop (q : Nat) : Nat → HMerger → Nat → Nat → HM T HMerger
  | 0, _, _, _ => undef
  | fuel + 1, m, off, rem =>
      (liftO m.curr.head?).bind fun count =>
        (match m.dst with
          | some d => M.ret (m, d)
          | none =>
              ((newLeaf c E none count).guard (m.abort c E)).bind fun d => M.ret ({ m with dst := some d, toOff := 0 }, d)).bind
        fun r =>
          ((uninitCopy q off (min rem (count - r.1.toOff)) r.2 r.1.toOff).guard (r.1.abort c E)).bind fun _ =>
            let m := { r.1 with toOff := r.1.toOff + min rem (count - r.1.toOff) }
            (if count = m.toOff then addDst c E m r.2 m.toOff else M.ret m).bind fun m =>
              if min rem (count - r.1.toOff) = rem then M.ret m
              else leafLoop q fuel m (off + min rem (count - r.1.toOff)) (rem - min rem (count - r.1.toOff))

/-- `merge_leaf` (1608-1642) -/
def mergeLeaf (m : HMerger) (q : Nat) (sh : RShp) : HM T HMerger :=
  (liftO (sh.size c)).bind fun size => (liftO m.curr.head?).bind fun count =>
    if m.dst = none ∧ count = sh.count c then addShared c E m q size
    else leafLoop c E q (sh.count c + 1) m 0 (sh.count c)

/-- `merge_inner`, children `[off, off + k)` (1661-1677): the sum of their sizes and what was there -/
def takeKids (m : HMerger) (q : Nat) (sh : RShp) (d off k : Nat) : HM T Nat :=
  (kids q).bind fun ks => (liftO (slice ks off (off + k))).bind fun ks => (incAll E ks).bind fun _ => (kids d).bind fun dk =>
    (setKids d (dk ++ ks)).bind fun _ => (liftO (sh.copySizes off k m.toSize)).bind fun ss => (theTable d).bind fun t =>
      (sizesOf t).bind fun ts => (setSizes t (ts ++ ss)).bind fun _ => liftO (ts ++ ss).getLast?

/-- the loop of `merge_inner` (1654-1682), from child `off` on, with `rem` to go -/
def innerLoop (q : Nat) (sh : RShp) : Nat → HMerger → Nat → Nat → HM T HMerger
  | 0, _, _, _ => undef
  | fuel + 1, m, off, rem =>
      (liftO m.curr.head?).bind fun count =>
        (match m.dst with
          | some d => M.ret (m, d)
          | none =>
              ((newInnerR c E none count).guard (m.abort c E)).bind fun d =>
                M.ret ({ m with dst := some d, toOff := 0, toSize := 0 }, d)).bind
        fun r =>
          (takeKids E r.1 q sh r.2 off (min rem (count - r.1.toOff))).bind fun z =>
            let m := { r.1 with toOff := r.1.toOff + min rem (count - r.1.toOff), toSize := z }
            (if count = m.toOff then addDst c E m r.2 z else M.ret m).bind fun m =>
              if min rem (count - r.1.toOff) = rem then M.ret m
              else innerLoop q sh fuel m (off + min rem (count - r.1.toOff)) (rem - min rem (count - r.1.toOff))

/-- `merge_inner` (1644-1684) -/
def mergeInner (m : HMerger) (q : Nat) (sh : RShp) : HM T HMerger :=
  (liftO (sh.size c)).bind fun size => (liftO m.curr.head?).bind fun count =>
    if m.dst = none ∧ count = sh.count c then addShared c E m q size
    else innerLoop c E q sh (sh.count c + 1) m 0 (sh.count c)

/-- `concat_merger_visitor` (1704-1719) -/
def visit (m : HMerger) (p : HPos) : HM T HMerger :=
  if p.2.isLeaf then mergeLeaf c E m p.1 p.2 else mergeInner c E m p.1 p.2

/-- all of them -/
def visitAll : HMerger → List HPos → HM T HMerger
  | m, [] => M.ret m
  | m, p :: ps => (visit c E m p).bind fun m => visitAll m ps

/-- `finish` (1686-1690): asserts that nothing is left over -/
def finish (m : HMerger) : HM T HCenter :=
  match m.dst with
  | none => M.ret ⟨m.shift, m.nodes, m.sizes⟩
  | some _ => undef

end HMerger

/-- the plan: `fill` (1721-1754) and `shuffle` (1756-1792) -/
def planOf (shift : Nat) (ps : List HPos) : Option (List Nat) :=
  if ps.length ≤ 2 * 2 ^ c.B + 1 then Plan.shuffle c shift (ps.map fun p => p.2.count c) else none

/-- `concat_rebalance` (1816-1829) with `merge` (1794-1813); `ls`, `rs` are what `each_left_sub` and `each_right_sub` visit.  The
centre is released. -/
def concatRebalance (ls : List HPos) (x : HCenter) (rs : List HPos) : HM T HCenter :=
  (x.subs c).bind fun xs => (liftO (planOf c x.shift (ls ++ xs ++ rs))).bind fun counts =>
    (((HMerger.init c E x.shift counts).bind fun m => HMerger.visitAll c E m (ls ++ xs ++ rs)).guard
      (decAll c E (levels c x.shift - 1) xs)).bind fun m =>
    (decAll c E (levels c x.shift - 1) xs).bind fun _ => m.finish

/-- `concat_leafs` (1831-1857); no tail is `empty_leaf_pos` -/
def concatLeafs (l : HPos) (t : Option HPos) (r : HPos) : HM T HCenter :=
  if l.2.isLeaf ∧ r.2.isLeaf then
    match t with
    | some t =>
        if 0 < t.2.count c then
          (incAll E [l.1, t.1, r.1]).bind fun _ =>
            M.ret ⟨c.BL, [l.1, t.1, r.1],
              [l.2.count c, l.2.count c + t.2.count c, l.2.count c + t.2.count c + r.2.count c]⟩
        else
          (incAll E [l.1, r.1]).bind fun _ => M.ret ⟨c.BL, [l.1, r.1], [l.2.count c, l.2.count c + r.2.count c]⟩
    | none => (incAll E [l.1, r.1]).bind fun _ => M.ret ⟨c.BL, [l.1, r.1], [l.2.count c, l.2.count c + r.2.count c]⟩
  else undef

/-- `concat_inners` (1865-1882) with the visitors (1884-1942).  `fuel` is the number of levels of both operands. -/
def concatInners : Nat → HLeft → Option HPos → HPos → HM T HCenter
  | 0, _, _, _ => undef
  | fuel + 1, l, t, r =>
      if r.2.shift < l.shift c then
        (l.lastSub c).bind fun q => (if q.2.isLeaf then undef else concatInners fuel (.pos q) t r).bind fun x =>
          (l.eachLeftSub c).bind fun ls => concatRebalance c E ls x []
      else if l.shift c < r.2.shift then
        (firstSub c r.1 r.2).bind fun q =>
          (if q.2.isLeaf then (match l with | .pos p => concatLeafs c E p t q | .single _ _ => undef)
            else concatInners fuel l t q).bind fun x =>
          (eachRightSub c r.1 r.2).bind fun rs => concatRebalance c E [] x rs
      else
        (l.lastSub c).bind fun q =>
          (if q.2.isLeaf then (firstSubLeaf c r.1 r.2).bind fun q' => concatLeafs c E q t q'
            else (firstSub c r.1 r.2).bind fun q' =>
              if q'.2.isLeaf then concatLeafs c E q t q' else concatInners fuel (.pos q) t q').bind fun x =>
          (l.eachLeftSub c).bind fun ls => (eachRightSub c r.1 r.2).bind fun rs => concatRebalance c E ls x rs

/-- `concat_trees(lroot, …, ltail, …, rroot, …)` (1972-1991) with the visitors (1944-1970) -/
def concatTrees (lroot lshift lsize ltail ltcount rroot rshift rsize : Nat) : HM T (Nat × Nat) :=
  (maybeRel lroot lshift lsize).bind fun l => (maybeRel rroot rshift rsize).bind fun r =>
    (concatInners c E (levels c lshift + levels c rshift) (.pos (lroot, l)) (some (ltail, .reg (.leaf ltcount))) (rroot, r)).bind
      fun x => x.realize c E

/-- `concat_trees(ltail, ltcount, rroot, …)` (1993-2004) -/
def concatTreesTail (ltail ltcount rroot rshift rsize : Nat) : HM T (Nat × Nat) :=
  (maybeRel rroot rshift rsize).bind fun r =>
    (concatInners c E (1 + levels c rshift) (.single ltail ltcount) none (rroot, r)).bind fun x => x.realize c E

/-- `copy_leaf(src1, n1, src2, n2)` (node.hpp 699-723), `copy_leaf_e` (725-748) -/
def copyLeaf2 (own : Option Nat) (src1 n1 src2 n2 : Nat) : HM T Nat :=
  (newLeaf c E own (n1 + n2)).bind fun dst =>
    ((uninitCopy src1 0 n1 dst 0).guard (freeLeaf c E own dst (n1 + n2))).bind fun _ =>
      ((uninitCopy src2 0 n2 dst n1).guard
        ((destroyN dst 0 n1).bind fun _ => freeLeaf c E own dst (n1 + n2))).bind fun _ => M.ret dst

namespace Fc

/-- the tail of `concat` (703-779) and of `concat_mut_r`, `concat_mut_lr_r` when the right operand has a tail only: shift, root and
tail of the result, which holds a reference to each.  `own` is `er`, or nothing; `share` says whether `l.tail->inc()` is there. -/
def concatTail (own : Option Nat) (share : Bool) (l : Vc) (o : Nat) (r : Vc) : HM T (Nat × Nat × Nat) :=
  if l.size - o = 2 ^ c.BL then
    (pushTail c E l.root l.shift o l.tail (l.size - o)).bind fun x =>
      (if share then inc E l.tail else M.ret ()).bind fun _ => (inc E r.tail).bind fun _ => M.ret (x.1, x.2, r.tail)
  else if l.size - o + r.size ≤ 2 ^ c.BL then
    (copyLeaf2 c E none l.tail (l.size - o) r.tail r.size).bind fun t => (inc E l.root).bind fun _ => M.ret (l.shift, l.root, t)
  else
    (copyLeaf2 c E own l.tail (l.size - o) r.tail (2 ^ c.BL - (l.size - o))).bind fun a =>
      ((copyLeafI c E own r.tail (2 ^ c.BL - (l.size - o)) r.size).bind fun nt =>
        ((pushTail c E l.root l.shift o a (2 ^ c.BL)).bind fun x => M.ret (x.1, x.2, nt)).guard
          (delLeaf c E nt (r.size - (2 ^ c.BL - (l.size - o))))).guard (delLeaf c E a (2 ^ c.BL))

/-- `concat` (703-779) -/
def concat (l r : Vc) : HM T Vc :=
  if l.size = 0 then (r.share E).bind fun _ => M.ret r
  else if r.size = 0 then (l.share E).bind fun _ => M.ret l
  else
    (off c r).bind fun ro => (off c l).bind fun o =>
      if ro = 0 then (concatTail c E none true l o r).bind fun x => M.ret ⟨l.size + r.size, x.1, x.2.1, x.2.2⟩
      else
        (if o = 0 then concatTreesTail c E l.tail (l.size - o) r.root r.shift ro
          else concatTrees c E l.root l.shift o l.tail (l.size - o) r.root r.shift ro).bind fun x =>
          (inc E r.tail).bind fun _ => M.ret ⟨l.size + r.size, x.1, x.2, r.tail⟩

end Fc

end FlexHeap
