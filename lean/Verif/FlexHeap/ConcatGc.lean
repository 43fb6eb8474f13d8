import Verif.FlexHeap.ConcatMut

/-!
# Concatenation in place under the collector

`concat_trees_mut` (`detail/rbts/operations.hpp` 2006-2504) on raw memory.  It is used when nodes have owners
(`supports_transient_concat`, rrbtree.hpp 781-782), which is under the collector only.  Nodes that belong to the token of the
operand that they come from are used again.

* An edit is a token, or nothing for `noone`.
* Nodes are read when the code reads them, as they may have been changed before.  Sizes of a node that is being merged are those
  that it had when the visit began.
* A table of sizes that was allocated, but not filled, is empty here; reading its sizes is undefined.  `d.count` is the number of
  sizes of the table.
* Elements may be constructed where there is an object that has been moved from: nothing destroys elements under the collector.
* When an allocation or a copy throws inside the merger, the code terminates the program (`abort`, 2195-2202).  Here the exception
  goes on; C54 says what memory is like then, but no program goes on from there.
-/

namespace FlexHeap
open Mm Rrb VecHeap

variable {T β : Type} (c : Cfg) (E : Env Dat T)

namespace Gc

/-- `can_mutate(e)`, where `noone` can mutate nothing -/
def can (e : Option Nat) (p : Nat) : HM T Bool :=
  match e with
  | none => M.ret false
  | some e => canMutate E e p

/-- `ensure_mutable_relaxed_e(e, ec)` (node.hpp 892-917) -/
def mutTable (e : Option Nat) (ec p : Nat) : HM T Unit :=
  (tableOf p).bind fun r =>
    match r with
    | some t => (can E e t).bind fun b =>
        if b then setTok E t ec
        else
          (newTable c E (some ec) 0).bind fun t' => (sizesOf t).bind fun sz => (setSizes t' sz).bind fun _ => setTable p (some t')
    | none => (newTable c E (some ec) 0).bind fun t' => setTable p (some t')

/-- `sizes[i] = x` -/
def putSize (t i x : Nat) : HM T Unit :=
  (sizesOf t).bind fun sz =>
    if i < sz.length then setSizes t (sz.set i x) else if i = sz.length then setSizes t (sz ++ [x]) else undef

/-- `d.count = n` -/
def cutSizes (p n : Nat) : HM T Unit :=
  (theTable p).bind fun t => (sizesOf t).bind fun sz => if n ≤ sz.length then setSizes t (sz.take n) else undef

/-- `new (x) T{v}`, also where there is an object that has been moved from -/
def construct (p i : Nat) (v : T) : HM T Unit :=
  (cell p).bind fun x =>
    match x.els[i]? with
    | some .raw => setEls p (x.els.set i (.live v))
    | some .moved => setEls p (x.els.set i (.live v))
    | _ => undef

/-- `uninitialized_copy(src + i, src + i + n, dst + o)`, or `uninitialized_move` -/
def fill (mv : Bool) (src : Nat) : (i n dst o : Nat) → HM T Unit
  | _, 0, _, _ => M.ret ()
  | i, n + 1, dst, o =>
      (if mv then moveEl src i else copyEl src i).bind fun v => (construct dst o v).bind fun _ => fill mv src (i + 1) n dst (o + 1)

/-- `std::move(p + i, p + i + n, p + o)` -/
def slide (p : Nat) : (i n o : Nat) → HM T Unit
  | _, 0, _ => M.ret ()
  | i, n + 1, o => (moveEl p i).bind fun v => (assignEl p o v).bind fun _ => slide p (i + 1) n (o + 1)

/-- What has been moved from at `n` and after it is storage from now on: nothing that the code does, but nothing will use these
objects again. -/
def forget (p n : Nat) : HM T Unit :=
  (cell p).bind fun x =>
    setEls p (x.els.take n ++ (x.els.drop n).map fun y => match y with | .moved => .raw | y => y)

/-- `concat_merger_mut` (2009-2042, 2049-2051) -/
structure Merger where
  ec : Nat
  curr : List Nat
  n : Nat
  shift : Nat
  nodes : List Nat
  sizes : List Nat
  count : Nat
  cand : Option (Option Nat × Nat)
  dst : Option Nat
  toOff : Nat
  toSize : Nat

/-- constructor (2027-2042) -/
def init (ec shift : Nat) (counts : List Nat) (cand : Option (Option Nat × Nat)) : HM T Merger :=
  (match cand with
    | some (e, p) => (mutTable c E e ec p).bind fun _ => M.ret p
    | none => newInnerR c E (some ec) 0).bind fun p =>
  M.ret ⟨ec, counts, counts.length, shift + c.B, [p], [0], 0, none, none, 0, 0⟩

/-- `add_child` (2059-2090) -/
def addChild (m : Merger) (q size : Nat) : HM T Merger :=
  (liftO m.nodes.getLast?).bind fun p => (liftO m.sizes.getLast?).bind fun z =>
    (if m.count = 2 ^ c.B then
      (cutSizes p m.count).bind fun _ =>
        if m.nodes.length < 3 then
          (match m.cand with
            | some (e, p) => (mutTable c E e m.ec p).bind fun _ => M.ret p
            | none => newInnerR c E (some m.ec) 0).bind fun p =>
          M.ret ({ m with curr := m.curr.tail, n := m.n - 2 ^ c.B, nodes := m.nodes ++ [p], sizes := m.sizes ++ [z], count := 0,
                          cand := none }, p)
        else undef
    else M.ret ({ m with curr := m.curr.tail }, p)).bind fun r =>
  (theTable r.2).bind fun t => (sizesOf t).bind fun sz => (liftO (Pos.szBefore sz r.1.count)).bind fun b =>
    (putSize t r.1.count (size + b)).bind fun _ => (putKid r.2 r.1.count q).bind fun _ =>
      M.ret { r.1 with count := r.1.count + 1, sizes := r.1.sizes.dropLast ++ [z + size] }

/-- the loop of `merge_leaf` (2104-2142), from element `off` on, with `rem` to go; `b` is `from_mutate` -/
def leafLoop (q : Nat) (b : Bool) : Nat → Merger → Nat → Nat → HM T Merger
  | 0, _, _, _ => undef
  | fuel + 1, m, off, rem =>
      (liftO m.curr.head?).bind fun count =>
        (match m.dst with
          | some d => M.ret (m, d)
          | none =>
              (if b then (setTok E q m.ec).bind fun _ => M.ret q else newLeaf c E (some m.ec) 0).bind fun d =>
                M.ret ({ m with dst := some d, toOff := 0 }, d)).bind
        fun r =>
          let k := min rem (count - r.1.toOff)
          (if q = r.2 then (if off = r.1.toOff then M.ret () else slide q off k r.1.toOff) else fill b q off k r.2 r.1.toOff).bind
            fun _ =>
            let m := { r.1 with toOff := r.1.toOff + k }
            (if count = m.toOff then
              (forget r.2 count).bind fun _ => (addChild c E m r.2 m.toOff).bind fun m => M.ret { m with dst := none }
            else M.ret m).bind
              fun m => if k = rem then M.ret m else leafLoop q b fuel m (off + k) (rem - k)

/-- `from->leaf()` (2102), for leaves only -/
def theLeaf (q : Nat) : HM T Unit :=
  (cell q).bind fun x =>
    match x.data with
    | .leaf => M.ret ()
    | _ => undef

/-- `merge_leaf` (2092-2144) -/
def mergeLeaf (e : Option Nat) (m : Merger) (q : Nat) (sh : RShp) : HM T Merger :=
  (liftO (sh.size c)).bind fun size => (liftO m.curr.head?).bind fun count =>
    if m.dst = none ∧ count = sh.count c then addChild c E m q size
    else (theLeaf q).bind fun _ => (can E e q).bind fun b => leafLoop c E q b (sh.count c + 1) m 0 (sh.count c)

/-- children and sizes are put at `o` -/
def putKids (d t : Nat) : (o : Nat) → List Nat → List Nat → HM T Unit
  | o, q :: qs, x :: xs => (putKid d o q).bind fun _ => (putSize t o x).bind fun _ => putKids d t (o + 1) qs xs
  | _, [], [] => M.ret ()
  | _, _, _ => undef

/-- the loop of `merge_inner` (2160-2191) -/
def innerLoop (q : Nat) (sh : RShp) (e : Option Nat) (b : Bool) : Nat → Merger → Nat → Nat → HM T Merger
  | 0, _, _, _ => undef
  | fuel + 1, m, off, rem =>
      (liftO m.curr.head?).bind fun count =>
        (match m.dst with
          | some d => M.ret (m, d)
          | none =>
              (if b then (setTok E q m.ec).bind fun _ => (mutTable c E e m.ec q).bind fun _ => M.ret q
                else newInnerR c E (some m.ec) 0).bind fun d =>
                M.ret ({ m with dst := some d, toOff := 0, toSize := 0 }, d)).bind
        fun r =>
          let k := min rem (count - r.1.toOff)
          (theTable r.2).bind fun t =>
          (if q = r.2 ∧ off = r.1.toOff then M.ret ()
            else
              (kids q).bind fun ks => (liftO (slice ks off (off + k))).bind fun ks =>
                (liftO (sh.copySizes off k r.1.toSize)).bind fun ss => putKids r.2 t r.1.toOff ks ss).bind fun _ =>
            (sizesOf t).bind fun sz => (liftO (Pos.szBefore sz (r.1.toOff + k))).bind fun z =>
            let m := { r.1 with toOff := r.1.toOff + k, toSize := z }
            (if count = m.toOff then
              (cutSizes r.2 m.toOff).bind fun _ => (addChild c E m r.2 z).bind fun m => M.ret { m with dst := none }
            else M.ret m).bind fun m => if k = rem then M.ret m else innerLoop q sh e b fuel m (off + k) (rem - k)

/-- `merge_inner` (2146-2193) -/
def mergeInner (e : Option Nat) (m : Merger) (q : Nat) (sh : RShp) : HM T Merger :=
  (liftO (sh.size c)).bind fun size => (liftO m.curr.head?).bind fun count =>
    if m.dst = none ∧ count = sh.count c then addChild c E m q size
    else (can E e q).bind fun b => innerLoop c E q sh e b (sh.count c + 1) m 0 (sh.count c)

/-- `concat_merger_mut_visitor` (2205-2220) -/
def visit (e : Option Nat) (m : Merger) (q : Nat) (sh : RShp) : HM T Merger :=
  if sh.isLeaf then mergeLeaf c E e m q sh else mergeInner c E e m q sh

/-- the loops of regular positions over children from `i` on -/
def eachReg (e : Option Nat) (p : Nat) : Nat → List Shp → Merger → HM T Merger
  | _, [], m => M.ret m
  | i, sh :: shs, m => (kid p i).bind fun q => (visit c E e m q (.reg sh)).bind fun m => eachReg e p (i + 1) shs m

/-- the loops of `relaxed_pos` over `n` children from `i` on (position.hpp 1607-1635, 1637-1670); `t` is `relaxed_` -/
def eachRel (e : Option Nat) (p t s : Nat) : Nat → Nat → Nat → Merger → HM T Merger
  | 0, _, _, m => M.ret m
  | n + 1, i, prev, m =>
      (kid p i).bind fun q => (sizesOf t).bind fun sz => (liftO sz[i]?).bind fun x => (kidRel c s (x - prev) q).bind fun sh =>
        (visit c E e m q sh).bind fun m => (sizesOf t).bind fun sz => (liftO sz[i]?).bind fun x => eachRel e p t s n (i + 1) x m

/-- a position: the node, its shape, and the table `relaxed_` points to -/
abbrev MPos := HPos × Option Nat

/-- with the table that the node has now -/
def withTable (p : HPos) : HM T MPos :=
  if p.2.isLeaf then M.ret (p, none) else (tableOf p.1).bind fun t => M.ret (p, t)

/-- left operands -/
inductive MLeft where
  | pos (p : MPos)
  | single (leaf count : Nat)

/-- without tables -/
def MLeft.left : MLeft → HLeft
  | .pos p => .pos p.1
  | .single p k => .single p k

/-- `lpos.each_left_sub` -/
def eachLeftSub (e : Option Nat) (m : Merger) : Option MLeft → HM T Merger
  | some (.pos ((p, .reg (.regSub s size)), _)) =>
      (liftO (eachLeft c (.regSub s size) ((Shp.regSub s size).count c - 1))).bind fun shs => eachReg c E e p 0 shs m
  | some (.pos ((p, .rel s sz), some t)) => eachRel c E e p t s (sz.length - 1) 0 0 m
  | some (.pos _) => undef
  | some (.single _ _) => M.ret m
  | none => M.ret m

/-- `rpos.each_right_sub` -/
def eachRightSub (e : Option Nat) (m : Merger) : Option MPos → HM T Merger
  | some ((p, .reg (.regSub s size)), _) =>
      if 1 < (Shp.regSub s size).count c then
        (liftO (Pos.shl32 ((Shp.regSub s size).count c - 1) s)).bind fun l =>
          eachReg c E e p 1 (List.replicate ((Shp.regSub s size).count c - 1 - 1) (Shp.kidFull c s) ++ [kidRegSub c s (size - l)]) m
      else M.ret m
  | some ((p, .reg (.full s)), _) => eachReg c E e p 1 (List.replicate (2 ^ c.B - 1) (Shp.kidFull c s)) m
  | some ((p, .rel s sz), some t) =>
      if 1 ≤ sz.length then (sizesOf t).bind fun z => (liftO z[0]?).bind fun b => eachRel c E e p t s (sz.length - 1) 1 b m
      else undef
  | some _ => undef
  | none => M.ret m

/-- `concat_center_pos::each_sub` with the merger, at leaves -/
def centreLeaves (e : Option Nat) : List HPos → Merger → HM T Merger
  | [], m => M.ret m
  | p :: ps, m => (visit c E e m p.1 p.2).bind fun m => centreLeaves e ps m

/-- and at inner nodes -/
def centreNodes (e : Option Nat) (s : Nat) : List Nat → Merger → HM T Merger
  | [], m => M.ret m
  | p :: ps, m =>
      (theTable p).bind fun t => (sizesOf t).bind fun sz => (visit c E e m p (.rel s sz)).bind fun m => centreNodes e s ps m

/-- `can_mutate` for a node that may be null -/
def usable (e : Option Nat) (p : Option Nat) : HM T (Option (Option Nat × Nat)) :=
  match p with
  | none => M.ret none
  | some p => (can E e p).bind fun b => M.ret (if b then some (e, p) else none)

/-- the node of `lpos` -/
def MLeft.node : MLeft → Option Nat
  | .pos p => some p.1.1
  | .single _ _ => none

/-- `concat_rebalance_mut` (2261-2273) with `merge` (2227-2258), and `finish` (2188-2193) -/
def rebalance (ec : Nat) (el : Option Nat) (l : Option MLeft) (x : HCenter) (er : Option Nat) (r : Option MPos) : HM T HCenter :=
  (match l with | some l => l.left.eachLeftSub c | none => M.ret []).bind fun ls => (x.subs c).bind fun xs =>
  (match r with | some r => FlexHeap.eachRightSub c r.1.1 r.1.2 | none => M.ret []).bind fun rs =>
  (liftO (planOf c x.shift (ls ++ xs ++ rs))).bind fun counts =>
    (usable E el (l.bind MLeft.node)).bind fun lc => (usable E er (r.map fun (r : MPos) => r.1.1)).bind fun rc =>
    (init c E ec x.shift counts lc).bind fun m =>
    (eachLeftSub c E el m l).bind fun m =>
    (if x.shift = c.BL then centreLeaves c E (some ec) xs m else centreNodes c E (some ec) (x.shift - c.B) x.nodes m).bind fun m =>
    (eachRightSub c E er { m with cand := rc } r).bind fun m =>
      match m.dst with
      | some _ => undef
      | none => (liftO m.nodes.getLast?).bind fun p => (cutSizes p m.count).bind fun _ => M.ret ⟨m.shift, m.nodes, m.sizes⟩

/-- `concat_leafs_mut` (2275-2312) -/
def leafs (l : HPos) (t : Option HPos) (r : HPos) : HM T HCenter :=
  if l.2.isLeaf ∧ r.2.isLeaf then
    match t with
    | some t =>
        if 0 < t.2.count c then
          M.ret ⟨c.BL, [l.1, t.1, r.1], [l.2.count c, l.2.count c + t.2.count c, l.2.count c + t.2.count c + r.2.count c]⟩
        else M.ret ⟨c.BL, [l.1, r.1], [l.2.count c, l.2.count c + r.2.count c]⟩
    | none => M.ret ⟨c.BL, [l.1, r.1], [l.2.count c, l.2.count c + r.2.count c]⟩
  else undef

/-- `concat_inners_mut` (2321-2350) with the visitors (2352-2420) -/
def inners (ec : Nat) (el er : Option Nat) : Nat → MLeft → Option HPos → MPos → HM T HCenter
  | 0, _, _, _ => undef
  | fuel + 1, l, t, r =>
      if r.1.2.shift < l.left.shift c then
        (l.left.lastSub c).bind fun q =>
          (if q.2.isLeaf then undef else (withTable q).bind fun q => inners ec el er fuel (.pos q) t r).bind fun x =>
          rebalance c E ec el (some l) x er none
      else if l.left.shift c < r.1.2.shift then
        (firstSub c r.1.1 r.1.2).bind fun q =>
          (if q.2.isLeaf then (match l with | .pos p => leafs c p.1 t q | .single _ _ => undef)
            else (withTable q).bind fun q => inners ec el er fuel l t q).bind fun x => rebalance c E ec el none x er (some r)
      else
        (l.left.lastSub c).bind fun q =>
          (if q.2.isLeaf then (firstSubLeaf c r.1.1 r.1.2).bind fun q' => leafs c q t q'
            else (firstSub c r.1.1 r.1.2).bind fun q' =>
              if q'.2.isLeaf then leafs c q t q'
              else (withTable q).bind fun q => (withTable q').bind fun q' => inners ec el er fuel (.pos q) t q').bind fun x =>
          rebalance c E ec el (some l) x er (some r)

/-- `realize_e` (1543-1557) -/
def realize (ec : Nat) (x : HCenter) : HM T (Nat × Nat) :=
  if 1 < x.nodes.length then
    (newInnerR c E (some ec) 0).bind fun p => (theTable p).bind fun t =>
      (setKids p x.nodes).bind fun _ => (setSizes t x.sizes).bind fun _ => M.ret (x.shift, p)
  else (liftO x.nodes[0]?).bind fun p => M.ret (x.shift - c.B, p)

/-- `concat_trees_mut(ec, el, lroot, …)` (2459-2485) with the visitors (2422-2457) -/
def trees (ec : Nat) (el : Option Nat) (lroot lshift lsize ltail ltcount : Nat) (er : Option Nat) (rroot rshift rsize : Nat) :
    HM T (Nat × Nat) :=
  (maybeRel lroot lshift lsize).bind fun l => (withTable (lroot, l)).bind fun l =>
    (maybeRel rroot rshift rsize).bind fun r => (withTable (rroot, r)).bind fun r =>
    (inners c E ec el er (levels c lshift + levels c rshift) (.pos l) (some (ltail, .reg (.leaf ltcount))) r).bind fun x =>
      realize c E ec x

/-- `concat_trees_mut(ec, el, ltail, …)` (2487-2504) -/
def treesTail (ec : Nat) (el : Option Nat) (ltail ltcount : Nat) (er : Option Nat) (rroot rshift rsize : Nat) : HM T (Nat × Nat) :=
  (maybeRel rroot rshift rsize).bind fun r => (withTable (rroot, r)).bind fun r =>
    (inners c E ec el er (1 + levels c rshift) (.single ltail ltcount) none r).bind fun x => realize c E ec x

/-- `concat_mut_l(l, el, r)` (rrbtree.hpp 784-906) without `er`, `concat_mut_lr_l(l, el, r, er)` (1022-1185) with it: `l`
afterwards, and whether it threw -/
def concatMutL (el : Nat) (er : Option Nat) (l r : Vc) : HM T (Vc × Bool) :=
  if l.size = 0 then M.ret (r, false)
  else if r.size = 0 then M.ret (l, false)
  else
    (Fc.off c r).bind fun ro => (Fc.off c l).bind fun o =>
      if ro = 0 then
        if l.size - o = 2 ^ c.BL then
          (Fc.pushTailMut c E el l.root l.shift o l.tail (l.size - o)).bind fun x =>
            M.ret (⟨l.size + r.size, x.1, x.2, r.tail⟩, false)
        else
          (Vc.mutableTail c E el l (l.size - o)).bind fun l =>
            let n := min r.size (2 ^ c.BL - (l.size - o))
            (can E er r.tail).bind fun b =>
              (attempt
                ((fill b r.tail 0 n l.tail (l.size - o)).bind fun _ =>
                  if l.size - o + r.size ≤ 2 ^ c.BL then M.ret { l with size := l.size + r.size }
                  else
                    (copyLeafI c E (some el) r.tail n r.size).bind fun nt =>
                      (Fc.pushTailMut c E el l.root l.shift o l.tail (2 ^ c.BL)).bind fun x =>
                        M.ret (Vc.mk (l.size + r.size) x.1 x.2 nt))).bind fun x =>
              match x with
              | some l' => M.ret (l', false)
              | none => M.ret (l, true)
      else
        (if o = 0 then treesTail c E el (some el) l.tail (l.size - o) er r.root r.shift ro
          else trees c E el (some el) l.root l.shift o l.tail (l.size - o) er r.root r.shift ro).bind fun x =>
          M.ret (⟨l.size + r.size, x.1, x.2, r.tail⟩, false)

/-- `concat_mut_r(l, r, er)` (908-1020) without `el`, `concat_mut_lr_r(l, el, r, er)` (1187-1330) with it: `r` afterwards -/
def concatMutR (el : Option Nat) (er : Nat) (l r : Vc) : HM T Vc :=
  if r.size = 0 then M.ret l
  else if l.size = 0 then M.ret r
  else
    (Fc.off c r).bind fun ro => (Fc.off c l).bind fun o =>
      (if ro = 0 then Fc.concatTail c E (some er) true l o r
      else
        (if o = 0 then treesTail c E er el l.tail (l.size - o) (some er) r.root r.shift ro
          else trees c E er el l.root l.shift o l.tail (l.size - o) (some er) r.root r.shift ro).bind fun x =>
          M.ret (x.1, x.2, r.tail)).bind fun x =>
      M.ret ⟨l.size + r.size, x.1, x.2.1, x.2.2⟩

/-- the functions of transients; what has been moved from is destroyed at once -/
def change (b : Bin) (i j : Nat) (h h' : Obj) : WM T Unit :=
  if i = j then WM.ret ()
  else
    match b with
    | .plus => WM.ret ()
    | .appendTo => (newTok E).bind fun t => (setOwner j t).bind fun _ =>
        (lift (concatMutL c E h.tok none h.v h'.v)).bind fun x => (setVc i x.1).bind fun _ w => if x.2 then .thrown w else .ok w ()
    | .prependTo => (newTok E).bind fun t => (setOwner i t).bind fun _ =>
        (lift (concatMutR c E none h'.tok h.v h'.v)).bind fun x => setVc j x
    | .appendMove => (lift (concatMutL c E h.tok (some h'.tok) h.v h'.v)).bind fun x => (setVc i x.1).bind fun _ w =>
        if x.2 then .thrown w else .ok { w with objs := w.objs.eraseIdx j } ()
    | .prependMove => (lift (concatMutR c E (some h.tok) h'.tok h.v h'.v)).bind fun x => (setVc j x).bind fun _ w =>
        .ok { w with objs := w.objs.eraseIdx i } ()

/-- a call of `append` or `prepend` of two transients (flex_vector_transient.hpp 202-226), which may throw at a point of its own -/
def call (f : Option (Kind × Nat)) (b : Bin) (i j : Nat) (w : World T) : Ans T Unit :=
  withObj i (some .transient) (fun h => withObj j (some .transient) fun h' => change c E b i j h h') { w with st := { w.st with fault := f } }

end Gc

end FlexHeap
