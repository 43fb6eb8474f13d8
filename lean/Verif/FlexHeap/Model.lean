import Verif.VecHeap.Model
import Verif.Rrb.Flex

/-!
# Flexible vectors in memory

The functions of `detail/rbts/node.hpp`, `operations.hpp` and `rrbtree.hpp` that `immer::flex_vector` and its transients use,
on raw memory, for regular and relaxed nodes.

* `embed_relaxed = false`, as in all memory policies but those with `prefer_fewer_bigger_objects`: the table of sizes of a
  relaxed node is an object of its own, with a count and an owner (`Dat.table`), and may be shared between nodes.
* Regular positions have the definitions of `VecHeap/Model.lean`, except for slicing on the left, which vectors do not have.
* A position of a relaxed node has the sizes as they were when it was made.  (The code reads them through a pointer to the
  table.  It reads none after it has changed that table in place, except in `copy_sizes`, where each entry is read before it or
  a later one is written.)
* As for vectors: the children of a node and the sizes in a table are lists, which are cut where the code leaves old entries
  behind.
-/

namespace FlexHeap
open Mm Rrb VecHeap

variable {T β : Type}

/-! ## Positions -/

/-- a position without its node -/
inductive RShp where
  | reg (sh : Shp)
  /-- `relaxed_pos` (position.hpp 1411-1426) -/
  | rel (shift : Nat) (sizes : List Nat)

namespace RShp

/-- the position of a node -/
def pos : RShp → Node T → Pos T
  | reg sh, n => sh.pos n
  | rel s sz, n => .rel n s sz

variable (c : Cfg)

def shift (sh : RShp) : Nat := (sh.pos (.leaf [] : Node Unit)).shift
def count (sh : RShp) : Nat := (sh.pos (.leaf [] : Node Unit)).count c
def size (sh : RShp) : Option Nat := (sh.pos (.leaf [] : Node Unit)).size c
def index (sh : RShp) (idx : Nat) : Option Nat := (sh.pos (.leaf [] : Node Unit)).index c idx
def subindex (sh : RShp) (idx : Nat) : Option Nat := (sh.pos (.leaf [] : Node Unit)).subindex idx
def sizeBefore (sh : RShp) (off : Nat) : Option Nat := (sh.pos (.leaf [] : Node Unit)).sizeBefore off
def sizeAt (sh : RShp) (off : Nat) : Option Nat := (sh.pos (.leaf [] : Node Unit)).sizeAt off
def copySizes (sh : RShp) (off n init : Nat) : Option (List Nat) := Rrb.copySizes (sh.pos (.leaf [] : Node Unit)) off n init

end RShp

/-- `towards_sub_oh_regular` (position.hpp 646-672), `towards_sub_oh` (298-303, 921-925, 1325-1336): the child's position and
index -/
def subRegular (c : Cfg) (s size idx off : Nat) : Option (Shp × Nat) :=
  (Pos.shl32 off s).map fun lsize =>
    (if 1 <<< s ≤ size - lsize then Shp.kidFull c s
      else if s = c.BL then .leafSub (size - lsize) else .regSub (s - c.B) (size - lsize), idx - lsize)

def towardsSub (c : Cfg) (idx off : Nat) : Shp → Option (Shp × Nat)
  | .reg s size => subRegular c s ((size - 1) % 2 ^ (s + c.B) + 1) idx off
  | .regSub s size => subRegular c s size idx off
  | .full s => some (Shp.kidFull c s, idx - (off <<< s))
  | _ => none

/-- `each_left(v, n)` (position.hpp 467-489, 1262-1266): the children's positions -/
def eachLeft (c : Cfg) (sh : Shp) (k : Nat) : Option (List Shp) :=
  match sh with
  | .reg s _ => if k < sh.count c then some (List.replicate k (Shp.kidFull c s)) else none
  | .regSub s _ => if k < sh.count c then some (List.replicate k (Shp.kidFull c s)) else none
  | .full s => if k ≤ 2 ^ c.B then some (List.replicate k (Shp.kidFull c s)) else none
  | _ => none

/-! ## Nodes (`node.hpp`) -/

variable (c : Cfg) (E : Env Dat T)

/-- `sizeof_relaxed_n` (`node.hpp` 95, 151-156) -/
def tableRoom (n : Nat) : Nat := if E.gc then n else 2 ^ c.B

/-- `p->relaxed()` -/
def tableOf (p : Nat) : HM T (Option Nat) :=
  (cell p).bind fun x =>
    match x.data with
    | .inner _ r _ => M.ret r
    | _ => undef

/-- the table of a relaxed node -/
def theTable (p : Nat) : HM T Nat := (tableOf p).bind liftO

/-- `p->impl.d.data.inner.relaxed = r` -/
def setTable (p : Nat) (r : Option Nat) : HM T Unit :=
  (cell p).bind fun x =>
    match x.data with
    | .inner cap _ ks => modify p fun x => { x with data := .inner cap r ks }
    | _ => undef

/-- `r->d.sizes[0 .. r->d.count)` -/
def sizesOf (t : Nat) : HM T (List Nat) :=
  (cell t).bind fun x =>
    match x.data with
    | .table _ sz => M.ret sz
    | _ => undef

/-- assigns sizes and count, in the memory that was allocated -/
def setSizes (t : Nat) (sz : List Nat) : HM T Unit :=
  (cell t).bind fun x =>
    match x.data with
    | .table cap _ => if sz.length ≤ cap then modify t fun x => { x with data := .table cap sz } else undef
    | _ => undef

/-- allocation of a table, with room for all sizes if it has an owner -/
def newTable (own : Option Nat) (n : Nat) : HM T Nat :=
  match own with
  | none => alloc E 0 (.table (tableRoom c E n) [])
  | some e => (alloc E 0 (.table (2 ^ c.B) [])).bind fun t => (setTok E t e).bind fun _ => M.ret t

/-- `make_inner_r_n` (232-257), `make_inner_r_e` (275-302) -/
def newInnerR (own : Option Nat) (n : Nat) : HM T Nat :=
  (newInner c E own n).bind fun p =>
    ((newTable c E own n).guard
      (dealloc room p 0 (innerSz (match own with | none => innerRoom c E n | some _ => 2 ^ c.B)))).bind fun t =>
    (setTable p (some t)).bind fun _ => M.ret p

/-- `make_inner_sr_n` (259-273), `make_inner_sr_e` (304-319) -/
def newInnerSr (own : Option Nat) (n t : Nat) : HM T Nat :=
  (newInner c E own n).bind fun p => (inc E t).bind fun _ => (setTable p (some t)).bind fun _ => M.ret p

/-- `delete_inner_r` (823-839) -/
def delInnerR (p n : Nat) : HM T Unit :=
  (theTable p).bind fun t => (dec E t).bind fun last =>
    (if last then
      (cell t).bind fun x => dealloc room t 0 (tableSz (if E.gc && x.tok != 0 then 2 ^ c.B else tableRoom c E n))
    else M.ret ()).bind fun _ => delInner c E p n

/-- `delete_inner_r_e` (841-851) -/
def delInnerRE (p : Nat) : HM T Unit :=
  (theTable p).bind fun t => (dec E t).bind fun last =>
    (if last then dealloc room t 0 (tableSz (2 ^ c.B)) else M.ret ()).bind fun _ => delInnerE c p

/-- what the handlers do with a node made by `newInnerR own n` -/
def freeInnerR (own : Option Nat) (p n : Nat) : HM T Unit :=
  match own with
  | none => delInnerR c E p n
  | some _ => delInnerRE c E p

/-- `do_copy_inner_r` (599-611); `copy_inner_r`, `copy_inner_r_n` and `copy_inner_r_e` (570-591) are `newInnerR` and this -/
def doCopyInnerR (dst src n : Nat) : HM T Unit :=
  (theTable src).bind fun st => (theTable dst).bind fun dt =>
    (doCopyInner E dst src n).bind fun _ => (sizesOf st).bind fun sz => (liftO (slice sz 0 n)).bind fun sz => setSizes dt sz

/-- allocation of a table that counts as `k` -/
def newTableK (k : Kind) : HM T Nat :=
  (tick k).bind fun _ s =>
    .ok { s with mem := upd s.mem (E.alloc s.clock s.mem) (some ⟨1, 0, [], .table (2 ^ c.B) []⟩), clock := s.clock + 1 }
      (E.alloc s.clock s.mem)

/-- `ensure_mutable_relaxed` (875-902) and `ensure_mutable_relaxed_n` (927-953); the first `n` sizes are there afterwards.  An
old table that is not shared is released with the size of a node (892, 943); that cannot happen here. -/
def mutTable (k : Kind) (e p n : Nat) : HM T Nat :=
  (theTable p).bind fun t => (canMutate E e t).bind fun b =>
    if b then M.ret t
    else
      (newTableK c E k).bind fun t' => (sizesOf t).bind fun sz => (liftO (slice sz 0 n)).bind fun sz =>
        (setSizes t' sz).bind fun _ => (dec E t).bind fun last =>
          (if last then dealloc room t 0 (innerSz (innerRoom c E n)) else M.ret ()).bind fun _ =>
            (setTok E t' e).bind fun _ => (setTable p (some t')).bind fun _ => M.ret t'

/-- `copy_leaf(src, idx, last)` (767-780), `copy_leaf_e` (747-765) -/
def copyLeafI (own : Option Nat) (src i n : Nat) : HM T Nat :=
  (newLeaf c E own (n - i)).bind fun dst =>
    ((uninitCopy src i (n - i) dst 0).guard (freeLeaf c E own dst (n - i))).bind fun _ => M.ret dst

/-! ## Positions of children -/

/-- `visit_maybe_relaxed_sub(node, shift, size, …)` (position.hpp 1807-1820) -/
def maybeRel (p s size : Nat) : HM T RShp :=
  (tableOf p).bind fun r =>
    match r with
    | some t => (sizesOf t).bind fun sz => M.ret (.rel s sz)
    | none => M.ret (.reg (.regSub s size))

/-- the position of child `q` of a relaxed node at `s` -/
def kidRel (s size q : Nat) : HM T RShp :=
  if s = c.BL then M.ret (.reg (.leafSub size)) else maybeRel q (s - c.B) size

/-- `towards_oh` (1692-1703) and `towards_sub_oh` (1715-1722) of `relaxed_pos`: the child, its position, and the index in it -/
def relTowards (p s : Nat) (sz : List Nat) (idx off : Nat) : HM T (Nat × RShp × Nat) :=
  (liftO (Pos.szBefore sz off)).bind fun b => (liftO sz[off]?).bind fun e => (kid p off).bind fun q =>
    (kidRel c s (e - b) q).bind fun sh => M.ret (q, sh, idx - b)

/-- the loops of `relaxed_pos` over children (1471-1493, 1526-1549, 1552-1580); `prev` is the size before -/
def relEach (f : Nat → RShp → HM T Unit) (s : Nat) : Nat → List Nat → List Nat → HM T Unit
  | _, _, [] => M.ret ()
  | prev, q :: qs, e :: es => (kidRel c s (e - prev) q).bind fun sh => (f q sh).bind fun _ => relEach f s e qs es
  | _, [], _ :: _ => undef

/-! ## Visitors (`operations.hpp`) -/

/-- `dec_visitor` (514-550) -/
def decR : Nat → Nat → RShp → HM T Unit
  | L, p, .reg sh => decV c E L p sh
  | 0, _, .rel _ _ => undef
  | L + 1, p, .rel s sz =>
      (dec E p).bind fun last =>
        if last then
          (kids p).bind fun ks => (relEach c (decR L) s 0 ks sz).bind fun _ => delInnerR c E p sz.length
        else M.ret ()

/-- `dec_inner` (558-562) -/
def decInner (L p s size : Nat) : HM T Unit := (maybeRel p s size).bind fun sh => decR c E L p sh

/-- `relaxed_pos::each_right(dec_visitor{}, start)` (position.hpp 1552-1580), which reads the size before `start` -/
def decRestR (L p s : Nat) (sz : List Nat) (start : Nat) : HM T Unit :=
  if 0 < start ∧ start ≤ sz.length then
    (liftO (Pos.szBefore sz start)).bind fun b => (kids p).bind fun ks =>
      relEach c (decR c E L) s b (ks.drop start) (sz.drop start)
  else undef

/-- `dec_right_visitor::visit_relaxed` (865-874) -/
def decRightR (L p s : Nat) (sz : List Nat) (start : Nat) : HM T Unit :=
  (dec E p).bind fun last =>
    if last then (decRestR c E L p s sz start).bind fun _ => delInnerR c E p sz.length else M.ret ()

/-- `pos.each_left(dec_visitor{}, n)` -/
def decFirst (L p : Nat) (sh : RShp) (n : Nat) : HM T Unit :=
  match sh with
  | .reg sh => (liftO (eachLeft c sh n)).bind fun shs => (kids p).bind fun ks => eachDo (decV c E L) ks shs
  | .rel s sz => (liftO (slice sz 0 n)).bind fun sz => (kids p).bind fun ks => relEach c (decR c E L) s 0 ks sz

/-- `dec_left_visitor` (1190-1222) -/
def decLeft (L p : Nat) (sh : RShp) (n : Nat) : HM T Unit :=
  (dec E p).bind fun last =>
    if last then
      (decFirst c E L p sh n).bind fun _ =>
        match sh with
        | .reg sh => delInner c E p (sh.count c)
        | .rel _ sz => delInnerR c E p sz.length
    else M.ret ()

/-- `update_visitor` (457-512) -/
def updateR (user : Bool) (f : T → T) : Nat → Nat → RShp → Nat → HM T Nat
  | L, p, .reg sh, idx => updateV c E user f L p sh idx
  | 0, _, .rel _ _, _ => undef
  | L + 1, p, .rel s sz, idx =>
      (liftO ((RShp.rel s sz).index c idx)).bind fun off => (theTable p).bind fun t =>
        (newInnerSr c E none sz.length t).bind fun n =>
          (((relTowards c p s sz idx off).bind fun r => updateR user f L r.1 r.2.1 r.2.2).guard
            (delInnerR c E n sz.length)).bind fun child =>
          (doCopyInnerReplace E n p sz.length off child).bind fun _ => M.ret n

/-- `get_mut_visitor` (583-662): what is at `*location` afterwards, and the leaf and index of the element -/
def getMutR (e : Nat) : Nat → Nat → RShp → Nat → HM T (Nat × Nat × Nat)
  | L, p, .reg sh, idx => VecHeap.getMut c E e L p sh idx
  | 0, _, .rel _ _, _ => undef
  | L + 1, p, .rel s sz, idx =>
      (liftO ((RShp.rel s sz).index c idx)).bind fun off =>
        (canMutate E e p).bind fun b =>
          if b then
            (relTowards c p s sz idx off).bind fun q => (getMutR e L q.1 q.2.1 q.2.2).bind fun r =>
              (putKid p off r.1).bind fun _ => M.ret (p, r.2)
          else
            (theTable p).bind fun t => (newInnerSr c E (some e) sz.length t).bind fun n =>
              (doCopyInner E n p sz.length).bind fun _ =>
                (((relTowards c p s sz idx off).bind fun q => (getMutR e L q.1 q.2.1 q.2.2).bind fun r =>
                    (putKid n off r.1).bind fun _ => M.ret r.2).guard
                  (decR c E (L + 1) n (.rel s sz))).bind fun r =>
                (decR c E (L + 1) p (.rel s sz)).bind fun _ => M.ret (n, r)

/-- the index of the new child of `push_tail_visitor::visit_relaxed`, and the size of the last one (785-789, 683-687) -/
def pushIdx (s : Nat) (sz : List Nat) : Option (Nat × Nat) :=
  ((RShp.rel s sz).sizeAt (sz.length - 1)).map fun children =>
    (if children = 1 <<< s ∨ s = c.BL then sz.length - 1 + 1 else sz.length - 1, children)

/-- its node, once the last child has been visited (692-701, 792-801); nothing if there is no room -/
def pushChild (own : Option Nat) (tail L ni : Nat) (r : Option Nat) : HM T (Option (Nat × Nat)) :=
  match r with
  | some ch => M.ret (some (ni, ch))
  | none =>
      if ni + 1 < 2 ^ c.B then (makePath c E own L tail).bind fun ch => M.ret (some (ni + 1, ch))
      else M.ret none

/-- a copy with the new child (802-812, 713-724) -/
def pushCopy (own : Option Nat) (p : Nat) (sz : List Nat) (ts ni ch : Nat) : HM T Nat :=
  (newInnerR c E own (ni + 1)).bind fun n => (doCopyInnerR E n p ni).bind fun _ => (theTable n).bind fun t =>
    (putKid n ni ch).bind fun _ => (liftO (sz[sz.length - 1]?)).bind fun tot => (sizesOf t).bind fun ss =>
      (setSizes t (ss ++ [tot + ts])).bind fun _ => M.ret n

/-- the handler (814-822, 727-735) -/
def pushCatch (tail ts L s idx children ni ch : Nat) : HM T Unit :=
  if c.BL < s then
    (inc E tail).bind fun _ => decInner c E L ch (s - c.B) (if ni = idx then children + ts else ts)
  else M.ret ()

/-- `push_tail_visitor` (779-857) and `push_tail_mut_visitor<_, false>` (665-777) up to the release of the old node; nothing if
there is no room -/
def pushTailNewR (own : Option Nat) (tail ts : Nat) : Nat → Nat → RShp → HM T (Option Nat)
  | L, p, .reg sh => (pushTailNew c E own tail L p sh).bind fun n => M.ret (some n)
  | 0, _, .rel _ _ => undef
  | L + 1, p, .rel s sz =>
      (liftO (pushIdx c s sz)).bind fun x =>
        if 2 ^ c.B ≤ x.1 then M.ret none
        else
          (if sz.length - 1 = x.1 then
            (kid p x.1).bind fun q => (kidRel c s x.2 q).bind fun sh => (pushTailNewR own tail ts L q sh).bind fun r =>
              pushChild c E own tail L x.1 r
          else (makePath c E own L tail).bind fun ch => M.ret (some (x.1, ch))).bind fun y =>
          match y with
          | none => M.ret none
          | some (ni, ch) =>
              ((pushCopy c E own p sz ts ni ch).guard (pushCatch c E tail ts L s (sz.length - 1) x.2 ni ch)).bind fun n =>
                M.ret (some n)

/-- `push_tail_mut_visitor<_, true>` (665-777) -/
def pushTailMutR (e tail ts : Nat) : Nat → Nat → RShp → HM T (Option Nat)
  | L, p, .reg sh => (pushTailMut c E e tail L p sh).bind fun n => M.ret (some n)
  | 0, _, .rel _ _ => undef
  | L + 1, p, .rel s sz =>
      (canMutate E e p).bind fun b =>
        if b then
          (liftO (pushIdx c s sz)).bind fun x =>
            if 2 ^ c.B ≤ x.1 then M.ret none
            else
              (if sz.length - 1 = x.1 then
                (kid p x.1).bind fun q => (kidRel c s x.2 q).bind fun sh => (pushTailMutR e tail ts L q sh).bind fun r =>
                  pushChild c E (some e) tail L x.1 r
              else (makePath c E (some e) L tail).bind fun ch => M.ret (some (x.1, ch))).bind fun y =>
              match y with
              | none => M.ret none
              | some (ni, ch) =>
                  (mutTable c E .table e p ni).bind fun t => (putKid p ni ch).bind fun _ =>
                    (liftO (sz[sz.length - 1]?)).bind fun tot => (sizesOf t).bind fun ss => (liftO (slice ss 0 ni)).bind fun ss =>
                      (setSizes t (ss ++ [tot + ts])).bind fun _ => M.ret (some p)
        else
          (pushTailNewR c E (some e) tail ts (L + 1) p (.rel s sz)).bind fun n =>
            match n with
            | none => M.ret none
            | some n => (decR c E (L + 1) p (.rel s sz)).bind fun _ => M.ret (some n)

/-- the `IMMER_TRY` blocks of `slice_right_visitor::visit_relaxed` (1105-1126) and `slice_right_mut_visitor::visit_relaxed`
(928-974); `mu` is `Mutating`, `b` is `mutate`, `r` are the results for the child `idx` -/
def sliceNodeR (own : Option Nat) (mu b collapse : Bool) (L p s : Nat) (sz : List Nat) (last idx : Nat) (r : Sliced) :
    HM T Sliced :=
  match r.2.1 with
  | some next =>
      if b then
        (mutTable c E .table (own.getD 0) p idx).bind fun t => (decRestR c E L p s sz (idx + 1)).bind fun _ =>
          (putKid p idx next).bind fun _ => (cutKids p (idx + 1)).bind fun _ => (sizesOf t).bind fun ss =>
            (liftO (slice ss 0 idx)).bind fun ss => (setSizes t (ss ++ [last + 1 - r.2.2.1])).bind fun _ =>
              M.ret (s, some p, r.2.2)
      else
        (newInnerR c E own (idx + 1)).bind fun n => (doCopyInnerR E n p idx).bind fun _ => (theTable n).bind fun t =>
          (putKid n idx next).bind fun _ => (sizesOf t).bind fun ss => (setSizes t (ss ++ [last + 1 - r.2.2.1])).bind fun _ =>
            (if mu then decR c E (L + 1) p (.rel s sz) else M.ret ()).bind fun _ => M.ret (s, some n, r.2.2)
  | none =>
      if idx = 0 then (if mu then decRightR c E L p s sz 1 else M.ret ()).bind fun _ => M.ret (s, none, r.2.2)
      else if collapse ∧ idx = 1 ∧ c.BL < s then
        (kid p 0).bind fun x => (if b then M.ret () else inc E x).bind fun _ =>
          (if mu then decRightR c E L p s sz 2 else M.ret ()).bind fun _ => M.ret (s - c.B, some x, r.2.2)
      else if b then
        (decRestR c E L p s sz (idx + 1)).bind fun _ => (mutTable c E .table (own.getD 0) p idx).bind fun t =>
          (cutKids p idx).bind fun _ => (sizesOf t).bind fun ss => (liftO (slice ss 0 idx)).bind fun ss =>
            (setSizes t ss).bind fun _ => M.ret (s, some p, r.2.2)
      else
        (newInnerR c E own idx).bind fun n => (doCopyInnerR E n p idx).bind fun _ =>
          (if mu then decR c E (L + 1) p (.rel s sz) else M.ret ()).bind fun _ => M.ret (s, some n, r.2.2)

/-- the handlers of these blocks (976-985, 1128-1137) -/
def sliceCatchR (L s : Nat) (sz : List Nat) (last idx : Nat) (r : Sliced) : HM T Unit :=
  (match r.2.1 with
    | some next => (liftO (Pos.szBefore sz idx)).bind fun b => decInner c E L next (s - c.B) (last + 1 - r.2.2.1 - b)
    | none => M.ret ()).bind fun _ => decLeaf c E r.2.2.2 r.2.2.1

/-- `slice_right_visitor` (1080-1188) with `own = none`, `slice_right_mut_visitor` (894-1078) with `own = some e` -/
def sliceRightR (own : Option Nat) : Bool → Bool → Nat → Nat → RShp → Nat → HM T Sliced
  | mu, collapse, L, p, .reg sh, last => sliceRight c E own mu collapse L p sh last
  | _, _, 0, _, .rel _ _, _ => undef
  | mu, collapse, L + 1, p, .rel s sz, last =>
      (liftO ((RShp.rel s sz).index c last)).bind fun idx => (mayMutate E own mu p).bind fun b =>
        (relTowards c p s sz last idx).bind fun q =>
          if collapse ∧ idx = 0 then
            (sliceRightR own b collapse L q.1 q.2.1 q.2.2).bind fun r =>
              (if mu then decRightR c E L p s sz 1 else M.ret ()).bind fun _ => M.ret r
          else
            (sliceRightR own b false L q.1 q.2.1 q.2.2).bind fun r =>
              (sliceNodeR c E own mu b collapse L p s sz last idx r).guard (sliceCatchR c E L s sz last idx r)

/-! ### Slicing on the left -/

/-- What is used of the element type.  `nothrow`: `is_nothrow_move_constructible`.  `self`: what `x = std::move(x)` leaves in
`x`. -/
structure Elem (T : Type) where
  nothrow : Bool
  self : T → T

/-- `std::move(data + idx, data + idx + n, data)`, with `o` assignments done.  For `idx = 0` each element is assigned to
itself. -/
def moveDown (X : Elem T) (p idx : Nat) : Nat → Nat → HM T Unit
  | _, 0 => M.ret ()
  | o, n + 1 =>
      (if idx = 0 then (readEl p o).bind fun x => assignEl p o (X.self x)
        else (moveEl p (idx + o)).bind fun x => assignEl p o x).bind fun _ => moveDown X p idx (o + 1) n

/-- `visit_leaf` of `slice_left_visitor` (1453-1457) and `slice_left_mut_visitor` (1374-1394) -/
def sliceLeafLeft (X : Elem T) (own : Option Nat) (mu : Bool) (p : Nat) (sh : Shp) (first : Nat) : HM T (Nat × Nat) :=
  (liftO (sh.index c first)).bind fun idx => (mayMutate E own (mu && X.nothrow) p).bind fun b =>
    if b then
      (moveDown X p idx 0 (sh.count c - idx)).bind fun _ => (destroyN p (sh.count c - idx) idx).bind fun _ => M.ret (0, p)
    else
      (copyLeafI c E own p idx (sh.count c)).bind fun n =>
        (if mu then decV c E 0 p sh else M.ret ()).bind fun _ => M.ret (0, n)

/-- the child towards `first`, its position, and the index in it -/
def subTowards (p : Nat) (sh : RShp) (first idx : Nat) : HM T (Nat × RShp × Nat) :=
  match sh with
  | .reg sh => (liftO (towardsSub c first idx sh)).bind fun x => (kid p idx).bind fun q => M.ret (q, .reg x.1, x.2)
  | .rel s sz => relTowards c p s sz first idx

/-- the node that is filled: a new one, or `p` itself, with a table that may be changed (1262-1263, 1318-1326, 1425) -/
def sliceTarget (own : Option Nat) (b : Bool) (p : Nat) (sh : RShp) (newcount : Nat) : HM T Nat :=
  if b then
    match sh with
    | .reg _ => (newTableK c E .alloc).bind fun t => (setTable p (some t)).bind fun _ => M.ret p
    | .rel _ sz => (mutTable c E .alloc (own.getD 0) p sz.length).bind fun _ => M.ret p
  else newInnerR c E own newcount

/-- the handlers (1287-1291, 1357-1366, 1446-1449) -/
def sliceLeftCatch (own : Option Nat) (b : Bool) (n : Nat) (sh : RShp) (newcount : Nat) : HM T Unit :=
  if b then
    match sh with
    | .reg _ => (theTable n).bind fun t => (dealloc room t 0 (tableSz (2 ^ c.B))).bind fun _ => setTable n none
    | .rel _ _ => M.ret ()
  else freeInnerR c E own n newcount

/-- the rest of the `IMMER_TRY` blocks, once there is a first child `q` (1270-1285, 1334-1354, 1429-1444) -/
def sliceFill (mu b : Bool) (L p n : Nat) (sh : RShp) (idx s0 q : Nat) : HM T (Nat × Nat) :=
  (if b then decFirst c E L p sh idx else M.ret ()).bind fun _ =>
    (theTable n).bind fun t => (liftO (sh.copySizes (idx + 1) (sh.count c - idx - 1) s0)).bind fun ss =>
      (setSizes t (s0 :: ss)).bind fun _ => (kids p).bind fun ks => (liftO (slice ks (idx + 1) (sh.count c))).bind fun ks =>
        (setKids n (q :: ks)).bind fun _ =>
          (if b then M.ret ()
            else (incAll E ks).bind fun _ => if mu then decR c E (L + 1) p sh else M.ret ()).bind fun _ =>
          M.ret (sh.shift, n)

/-- `slice_left_visitor` (1398-1459) with `own = none`, `slice_left_mut_visitor` (1224-1396) with `own = some e`: the new shift
and the new root -/
def sliceLeftR (X : Elem T) (own : Option Nat) : Bool → Bool → Nat → Nat → RShp → Nat → HM T (Nat × Nat)
  | mu, _, 0, p, .reg sh, first => if sh.isLeaf then sliceLeafLeft c E X own mu p sh first else undef
  | _, _, 0, _, .rel _ _, _ => undef
  | mu, collapse, L + 1, p, sh, first =>
      (liftO (sh.subindex first)).bind fun idx => (mayMutate E own mu p).bind fun b =>
        (liftO (sh.sizeBefore idx)).bind fun lsz => (liftO (sh.sizeAt idx)).bind fun csz =>
          if collapse ∧ c.BL < sh.shift ∧ idx = sh.count c - 1 then
            (subTowards c p sh first idx).bind fun q => (sliceLeftR X own b collapse L q.1 q.2.1 q.2.2).bind fun r =>
              (if b then decLeft c E L p sh idx else if mu then decR c E (L + 1) p sh else M.ret ()).bind fun _ => M.ret r
          else
            (sliceTarget c E own b p sh (sh.count c - idx)).bind fun n =>
              ((subTowards c p sh first idx).bind fun q => (sliceLeftR X own b false L q.1 q.2.1 q.2.2).bind fun r =>
                sliceFill c E mu b L p n sh idx (csz - (first - lsz)) r.2).guard
              (sliceLeftCatch c E own b n sh (sh.count c - idx))

/-! ## Trees (`rrbtree.hpp`) -/

namespace Fc

/-- `tail_offset()` (165-174) -/
def off (v : Vc) : HM T Nat :=
  (tableOf v.root).bind fun r =>
    match r with
    | some t => (sizesOf t).bind fun sz => liftO sz[sz.length - 1]?
    | none => M.ret (Vec.tailOffset c v.size)

/-- `dec()` (161), `traverse` (176-191); `rrbtree()` and `inc()` are those of `rbtree` -/
def drop (v : Vc) : HM T Unit :=
  (off c v).bind fun o =>
    (if o ≠ 0 then decInner c E (levels c v.shift) v.root v.shift o else decEmpty c E v.root).bind fun _ =>
      decLeaf c E v.tail (v.size - o)

/-- `push_tail` (333-383): the new shift and root; one reference to the tail goes to the new tree -/
def pushTail (root shift size tail ts : Nat) : HM T (Nat × Nat) :=
  (tableOf root).bind fun r =>
    match r with
    | some t =>
        (sizesOf t).bind fun sz => (pushTailNewR c E none tail ts (levels c shift) root (.rel shift sz)).bind fun n =>
          match n with
          | some n => M.ret (shift, n)
          | none =>
              (newInnerR c E none 2).bind fun nr =>
                (((makePath c E none (levels c shift) tail).bind fun path => (inc E root).bind fun _ =>
                  (putKid nr 0 root).bind fun _ => (putKid nr 1 path).bind fun _ => (theTable nr).bind fun t =>
                    (setSizes t [size, size + ts]).bind fun _ => M.ret (shift + c.B, nr))).guard (delInnerR c E nr 2)
    | none =>
        if size = 2 ^ c.B <<< shift then
          (newInner c E none 2).bind fun nr =>
            (((makePath c E none (levels c shift) tail).bind fun path => (inc E root).bind fun _ =>
              (putKid nr 0 root).bind fun _ => (putKid nr 1 path).bind fun _ => M.ret (shift + c.B, nr))).guard
              (delInner c E nr 2)
        else if size ≠ 0 then
          (pushTailNew c E none tail (levels c shift) root (.regSub shift size)).bind fun n => M.ret (shift, n)
        else (makePath c E none (levels c shift) tail).bind fun n => M.ret (shift, n)

/-- `push_tail_mut` (385-434); the references to the root and to the tail go to the new tree -/
def pushTailMut (e root shift size tail ts : Nat) : HM T (Nat × Nat) :=
  (tableOf root).bind fun r =>
    match r with
    | some t =>
        (sizesOf t).bind fun sz => (pushTailMutR c E e tail ts (levels c shift) root (.rel shift sz)).bind fun n =>
          match n with
          | some n => M.ret (shift, n)
          | none =>
              (newInnerR c E (some e) 2).bind fun nr =>
                (((makePath c E (some e) (levels c shift) tail).bind fun path =>
                  (putKid nr 0 root).bind fun _ => (putKid nr 1 path).bind fun _ => (theTable nr).bind fun t =>
                    (setSizes t [size, size + ts]).bind fun _ => M.ret (shift + c.B, nr))).guard (delInnerRE c E nr)
    | none =>
        if size = 2 ^ c.B <<< shift then
          (newInner c E (some e) 2).bind fun nr =>
            (((makePath c E (some e) (levels c shift) tail).bind fun path =>
              (putKid nr 0 root).bind fun _ => (putKid nr 1 path).bind fun _ => M.ret (shift + c.B, nr))).guard
              (delInnerE c nr)
        else if size ≠ 0 then
          (VecHeap.pushTailMut c E e tail (levels c shift) root (.regSub shift size)).bind fun n => M.ret (shift, n)
        else
          (makePath c E (some e) (levels c shift) tail).bind fun n => (decEmpty c E root).bind fun _ => M.ret (shift, n)

/-- `push_back_mut` (446-467) -/
def pushBackMut (e : Nat) (v : Vc) (x : T) : HM T Vc :=
  (off c v).bind fun o =>
    if v.size - o < 2 ^ c.BL then
      (Vc.mutableTail c E e v (v.size - o)).bind fun v =>
        (construct v.tail (v.size - o) x).bind fun _ => M.ret { v with size := v.size + 1 }
    else
      (leafOf c E (some e) x).bind fun nt =>
        ((pushTailMut c E e v.root v.shift o v.tail (v.size - o)).bind fun r =>
          M.ret (Vc.mk (v.size + 1) r.1 r.2 nt)).guard (delLeaf c E nt 1)

/-- `push_back` (469-490) -/
def pushBack (v : Vc) (x : T) : HM T Vc :=
  (off c v).bind fun o =>
    if v.size - o < 2 ^ c.BL then
      (copyLeafEmplace c E v.tail (v.size - o) x).bind fun t =>
        (inc E v.root).bind fun _ => M.ret ⟨v.size + 1, v.shift, v.root, t⟩
    else
      (leafOf c E none x).bind fun nt =>
        ((pushTail c E v.root v.shift o v.tail (v.size - o)).bind fun r => (inc E v.tail).bind fun _ =>
          M.ret (Vc.mk (v.size + 1) r.1 r.2 nt)).guard (delLeaf c E nt 1)

/-- `get_mut` (507-526): the leaf and index of the element -/
def getMut (e : Nat) (v : Vc) (idx : Nat) : HM T (Vc × Nat × Nat) :=
  (off c v).bind fun o =>
    if o ≤ idx then
      (Vc.mutableTail c E e v (v.size - o)).bind fun v => M.ret (v, v.tail, (idx - o) &&& (2 ^ c.BL - 1))
    else
      (maybeRel v.root v.shift o).bind fun sh => (getMutR c E e (levels c v.shift) v.root sh idx).bind fun r =>
        M.ret ({ v with root := r.1 }, r.2)

/-- `update` (553-568), `assoc` (575-578) -/
def update (user : Bool) (f : T → T) (v : Vc) (idx : Nat) : HM T Vc :=
  (off c v).bind fun o =>
    if o ≤ idx then
      (updateV c E user f 0 v.tail (.leafSub (v.size - o)) (idx - o)).bind fun t =>
        (inc E v.root).bind fun _ => M.ret { v with tail := t }
    else
      (maybeRel v.root v.shift o).bind fun sh => (updateR c E user f (levels c v.shift) v.root sh idx).bind fun r =>
        (inc E v.tail).bind fun _ => M.ret { v with root := r }

/-- `take` (620-647) -/
def take (er et : Nat) (v : Vc) (n : Nat) : HM T Vc :=
  (off c v).bind fun o =>
    if n = 0 then Vc.empty c E er et
    else if v.size ≤ n then (v.share E).bind fun _ => M.ret v
    else if o < n then
      (copyLeaf c E none v.tail (n - o)).bind fun t => (inc E v.root).bind fun _ => M.ret ⟨n, v.shift, v.root, t⟩
    else
      (maybeRel v.root v.shift o).bind fun sh =>
        (sliceRightR c E none false true (levels c v.shift) v.root sh (n - 1)).bind fun r =>
          match r.2.1 with
          | some root => M.ret ⟨n, r.1, root, r.2.2.2⟩
          | none => (inc E er).bind fun _ => M.ret ⟨n, c.BL, er, r.2.2.2⟩

/-- `take_mut` (580-618) -/
def takeMut (e er et : Nat) (v : Vc) (n : Nat) : HM T Vc :=
  (off c v).bind fun o =>
    if n = 0 then (Vc.empty c E er et).bind fun u => (drop c E v).bind fun _ => M.ret u
    else if v.size ≤ n then M.ret v
    else if o < n then
      (canMutate E e v.tail).bind fun b =>
        if b then
          (destroyN v.tail (n - o) (v.size - o - (n - o))).bind fun _ => M.ret { v with size := n }
        else
          (copyLeaf c E (some e) v.tail (n - o)).bind fun t =>
            (decLeaf c E v.tail (v.size - o)).bind fun _ => M.ret ⟨n, v.shift, v.root, t⟩
    else
      (maybeRel v.root v.shift o).bind fun sh =>
        (sliceRightR c E (some e) true true (levels c v.shift) v.root sh (n - 1)).bind fun r =>
          (match r.2.1 with
            | some root => M.ret (Vc.mk n r.1 root r.2.2.2)
            | none => (inc E er).bind fun _ => M.ret (Vc.mk n c.BL er r.2.2.2)).bind fun u =>
          (decLeaf c E v.tail (v.size - o)).bind fun _ => M.ret u

/-- `drop` (685-707); the name is taken by the destructor -/
def dropN (X : Elem T) (er et : Nat) (v : Vc) (n : Nat) : HM T Vc :=
  if n = 0 then (v.share E).bind fun _ => M.ret v
  else if v.size ≤ n then Vc.empty c E er et
  else
    (off c v).bind fun o =>
      if n = o then (inc E er).bind fun _ => (inc E v.tail).bind fun _ => M.ret ⟨v.size - n, c.BL, er, v.tail⟩
      else if o < n then
        (copyLeafI c E none v.tail (n - o) (v.size - o)).bind fun t =>
          (inc E er).bind fun _ => M.ret ⟨v.size - n, c.BL, er, t⟩
      else
        (maybeRel v.root v.shift o).bind fun sh =>
          (sliceLeftR c E X none false true (levels c v.shift) v.root sh n).bind fun r =>
            (inc E v.tail).bind fun _ => M.ret ⟨v.size - n, r.1, r.2, v.tail⟩

/-- `drop_mut` (649-683) -/
def dropMut (X : Elem T) (e er et : Nat) (v : Vc) (n : Nat) : HM T Vc :=
  (off c v).bind fun o =>
    if n = 0 then M.ret v
    else if v.size ≤ n then (Vc.empty c E er et).bind fun u => (drop c E v).bind fun _ => M.ret u
    else if n = o then
      (decInner c E (levels c v.shift) v.root v.shift o).bind fun _ => (inc E er).bind fun _ =>
        M.ret ⟨v.size - n, c.BL, er, v.tail⟩
    else if o < n then
      (sliceLeftR c E X (some e) true true 0 v.tail (.reg (.leafSub (v.size - o))) (n - o)).bind fun r =>
        if o ≠ 0 then
          (decInner c E (levels c v.shift) v.root v.shift o).bind fun _ => (inc E er).bind fun _ =>
            M.ret ⟨v.size - n, c.BL, er, r.2⟩
        else M.ret ⟨v.size - n, v.shift, v.root, r.2⟩
    else
      (maybeRel v.root v.shift o).bind fun sh =>
        (sliceLeftR c E X (some e) true true (levels c v.shift) v.root sh n).bind fun r =>
          M.ret ⟨v.size - n, r.1, r.2, v.tail⟩

end Fc

/-- `relaxed_descent_pos` (position.hpp 1826-1920) and the loop for deep trees (1967-1983): the leaf, and the index in it -/
def descendR (masked : Bool) : Nat → Nat → Nat → HM T (Nat × Nat)
  | 0, p, idx => M.ret (p, idx)
  | L + 1, p, idx =>
      (tableOf p).bind fun r =>
        match r with
        | none => (descend c (L + 1) p idx).bind fun q => M.ret (q, idx)
        | some t =>
            (sizesOf t).bind fun sz =>
              let start := if L = 0 ∨ masked then (idx >>> (c.BL + c.B * L)) &&& (2 ^ c.B - 1) else idx >>> (c.BL + c.B * L)
              (liftO (Pos.scan idx (sz.drop start) start)).bind fun o => (kid p o).bind fun q =>
                (liftO (Pos.szBefore sz o)).bind fun b => descendR masked L q (idx - b)

/-- `get` (528-531), `descend` (242-249), `visit_maybe_relaxed_descent` (position.hpp 1922-1990) -/
def Fc.get (v : Vc) (idx : Nat) : HM T T :=
  (Fc.off c v).bind fun o =>
    (if o ≤ idx then M.ret (v.tail, idx - o)
      else (liftO (descentLevels c v.shift)).bind fun r => descendR c r.2 r.1 v.root idx).bind fun p =>
    readEl p.1 (p.2 &&& (2 ^ c.BL - 1))

end FlexHeap
