import Verif.Threads.Prog

/-!
# Vectors that share nodes between threads

The functions of `VecHeap/Model.lean` that make, read, change and release vectors with counted references, as code of a thread
(`Threads/Prog.lean`).  With counted references every node has room for all children or elements, and the owner tokens of
transients do nothing (`transience/no_transience_policy.hpp` 19-40), so that `make_*_n` and `make_*_e`, `copy_*` and `copy_*_e`
are the same.
-/

namespace Thr
open Mm Rrb VecHeap
open Thr.Prog (ret undef)

variable {T β : Type}

abbrev TM (T β : Type) := Prog Dat T β

def liftO : Option β → TM T β
  | some b => ret b
  | none => undef

variable (c : Cfg)

/-! ## Nodes (`node.hpp`) -/

/-- `make_inner_n` (213), `make_inner_e` (220) -/
def newInner : TM T Nat := .alloc 0 (.inner (2 ^ c.B) none []) ret

/-- `make_leaf_n` (329), `make_leaf_e` (337) -/
def newLeaf : TM T Nat := .alloc (2 ^ c.BL) .leaf ret

/-- `refs().inc()` -/
def inc (p : Nat) : TM T Unit := .inc p (ret ())

/-- `refs().dec()` -/
def dec (p : Nat) : TM T Bool := .dec p ret

/-- `can_mutate(e)` (`node.hpp` 859-862; there are no owners when references are counted) -/
def canMutate (p : Nat) : TM T Bool := .unique p ret

/-- `delete_inner` (797-804) -/
def delInner (p : Nat) : TM T Unit := .free p 0 (innerSz (2 ^ c.B)) (ret ())

/-- one step of `destroy_n` (`util.hpp` 79-111) -/
def destroy1 (p i : Nat) : TM T Unit :=
  .write p (fun d es => match es[i]? with
    | some (.live _) => some (d, es.set i .raw)
    | some .moved => some (d, es.set i .raw)
    | _ => none) (ret ())

def destroyN (p i : Nat) : Nat → TM T Unit
  | 0 => ret ()
  | n + 1 => (destroy1 p i).bind fun _ => destroyN p (i + 1) n

/-- `delete_leaf` (845-852) -/
def delLeaf (p n : Nat) : TM T Unit := (destroyN p 0 n).bind fun _ => .free p (2 ^ c.BL) 0 (ret ())

/-- `p->inner()` -/
def kids (p : Nat) : TM T (List Nat) :=
  .read p fun d _ => match d with
    | .inner _ _ ks => ret ks
    | _ => undef

/-- `p->inner()[i]` -/
def kid (p i : Nat) : TM T Nat := (kids p).bind fun ks => liftO ks[i]?

/-- `p->inner()[0..] = ks` -/
def setKids (p : Nat) (ks : List Nat) : TM T Unit :=
  .write p (fun d es => match d with
    | .inner cap r _ => if ks.length ≤ cap then some (.inner cap r ks, es) else none
    | _ => none) (ret ())

/-- `p->inner()[i] = q` -/
def putKid (p i q : Nat) : TM T Unit :=
  .write p (fun d es => match d with
    | .inner cap r ks =>
        if i < ks.length then some (.inner cap r (ks.set i q), es)
        else if i = ks.length ∧ i < cap then some (.inner cap r (ks ++ [q]), es)
        else none
    | _ => none) (ret ())

/-- `inc_nodes` (967-972) -/
def incAll : List Nat → TM T Unit
  | [] => ret ()
  | p :: ps => (inc p).bind fun _ => incAll ps

/-- `do_copy_inner` (548-556) -/
def doCopyInner (dst src n : Nat) : TM T Unit :=
  (kids src).bind fun ks => (liftO (slice ks 0 n)).bind fun ks => (incAll ks).bind fun _ => setKids dst ks

/-- `do_copy_inner_replace` (558-570) -/
def doCopyInnerReplace (dst src n off child : Nat) : TM T Unit :=
  (kids src).bind fun ks => (liftO (slice ks 0 n)).bind fun ks =>
    if off < ks.length then
      (incAll (ks.take off)).bind fun _ => (incAll (ks.drop (off + 1))).bind fun _ => setKids dst (ks.set off child)
    else undef

/-- a `const` access to an element -/
def readEl (p i : Nat) : TM T T :=
  .read p fun _ es => match es[i]? with
    | some (.live v) => ret v
    | _ => undef

/-- `new (x) T{v}` -/
def construct (p i : Nat) (v : T) : TM T Unit :=
  .write p (fun d es => match es[i]? with
    | some .raw => some (d, es.set i (.live v))
    | _ => none) (ret ())

/-- `uninitialized_copy(src + i, src + i + n, dst + i)` (`util.hpp` 146-169) -/
def uninitCopy (src dst : Nat) : (i n : Nat) → TM T Unit
  | _, 0 => ret ()
  | i, n + 1 => (readEl src i).bind fun v => (construct dst i v).bind fun _ => uninitCopy src dst (i + 1) n

/-- `copy_leaf_n` (685-699), `copy_leaf` (655-668), `copy_leaf_e` (670-683) -/
def copyLeaf (src n : Nat) : TM T Nat :=
  (newLeaf c).bind fun dst => (uninitCopy src dst 0 n).bind fun _ => ret dst

/-- `copy_leaf_emplace` (782-795) -/
def copyLeafEmplace (src n : Nat) (x : T) : TM T Nat :=
  (copyLeaf c src n).bind fun dst => (construct dst n x).bind fun _ => ret dst

/-- `make_leaf_n(1, x)` (458-471), `make_leaf_e(e, x)` (474-485) -/
def leafOf (x : T) : TM T Nat := (newLeaf c).bind fun p => (construct p 0 x).bind fun _ => ret p

/-- `make_path` (487-503), `make_path_e` (505-522) -/
def makePath : Nat → Nat → TM T Nat
  | 0, p => ret p
  | k + 1, p => (newInner c).bind fun n => (makePath k p).bind fun q => (putKid n 0 q).bind fun _ => ret n

/-! ## Visitors (`operations.hpp`) -/

/-- `visit` of positions in order -/
def eachDo (f : Nat → Shp → TM T Unit) : List Nat → List Shp → TM T Unit
  | _, [] => ret ()
  | p :: ps, sh :: shs => (f p sh).bind fun _ => eachDo f ps shs
  | [], _ :: _ => undef

/-- `dec_visitor` (514-550) -/
def decV : Nat → Nat → Shp → TM T Unit
  | 0, p, sh => if sh.isLeaf then (dec p).bind fun last => if last then delLeaf c p (sh.count c) else ret () else undef
  | L + 1, p, sh =>
      (dec p).bind fun last =>
        if last then
          (liftO (sh.each c)).bind fun shs => (kids p).bind fun ks =>
            (eachDo (decV L) ks shs).bind fun _ => delInner c p
        else ret ()

/-- `dec_leaf` (552-556) -/
def decLeaf (p n : Nat) : TM T Unit := decV c 0 p (.leafSub n)

/-- `dec_empty_regular` (576-580) -/
def decEmpty (p : Nat) : TM T Unit := (dec p).bind fun last => if last then delInner c p else ret ()

/-- `x = fn(std::move(x))` for an element: the two accesses -/
def applyEl (f : T → T) (p i : Nat) : TM T Unit :=
  (Prog.read p fun _ es => match es[i]? with
    | some (.live v) => ret v
    | _ => undef).bind fun v =>
  (Prog.write p (fun d es => match es[i]? with
    | some (.live _) => some (d, es.set i .moved)
    | _ => none) (ret ())).bind fun _ =>
  Prog.write p (fun d es => match es[i]? with
    | some .moved => some (d, es.set i (.live (f v)))
    | _ => none) (ret ())

/-- `update_visitor` (457-512) -/
def updateV (f : T → T) : Nat → Nat → Shp → Nat → TM T Nat
  | 0, p, sh, idx =>
      if sh.isLeaf then
        (liftO (sh.index c idx)).bind fun off => (copyLeaf c p (sh.count c)).bind fun n =>
          (applyEl f n off).bind fun _ => ret n
      else undef
  | L + 1, p, sh, idx =>
      (liftO (sh.index c idx)).bind fun off => (newInner c).bind fun n =>
        (liftO (sh.towards c off)).bind fun sh' => (kid p off).bind fun q => (updateV f L q sh' idx).bind fun child =>
          (doCopyInnerReplace n p (sh.count c) off child).bind fun _ => ret n

/-- `get_mut_visitor` (583-662), for `update` of rvalues: what is at `*location` afterwards, and the leaf and index of the element -/
def getMut : Nat → Nat → Shp → Nat → TM T (Nat × Nat × Nat)
  | 0, p, sh, idx =>
      if sh.isLeaf then
        (canMutate p).bind fun b =>
          if b then (liftO (sh.index c idx)).bind fun i => ret (p, p, i)
          else
            (copyLeaf c p (sh.count c)).bind fun n => (decV c 0 p sh).bind fun _ =>
              (liftO (sh.index c idx)).bind fun i => ret (n, n, i)
      else undef
  | L + 1, p, sh, idx =>
      (liftO (sh.index c idx)).bind fun off => (canMutate p).bind fun b =>
        if b then
          (liftO (sh.towards c off)).bind fun sh' => (kid p off).bind fun q => (getMut L q sh' idx).bind fun r =>
            (putKid p off r.1).bind fun _ => ret (p, r.2)
        else
          (newInner c).bind fun n => (doCopyInner n p (sh.count c)).bind fun _ =>
            (liftO (sh.towards c off)).bind fun sh' => (kid p off).bind fun q => (getMut L q sh' idx).bind fun r =>
              (putKid n off r.1).bind fun _ => (decV c (L + 1) p sh).bind fun _ => ret (n, r.2)

/-- `push_tail_visitor` (779-857) and `push_tail_mut_visitor<_, false>` (665-777) up to the release of the old node -/
def pushTailNew (tail : Nat) : Nat → Nat → Shp → TM T Nat
  | 0, _, _ => undef
  | L + 1, p, sh =>
      (liftO (sh.size c)).bind fun size => (liftO (sh.index c (size - 1))).bind fun idx =>
        (liftO (sh.index c (size + 2 ^ c.BL - 1))).bind fun ni => (newInner c).bind fun n =>
          (if idx = ni then (liftO (sh.last c)).bind fun sh' => (kid p idx).bind fun q => pushTailNew tail L q sh'
            else makePath c L tail).bind fun child =>
          (doCopyInner n p ni).bind fun _ => (putKid n ni child).bind fun _ => ret n

/-- `push_tail_mut_visitor<_, true>` (665-777) -/
def pushTailMut (tail : Nat) : Nat → Nat → Shp → TM T Nat
  | 0, _, _ => undef
  | L + 1, p, sh =>
      (canMutate p).bind fun b =>
        if b then
          (liftO (sh.size c)).bind fun size => (liftO (sh.index c (size - 1))).bind fun idx =>
            (liftO (sh.index c (size + 2 ^ c.BL - 1))).bind fun ni =>
              (if idx = ni then (liftO (sh.last c)).bind fun sh' => (kid p idx).bind fun q => pushTailMut tail L q sh'
                else makePath c L tail).bind fun child =>
              (putKid p ni child).bind fun _ => ret p
        else (pushTailNew c tail (L + 1) p sh).bind fun n => (decV c (L + 1) p sh).bind fun _ => ret n

/-! ## Vectors (`rbtree.hpp`) -/

/-- `rbtree()` (86-93); `er` and `et` are the nodes of `empty_root()` and `empty_tail()` (43-53) -/
def empty (er et : Nat) : TM T Vc := (inc er).bind fun _ => (inc et).bind fun _ => ret ⟨0, c.BL, er, et⟩

/-- `inc()` (139-143) -/
def share (v : Vc) : TM T Unit := (inc v.root).bind fun _ => inc v.tail

/-- `dec()` (145), `traverse` (152-164) -/
def drop (v : Vc) : TM T Unit :=
  (if v.off c ≠ 0 then decV c (levels c v.shift) v.root (v.shp c) else decEmpty c v.root).bind fun _ =>
    decLeaf c v.tail (v.size - v.off c)

/-- `ensure_mutable_tail` (262-269) -/
def mutableTail (v : Vc) (n : Nat) : TM T Vc :=
  (canMutate v.tail).bind fun b =>
    if b then ret v
    else (copyLeaf c v.tail n).bind fun t => (decLeaf c v.tail n).bind fun _ => ret { v with tail := t }

/-- `push_back_mut` (271-315) -/
def pushBackMut (v : Vc) (x : T) : TM T Vc :=
  if v.size - v.off c < 2 ^ c.BL then
    (mutableTail c v (v.size - v.off c)).bind fun v =>
      (construct v.tail (v.size - v.off c) x).bind fun _ => ret { v with size := v.size + 1 }
  else
    (leafOf c x).bind fun nt =>
      if v.off c = 2 ^ c.B <<< v.shift then
        (newInner c).bind fun nr => (makePath c (levels c v.shift) v.tail).bind fun path =>
          (putKid nr 0 v.root).bind fun _ => (putKid nr 1 path).bind fun _ =>
            ret (Vc.mk (v.size + 1) (v.shift + c.B) nr nt)
      else if v.off c ≠ 0 then
        (pushTailMut c v.tail (levels c v.shift) v.root (v.shp c)).bind fun nr => ret (Vc.mk (v.size + 1) v.shift nr nt)
      else
        (makePath c (levels c v.shift) v.tail).bind fun nr => (decEmpty c v.root).bind fun _ =>
          ret (Vc.mk (v.size + 1) v.shift nr nt)

/-- `push_back` (317-359) -/
def pushBack (v : Vc) (x : T) : TM T Vc :=
  if v.size - v.off c < 2 ^ c.BL then
    (copyLeafEmplace c v.tail (v.size - v.off c) x).bind fun t => (inc v.root).bind fun _ =>
      ret ⟨v.size + 1, v.shift, v.root, t⟩
  else
    (leafOf c x).bind fun nt =>
      if v.off c = 2 ^ c.B <<< v.shift then
        (newInner c).bind fun nr => (makePath c (levels c v.shift) v.tail).bind fun path =>
          (putKid nr 0 v.root).bind fun _ => (putKid nr 1 path).bind fun _ =>
            (inc v.root).bind fun _ => (inc v.tail).bind fun _ => ret (Vc.mk (v.size + 1) (v.shift + c.B) nr nt)
      else if v.off c ≠ 0 then
        (pushTailNew c v.tail (levels c v.shift) v.root (v.shp c)).bind fun nr => (inc v.tail).bind fun _ =>
          ret (Vc.mk (v.size + 1) v.shift nr nt)
      else
        (makePath c (levels c v.shift) v.tail).bind fun nr => (inc v.tail).bind fun _ =>
          ret (Vc.mk (v.size + 1) v.shift nr nt)

/-- `update` (400-416), `assoc` (423-426) -/
def update (f : T → T) (v : Vc) (idx : Nat) : TM T Vc :=
  if v.off c ≤ idx then
    (updateV c f 0 v.tail (.leafSub (v.size - v.off c)) (idx - v.off c)).bind fun t => (inc v.root).bind fun _ =>
      ret { v with tail := t }
  else
    (updateV c f (levels c v.shift) v.root (v.shp c) idx).bind fun r => (inc v.tail).bind fun _ => ret { v with root := r }

/-- `get_mut` (366-376) and the change of the element, `update_mut` (395-399) -/
def updateMut (f : T → T) (v : Vc) (idx : Nat) : TM T Vc :=
  (if v.off c ≤ idx then
    (mutableTail c v (v.size - v.off c)).bind fun v => ret (v, v.tail, idx &&& (2 ^ c.BL - 1))
  else
    (getMut c (levels c v.shift) v.root (v.shp c) idx).bind fun r => ret ({ v with root := r.1 }, r.2)).bind fun r =>
  (applyEl f r.2.1 r.2.2).bind fun _ => ret r.1

/-- `regular_descent_pos` (position.hpp 1044-1105): the leaf -/
def descend : Nat → Nat → Nat → TM T Nat
  | 0, p, _ => ret p
  | L + 1, p, idx => (kid p ((idx >>> (c.BL + c.B * L)) &&& (2 ^ c.B - 1))).bind fun q => descend L q idx

/-- `get` (377-380), `descend` (217-222), `visit_regular_descent` (position.hpp 1107-1136) -/
def get (v : Vc) (idx : Nat) : TM T T :=
  (if v.off c ≤ idx then ret v.tail
    else (liftO (descentLevels c v.shift)).bind fun r => descend c r.1 v.root idx).bind fun p =>
  readEl p (idx &&& (2 ^ c.BL - 1))

end Thr
