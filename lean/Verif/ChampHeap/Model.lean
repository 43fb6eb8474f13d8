import Verif.Mem.Cells
import Verif.Champ.Model

/-!
# Maps and sets in memory

Models `immer/detail/hamts/node.hpp` and the operations of `immer/detail/hamts/champ.hpp` on raw memory: allocation, reference
counts, ownership tokens, construction, moves and destruction of elements, and exceptions.  See `Verif/Mem/Cells.lean` for the
memory.

* A cell is an inner node, the array of values of an inner node, or a collision node.
* `do_add`, `do_update` and `do_update_if_exists` have the same structure, and are modelled by one function `doPut`; so are
  their `_mut` variants, by `doPutMut`.  An `Act` tells them apart.  The check for `nullptr` after the recursive call is in
  the code of `do_update_if_exists` only; the other two never get it.
* `delete_deep` counts levels and `delete_deep_shift` counts bits; both are `deleteDeep`, which is given the levels left.
* Handlers around moves of elements are left out where nothing else is in the `IMMER_TRY`, since moves do not throw.
* The static node of `champ::empty` is at the address `em`, and exists from the start.
-/

namespace ChampHeap
open Mm Champ

/-- `inner_t` (node.hpp 68-76): bitmaps, `values`, and the array of children, with the room allocated for it -/
structure Inner (w : Nat) where
  nm : BitVec w
  dm : BitVec w
  vals : Option Nat
  cs : List Nat

/-- node.hpp 49-105 -/
inductive Dat (w : Nat) where
  | inner (i : Inner w)
  | coll (count : Nat)
  | vals

/-- pointers the memory was allocated for (`sizeof_inner_n`, node.hpp 113-137) -/
def room {w : Nat} : Dat w → Nat
  | .inner i => i.cs.length
  | _ => 0

section helpers
variable {w : Nat} {T : Type}

abbrev HM (w : Nat) (T β : Type) := M (Dat w) T β

def liftO {β : Type} : Option β → HM w T β
  | some b => M.ret b
  | none => undef

/-- read the fields of an inner node (node.hpp 139-193) -/
def getI (p : Nat) : HM w T (Inner w) :=
  (cell p).bind fun c =>
    match c.data with
    | .inner i => M.ret i
    | _ => undef

/-- write the fields of an inner node -/
def setI (p : Nat) (f : Inner w → Inner w) : HM w T Unit :=
  (cell p).bind fun c =>
    match c.data with
    | .inner i => modify p fun c => { c with data := .inner (f i) }
    | _ => undef

/-- `collision_count()` (node.hpp 185) -/
def collCount (p : Nat) : HM w T Nat :=
  (cell p).bind fun c =>
    match c.data with
    | .coll n => M.ret n
    | _ => undef

/-- `std::copy` of pointers to children, to position `o` -/
def writeKids (p o : Nat) (ys : List Nat) : HM w T Unit :=
  (getI p).bind fun i =>
    if o + ys.length ≤ i.cs.length then setI p fun i => { i with cs := i.cs.take o ++ ys ++ i.cs.drop (o + ys.length) }
    else undef

def each (f : Nat → HM w T Unit) : List Nat → HM w T Unit
  | [] => M.ret ()
  | q :: qs => (f q).bind fun _ => each f qs

/-- node.hpp 1062-1066 `inc_nodes` -/
def incNodes (E : Env (Dat w) T) : List Nat → HM w T Unit := each (inc E)

/-- `values()` (node.hpp 139-149) -/
def valuesPtr (p : Nat) : HM w T Nat := (getI p).bind fun i => liftO i.vals

/-! ### release (node.hpp 1068-1136) -/

/-- 1108, 1117 `deallocate_values`, and 1112 `deallocate_collision` -/
def deallocEls (p n : Nat) : HM w T Unit := dealloc room p n 0

/-- 1122 `deallocate_inner(p, n)` -/
def deallocInner (p n : Nat) : HM w T Unit := dealloc room p 0 n

/-- 1127 `deallocate_inner(p, n, nv)` -/
def deallocInnerV (p n nv : Nat) : HM w T Unit :=
  (valuesPtr p).bind fun v => (deallocEls v nv).bind fun _ => deallocInner p n

/-- 1068 -/
def deleteValues (v n : Nat) : HM w T Unit := (destroyN v 0 n).bind fun _ => deallocEls v n

/-- 1075 -/
def deleteInner (E : Env (Dat w) T) (p : Nat) : HM w T Unit :=
  (getI p).bind fun i =>
    (match i.vals with
      | some v => (dec E v).bind fun last => if last then deleteValues v (popcount i.dm) else M.ret ()
      | none => M.ret ()).bind fun _ => deallocInner p (popcount i.nm)

/-- 1085 -/
def deleteCollision (p : Nat) : HM w T Unit :=
  (collCount p).bind fun n => (destroyN p 0 n).bind fun _ => deallocEls p n

/-- 1094 `delete_deep`, 1108 `delete_deep_shift` -/
def deleteDeep (E : Env (Dat w) T) : Nat → Nat → HM w T Unit
  | 0, p => deleteCollision p
  | d + 1, p =>
      (getI p).bind fun i => (liftO (slice i.cs 0 (popcount i.nm))).bind fun ys =>
        (each (fun q => (dec E q).bind fun last => if last then deleteDeep E d q else M.ret ()) ys).bind fun _ =>
          deleteInner E p

/-- `if (p->dec()) delete_deep(p, …)` -/
def release (E : Env (Dat w) T) (d p : Nat) : HM w T Unit :=
  (dec E p).bind fun last => if last then deleteDeep E d p else M.ret ()

/-! ### construction (node.hpp 225-362) -/

/-- 225-245 `make_inner_n(n)` -/
def makeInner (E : Env (Dat w) T) (n : Nat) : HM w T Nat := alloc E 0 (.inner ⟨0#w, 0#w, none, List.replicate n 0⟩)

/-- 247-255 `make_inner_n(n, values)` -/
def makeInnerShared (E : Env (Dat w) T) (n : Nat) (values : Option Nat) : HM w T Nat :=
  (makeInner E n).bind fun p =>
    match values with
    | some v => (setI p fun i => { i with vals := some v }).bind fun _ => (inc E v).bind fun _ => M.ret p
    | none => M.ret p

/-- 257-272 `make_inner_n(n, nv)` -/
def makeInnerNv (E : Env (Dat w) T) (n nv : Nat) : HM w T Nat :=
  (makeInner E n).bind fun p =>
    if nv = 0 then M.ret p
    else
      ((alloc E nv .vals).guard (deallocInner p n)).bind fun v =>
        (setI p fun i => { i with vals := some v }).bind fun _ => M.ret p

/-- 274-281 `make_inner_n(n, idx, child)` with `n = 1` -/
def makeInnerChild (E : Env (Dat w) T) (idx child : Nat) : HM w T Nat :=
  (makeInner E 1).bind fun p =>
    (setI p fun i => { i with nm := bitOf w idx }).bind fun _ => (writeKids p 0 [child]).bind fun _ => M.ret p

/-- 283-294 `make_inner_n(n, bitmap, x)` with `n = 0` -/
def makeInner1 (E : Env (Dat w) T) (bitmap : BitVec w) (x : T) : HM w T Nat :=
  (makeInnerNv E 0 1).bind fun p =>
    (setI p fun i => { i with dm := bitmap }).bind fun _ =>
      (valuesPtr p).bind fun v => (construct v 0 x).bind fun _ => M.ret p

/-- 296-325 `make_inner_n(n, idx1, x1, idx2, x2)` with `n = 0` -/
def makeInner2 (E : Env (Dat w) T) (idx1 : Nat) (x1 : T) (idx2 : Nat) (x2 : T) : HM w T Nat :=
  (makeInnerNv E 0 2).bind fun p =>
    (setI p fun i => { i with dm := bitOf w idx1 ||| bitOf w idx2 }).bind fun _ =>
      (valuesPtr p).bind fun v =>
        (construct v 0 (if idx1 < idx2 then x1 else x2)).bind fun _ =>
          (construct v 1 (if idx1 < idx2 then x2 else x1)).bind fun _ => M.ret p

/-- 327-336 `make_collision_n` -/
def makeCollisionN (E : Env (Dat w) T) (n : Nat) : HM w T Nat := alloc E n (.coll n)

/-- 338-362 `make_collision` -/
def makeCollision (E : Env (Dat w) T) (v1 v2 : T) : HM w T Nat :=
  (makeCollisionN E 2).bind fun p => (construct p 0 v1).bind fun _ => (construct p 1 v2).bind fun _ => M.ret p

/-! ### ownership (node.hpp 539-558) -/

/-- `owned` -/
def owned (E : Env (Dat w) T) (p e : Nat) : HM w T Nat := (setTok E p e).bind fun _ => M.ret p

/-- `owned_values` -/
def ownedValues (E : Env (Dat w) T) (p e : Nat) : HM w T Nat :=
  (setTok E p e).bind fun _ => (valuesPtr p).bind fun v => (setTok E v e).bind fun _ => M.ret p

/-- `owned_values_safe` -/
def ownedValuesSafe (E : Env (Dat w) T) (p e : Nat) : HM w T Nat :=
  (setTok E p e).bind fun _ => (getI p).bind fun i =>
    match i.vals with
    | some v => (setTok E v e).bind fun _ => M.ret p
    | none => M.ret p

/-- 364-388 `ensure_mutable_values`: the values array of `p` for the owner `e` -/
def ensureMutableValues (E : Env (Dat w) T) (e p : Nat) : HM w T Nat :=
  (getI p).bind fun i => (liftO i.vals).bind fun old => (canMutate E e old).bind fun m =>
    if m then M.ret old
    else
      (alloc E (popcount i.dm) .vals).bind fun nxt => (setTok E nxt e).bind fun _ =>
        ((uninitCopy old 0 (popcount i.dm) nxt 0).guard (deallocEls nxt (popcount i.dm))).bind fun _ =>
          (setI p fun i => { i with vals := some nxt }).bind fun _ => (dec E old).bind fun last =>
            (if last then deleteValues old (popcount i.dm) else M.ret ()).bind fun _ => M.ret nxt

/-! ### collision nodes (node.hpp 390-520) -/

/-- `uninitialized_copy` or `uninitialized_move` -/
def transfer (mv : Bool) (src i n dst o : Nat) : HM w T Unit :=
  if mv then uninitMove src i n dst o else uninitCopy src i n dst o

/-- 390-412 `copy_collision_insert` -/
def copyCollisionInsert (E : Env (Dat w) T) (src : Nat) (v : T) : HM w T Nat :=
  (collCount src).bind fun n => (makeCollisionN E (n + 1)).bind fun dst =>
    (((construct dst 0 v).bind fun _ => (uninitCopy src 0 n dst 1).guard (destroy1 dst 0)).guard
      (deallocEls dst (n + 1))).bind fun _ => M.ret dst

/-- 414-437 `move_collision_insert` -/
def moveCollisionInsert (E : Env (Dat w) T) (src : Nat) (v : T) : HM w T Nat :=
  (collCount src).bind fun n => (makeCollisionN E (n + 1)).bind fun dst =>
    (construct dst 0 v).bind fun _ => (uninitMove src 0 n dst 1).bind fun _ =>
      (deleteCollision src).bind fun _ => M.ret dst

/-- 439-462 `copy_collision_remove` -/
def copyCollisionRemove (E : Env (Dat w) T) (src pos : Nat) : HM w T Nat :=
  (collCount src).bind fun n => (makeCollisionN E (n - 1)).bind fun dst =>
    (((uninitCopy src 0 pos dst 0).bind fun _ =>
        (uninitCopy src (pos + 1) (n - (pos + 1)) dst pos).guard (destroyN dst 0 pos)).guard
      (deallocEls dst (n - 1))).bind fun _ => M.ret dst

/-- 464-488 `move_collision_remove` -/
def moveCollisionRemove (E : Env (Dat w) T) (src pos : Nat) : HM w T Nat :=
  (collCount src).bind fun n => (makeCollisionN E (n - 1)).bind fun dst =>
    (uninitMove src 0 pos dst 0).bind fun _ => (uninitMove src (pos + 1) (n - (pos + 1)) dst pos).bind fun _ =>
      (deleteCollision src).bind fun _ => M.ret dst

/-- 490-520 `copy_collision_replace`.  When the second copy throws, the handlers destroy the element at position 0 twice. -/
def copyCollisionReplace (E : Env (Dat w) T) (src pos : Nat) (v : T) : HM w T Nat :=
  (collCount src).bind fun n => (makeCollisionN E n).bind fun dst =>
    (((construct dst 0 v).bind fun _ =>
        ((uninitCopy src 0 pos dst 1).bind fun _ =>
          (uninitCopy src (pos + 1) (n - (pos + 1)) dst (pos + 1)).guard (destroyN dst 0 (pos + 1))).guard
            (destroy1 dst 0)).guard (deallocEls dst n)).bind fun _ => M.ret dst

/-! ### inner nodes (node.hpp 522-985) -/

/-- 522-537 `copy_inner_replace` -/
def copyInnerReplace (E : Env (Dat w) T) (src offset child : Nat) : HM w T Nat :=
  (getI src).bind fun i =>
    (makeInnerShared E (popcount i.nm) i.vals).bind fun dst =>
      (setI dst fun j => { j with nm := i.nm, dm := i.dm }).bind fun _ =>
        (liftO (slice i.cs 0 (popcount i.nm))).bind fun ys => (writeKids dst 0 ys).bind fun _ =>
          (liftO (slice i.cs 0 offset)).bind fun xs => (incNodes E xs).bind fun _ =>
            (liftO (slice i.cs (offset + 1) (popcount i.nm - offset - 1))).bind fun zs => (incNodes E zs).bind fun _ =>
              (writeKids dst offset [child]).bind fun _ => M.ret dst

/-- what `copy_inner_…` and `move_inner_…` start with: a new node with room for `n` children, and `nv` values, which are then
filled in by `fill sv dv` -/
def buildInner (E : Env (Dat w) T) (n nv : Nat) (nm dm : BitVec w) (fill : Nat → HM w T Unit) : HM w T Nat :=
  (makeInnerNv E n nv).bind fun dst => (setI dst fun j => { j with nm := nm, dm := dm }).bind fun _ =>
    (if nv = 0 then M.ret ()
      else ((valuesPtr dst).bind fill).guard (deallocInnerV dst n nv)).bind fun _ => M.ret dst

/-- the values with one removed (606-620, 651-676, 809-823, 851-885) -/
def fillRemove (mv : Bool) (src off nv : Nat) (dv : Nat) : HM w T Unit :=
  (valuesPtr src).bind fun sv => (transfer mv sv 0 off dv 0).bind fun _ =>
    (transfer mv sv (off + 1) (nv - (off + 1)) dv off).guard (destroyN dv 0 off)

/-- the values with one added (701-721, 751-787, 901-921, 944-977) -/
def fillInsert (mv : Bool) (src off nv : Nat) (v : T) (dv : Nat) : HM w T Unit :=
  if nv = 0 then construct dv off v
  else
    (valuesPtr src).bind fun sv => (transfer mv sv 0 off dv 0).bind fun _ =>
      ((construct dv off v).bind fun _ =>
        (transfer mv sv off (nv - off) dv (off + 1)).guard (destroy1 dv off)).guard (destroyN dv 0 off)

/-- 560-587 `copy_inner_replace_value` -/
def copyInnerReplaceValue (E : Env (Dat w) T) (src offset : Nat) (v : T) : HM w T Nat :=
  (getI src).bind fun i =>
    (buildInner E (popcount i.nm) (popcount i.dm) i.nm i.dm fun dv =>
      (valuesPtr src).bind fun sv => (uninitCopy sv 0 (popcount i.dm) dv 0).bind fun _ =>
        (assignEl dv offset v).guard (destroyN dv 0 (popcount i.dm))).bind fun dst =>
      (liftO (slice i.cs 0 (popcount i.nm))).bind fun ys => (incNodes E ys).bind fun _ =>
        (writeKids dst 0 ys).bind fun _ => M.ret dst

/-- the children with one more, at `noffset` (623-628, 676-681) -/
def kidsMerged (i : Inner w) (noffset dst node : Nat) : HM w T Unit :=
  (liftO (slice i.cs 0 noffset)).bind fun xs => (writeKids dst 0 xs).bind fun _ =>
    (liftO (slice i.cs noffset (popcount i.nm - noffset))).bind fun zs => (writeKids dst (noffset + 1) zs).bind fun _ =>
      writeKids dst noffset [node]

/-- the children with one less (725-729, 786-790) -/
def kidsInline (i : Inner w) (noffset dst : Nat) : HM w T Unit :=
  (liftO (slice i.cs 0 noffset)).bind fun xs => (writeKids dst 0 xs).bind fun _ =>
    (liftO (slice i.cs (noffset + 1) (popcount i.nm - noffset - 1))).bind fun zs => writeKids dst noffset zs

/-- 589-630 `copy_inner_replace_merged` -/
def copyInnerReplaceMerged (E : Env (Dat w) T) (src : Nat) (bit : BitVec w) (voffset node : Nat) : HM w T Nat :=
  (getI src).bind fun i =>
    (buildInner E (popcount i.nm + 1) (popcount i.dm - 1) (i.nm ||| bit) (i.dm &&& ~~~ bit)
      (fillRemove false src voffset (popcount i.dm))).bind fun dst =>
      (liftO (slice i.cs 0 (popcount i.nm))).bind fun ys => (incNodes E ys).bind fun _ =>
        (kidsMerged i (rank i.nm bit) dst node).bind fun _ => M.ret dst

/-- 632-682 `move_inner_replace_merged` -/
def moveInnerReplaceMerged (E : Env (Dat w) T) (e src : Nat) (bit : BitVec w) (voffset node : Nat) : HM w T Nat :=
  (getI src).bind fun i =>
    (buildInner E (popcount i.nm + 1) (popcount i.dm - 1) (i.nm ||| bit) (i.dm &&& ~~~ bit) fun dv =>
      (valuesPtr src).bind fun sv => (canMutate E e sv).bind fun mv =>
        fillRemove mv src voffset (popcount i.dm) dv).bind fun dst =>
      (kidsMerged i (rank i.nm bit) dst node).bind fun _ => (deleteInner E src).bind fun _ => M.ret dst

/-- 684-732 `copy_inner_replace_inline` -/
def copyInnerReplaceInline (E : Env (Dat w) T) (src : Nat) (bit : BitVec w) (noffset : Nat) (value : T) : HM w T Nat :=
  (getI src).bind fun i =>
    (buildInner E (popcount i.nm - 1) (popcount i.dm + 1) (i.nm &&& ~~~ bit) (i.dm ||| bit)
      (fillInsert false src (rank i.dm bit) (popcount i.dm) value)).bind fun dst =>
      (liftO (slice i.cs 0 noffset)).bind fun xs => (incNodes E xs).bind fun _ =>
        (liftO (slice i.cs (noffset + 1) (popcount i.nm - noffset - 1))).bind fun zs => (incNodes E zs).bind fun _ =>
          (kidsInline i noffset dst).bind fun _ => M.ret dst

/-- the `mutate_values` of `move_inner_replace_inline` and `move_inner_insert_value` (749, 944) -/
def mutateValues (E : Env (Dat w) T) (e src nv : Nat) : HM w T Bool :=
  if nv = 0 then M.ret false else (valuesPtr src).bind fun sv => canMutate E e sv

/-- 734-794 `move_inner_replace_inline` -/
def moveInnerReplaceInline (E : Env (Dat w) T) (e src : Nat) (bit : BitVec w) (noffset : Nat) (value : T) : HM w T Nat :=
  (getI src).bind fun i =>
    (buildInner E (popcount i.nm - 1) (popcount i.dm + 1) (i.nm &&& ~~~ bit) (i.dm ||| bit) fun dv =>
      (mutateValues E e src (popcount i.dm)).bind fun mv =>
        fillInsert mv src (rank i.dm bit) (popcount i.dm) value dv).bind fun dst =>
      (kidsInline i noffset dst).bind fun _ => (deleteInner E src).bind fun _ => M.ret dst

/-- 796-830 `copy_inner_remove_value` -/
def copyInnerRemoveValue (E : Env (Dat w) T) (src : Nat) (bit : BitVec w) (voffset : Nat) : HM w T Nat :=
  (getI src).bind fun i =>
    (buildInner E (popcount i.nm) (popcount i.dm - 1) i.nm (i.dm &&& ~~~ bit)
      (fillRemove false src voffset (popcount i.dm))).bind fun dst =>
      (liftO (slice i.cs 0 (popcount i.nm))).bind fun ys => (incNodes E ys).bind fun _ =>
        (writeKids dst 0 ys).bind fun _ => M.ret dst

/-- 832-889 `move_inner_remove_value` -/
def moveInnerRemoveValue (E : Env (Dat w) T) (e src : Nat) (bit : BitVec w) (voffset : Nat) : HM w T Nat :=
  (getI src).bind fun i =>
    (buildInner E (popcount i.nm) (popcount i.dm - 1) i.nm (i.dm &&& ~~~ bit) fun dv =>
      (valuesPtr src).bind fun sv => (canMutate E e sv).bind fun mv =>
        fillRemove mv src voffset (popcount i.dm) dv).bind fun dst =>
      (liftO (slice i.cs 0 (popcount i.nm))).bind fun ys => (writeKids dst 0 ys).bind fun _ =>
        (deleteInner E src).bind fun _ => M.ret dst

/-- 891-929 `copy_inner_insert_value` -/
def copyInnerInsertValue (E : Env (Dat w) T) (src : Nat) (bit : BitVec w) (v : T) : HM w T Nat :=
  (getI src).bind fun i =>
    (buildInner E (popcount i.nm) (popcount i.dm + 1) i.nm (i.dm ||| bit)
      (fillInsert false src (rank i.dm bit) (popcount i.dm) v)).bind fun dst =>
      (liftO (slice i.cs 0 (popcount i.nm))).bind fun ys => (incNodes E ys).bind fun _ =>
        (writeKids dst 0 ys).bind fun _ => M.ret dst

/-- 931-985 `move_inner_insert_value` -/
def moveInnerInsertValue (E : Env (Dat w) T) (e src : Nat) (bit : BitVec w) (v : T) : HM w T Nat :=
  (getI src).bind fun i =>
    (buildInner E (popcount i.nm) (popcount i.dm + 1) i.nm (i.dm ||| bit) fun dv =>
      (mutateValues E e src (popcount i.dm)).bind fun mv =>
        fillInsert mv src (rank i.dm bit) (popcount i.dm) v dv).bind fun dst =>
      (liftO (slice i.cs 0 (popcount i.nm))).bind fun ys => (writeKids dst 0 ys).bind fun _ =>
        (deleteInner E src).bind fun _ => M.ret dst

end helpers

variable {K T : Type} (c : Cfg K T) (E : Env (Dat c.W) T)

/-- `owned`, for `make_merged_e` only -/
def ownedIf (e : Option Nat) (p : Nat) : HM c.W T Nat :=
  match e with
  | some e => owned E p e
  | none => M.ret p

/-- `owned_values`, for `make_merged_e` only -/
def ownedValuesIf (e : Option Nat) (p : Nat) : HM c.W T Nat :=
  match e with
  | some e => ownedValues E p e
  | none => M.ret p

/-- node.hpp 987-1014 `make_merged` (`e = none`) and 1016-1052 `make_merged_e` -/
def makeMerged (e : Option Nat) : (d shift : Nat) → (v1 : T) → (h1 : BitVec 64) → (v2 : T) → (h2 : BitVec 64) → HM c.W T Nat
  | 0, _, v1, _, v2, _ => (makeCollision E v1 v2).bind fun p => ownedIf c E e p
  | d + 1, shift, v1, h1, v2, h2 =>
      let i1 := c.masked h1 shift
      let i2 := c.masked h2 shift
      if i1 = i2 then
        (makeMerged e d (shift + c.B) v1 h1 v2 h2).bind fun merged =>
          (((makeInnerChild E (i1 >>> shift).toNat merged).bind fun p => ownedIf c E e p).guard (deleteDeep E d merged))
      else
        (makeInner2 E (i1 >>> shift).toNat v1 (i2 >>> shift).toNat v2).bind fun p => ownedValuesIf c E e p

/-- `Equal{}`, which may throw -/
def eqM (x : T) (k : K) : HM c.W T Bool := (tick .user).bind fun _ => M.ret (c.eqv (c.key x) k)

/-- `Hash{}` of an element, which may throw -/
def hashM (x : T) : HM c.W T (BitVec 64) := (tick .user).bind fun _ => M.ret (c.hash (c.key x))

/-- the search through a collision node (champ.hpp 573-575 and elsewhere) -/
def scan (k : K) (p : Nat) : (i n : Nat) → HM c.W T (Option Nat)
  | _, 0 => M.ret none
  | i, n + 1 => (readEl p i).bind fun x => (eqM c x k).bind fun b => if b then M.ret (some i) else scan k p (i + 1) n

/-- what to put at a key -/
structure Act (K T : Type) where
  k : K
  /-- the new element, given the one with an equal key -/
  g : Option T → T
  /-- the element comes from `Combine{}(k, fn(Project{}(…)))`, rather than from an argument -/
  up : Bool
  /-- only if there is one (`update_if_exists`) -/
  ex : Bool

/-- the new element -/
def Act.make {w : Nat} (a : Act K T) (o : Option T) : HM w T T :=
  if a.up then (tick .user).bind fun _ => M.ret (a.g o) else M.ret (a.g o)

/-- champ.hpp 569-623 `do_add`, 754-832 `do_update`, 848-901 `do_update_if_exists`: the new node, and `added` -/
def doPut (a : Act K T) : (d p : Nat) → (hash : BitVec 64) → (shift : Nat) → HM c.W T (Option (Nat × Bool))
  | 0, p, _, _ =>
      (collCount p).bind fun n => (scan c a.k p 0 n).bind fun pos =>
        match pos with
        | some i =>
            (readEl p i).bind fun x => (a.make (some x)).bind fun v =>
              (copyCollisionReplace E p i v).bind fun r => M.ret (some (r, false))
        | none =>
            if a.ex then M.ret none
            else (a.make none).bind fun v => (copyCollisionInsert E p v).bind fun r => M.ret (some (r, true))
  | d + 1, p, hash, shift =>
      let bit := bitOf c.W (c.idx hash shift)
      (getI p).bind fun i =>
        if i.nm &&& bit ≠ 0#c.W then
          (liftO i.cs[rank i.nm bit]?).bind fun ch => (doPut a d ch hash (shift + c.B)).bind fun res =>
            match res with
            | none => M.ret none
            | some (q, added) =>
                ((copyInnerReplace E p (rank i.nm bit) q).guard (deleteDeep E d q)).bind fun r => M.ret (some (r, added))
        else if i.dm &&& bit ≠ 0#c.W then
          (liftO i.vals).bind fun vp => (readEl vp (rank i.dm bit)).bind fun x => (eqM c x a.k).bind fun b =>
            if b then
              (a.make (some x)).bind fun v =>
                (copyInnerReplaceValue E p (rank i.dm bit) v).bind fun r => M.ret (some (r, false))
            else if a.ex then M.ret none
            else
              (a.make none).bind fun v => (copyEl vp (rank i.dm bit)).bind fun y => (hashM c y).bind fun h2 =>
                (makeMerged c E none d (shift + c.B) v hash y h2).bind fun ch =>
                  ((copyInnerReplaceMerged E p bit (rank i.dm bit) ch).guard (deleteDeep E d ch)).bind fun r =>
                    M.ret (some (r, true))
        else if a.ex then M.ret none
        else
          (a.make none).bind fun v => (copyInnerInsertValue E p bit v).bind fun r => M.ret (some (r, true))

/-- `*x = std::move(v)` (champ.hpp 651), or `*x = Combine{}(k, fn(Project{}(std::move(*x))))` (939) -/
def Act.replace {w : Nat} (a : Act K T) (p i : Nat) : HM w T Unit :=
  (if a.up then moveEl p i else readEl p i).bind fun x => (a.make (some x)).bind fun v => assignEl p i v

/-- champ.hpp 641-729 `do_add_mut`, 923-1037 `do_update_mut`, 1061-1150 `do_update_if_exists_mut`: the node, `added` and
`mutated` -/
def doPutMut (e : Nat) (a : Act K T) : (d p : Nat) → (hash : BitVec 64) → (shift : Nat) → HM c.W T (Option (Nat × Bool × Bool))
  | 0, p, _, _ =>
      (collCount p).bind fun n => (scan c a.k p 0 n).bind fun pos =>
        match pos with
        | some i =>
            (canMutate E e p).bind fun mu =>
              if mu then (a.replace p i).bind fun _ => M.ret (some (p, false, true))
              else
                (readEl p i).bind fun x => (a.make (some x)).bind fun v =>
                  (copyCollisionReplace E p i v).bind fun r => (owned E r e).bind fun r => M.ret (some (r, false, false))
        | none =>
            if a.ex then M.ret none
            else
              (a.make none).bind fun v => (canMutate E e p).bind fun mu =>
                (if mu then moveCollisionInsert E p v else copyCollisionInsert E p v).bind fun r =>
                  (owned E r e).bind fun r => M.ret (some (r, true, mu))
  | d + 1, p, hash, shift =>
      let bit := bitOf c.W (c.idx hash shift)
      (getI p).bind fun i =>
        if i.nm &&& bit ≠ 0#c.W then
          (liftO i.cs[rank i.nm bit]?).bind fun ch => (canMutate E e p).bind fun mu =>
            if mu then
              (doPutMut e a d ch hash (shift + c.B)).bind fun res =>
                match res with
                | none => M.ret none
                | some (q, added, mutated) =>
                    (writeKids p (rank i.nm bit) [q]).bind fun _ =>
                      (if mutated then M.ret () else release E d ch).bind fun _ => M.ret (some (p, added, true))
            else
              (doPut c E a d ch hash (shift + c.B)).bind fun res =>
                match res with
                | none => M.ret none
                | some (q, added) =>
                    (((copyInnerReplace E p (rank i.nm bit) q).bind fun r => owned E r e).guard (deleteDeep E d q)).bind fun r =>
                      M.ret (some (r, added, false))
        else if i.dm &&& bit ≠ 0#c.W then
          (liftO i.vals).bind fun vp => (readEl vp (rank i.dm bit)).bind fun x => (eqM c x a.k).bind fun b =>
            if b then
              (canMutate E e p).bind fun mu =>
                if mu then
                  (ensureMutableValues E e p).bind fun vals => (a.replace vals (rank i.dm bit)).bind fun _ =>
                    M.ret (some (p, false, true))
                else
                  (a.make (some x)).bind fun v => (copyInnerReplaceValue E p (rank i.dm bit) v).bind fun r =>
                    (ownedValues E r e).bind fun r => M.ret (some (r, false, false))
            else if a.ex then M.ret none
            else
              (canMutate E e p).bind fun mu => (if mu then canMutate E e vp else M.ret false).bind fun mutVals =>
                (hashM c x).bind fun h2 => (a.make none).bind fun v =>
                  (if mutVals then moveEl vp (rank i.dm bit) else copyEl vp (rank i.dm bit)).bind fun y =>
                    (makeMerged c E (some e) d (shift + c.B) v hash y h2).bind fun ch =>
                      (((if mu then moveInnerReplaceMerged E e p bit (rank i.dm bit) ch
                          else copyInnerReplaceMerged E p bit (rank i.dm bit) ch).bind fun r =>
                            ownedValuesSafe E r e).guard (deleteDeep E d ch)).bind fun r =>
                        M.ret (some (r, true, mu))
        else if a.ex then M.ret none
        else
          (canMutate E e p).bind fun mu => (a.make none).bind fun v =>
            (if mu then moveInnerInsertValue E e p bit v else copyInnerInsertValue E p bit v).bind fun r =>
              (ownedValues E r e).bind fun r => M.ret (some (r, true, mu))

/-- champ.hpp 1169-1203 `sub_result`; the singleton is an element of the node at `q` -/
inductive SubR where
  | nothing
  | single (q i : Nat)
  | tree (r : Nat)

/-- champ.hpp 140-148 `empty()` -/
def empty (em : Nat) : HM c.W T Nat := (inc E em).bind fun _ => M.ret em

/-- champ.hpp 1205-1279 `do_sub` -/
def doSub (em : Nat) (k : K) : (d p : Nat) → (hash : BitVec 64) → (shift : Nat) → HM c.W T SubR
  | 0, p, _, _ =>
      (collCount p).bind fun n => (scan c k p 0 n).bind fun pos =>
        match pos with
        | some i =>
            if n > 2 then (copyCollisionRemove E p i).bind fun r => M.ret (.tree r)
            else M.ret (.single p (if i = 0 then 1 else 0))
        | none => M.ret .nothing
  | d + 1, p, hash, shift =>
      let bit := bitOf c.W (c.idx hash shift)
      (getI p).bind fun i =>
        if i.nm &&& bit ≠ 0#c.W then
          (liftO i.cs[rank i.nm bit]?).bind fun ch => (doSub em k d ch hash (shift + c.B)).bind fun res =>
            match res with
            | .nothing => M.ret .nothing
            | .single q j =>
                if i.dm = 0#c.W ∧ popcount i.nm = 1 ∧ shift > 0 then M.ret (.single q j)
                else
                  (copyEl q j).bind fun x => (copyInnerReplaceInline E p bit (rank i.nm bit) x).bind fun r => M.ret (.tree r)
            | .tree q => ((copyInnerReplace E p (rank i.nm bit) q).guard (deleteDeep E d q)).bind fun r => M.ret (.tree r)
        else if i.dm &&& bit ≠ 0#c.W then
          (liftO i.vals).bind fun vp => (readEl vp (rank i.dm bit)).bind fun x => (eqM c x k).bind fun b =>
            if b then
              if i.nm ≠ 0#c.W ∨ popcount i.dm > 2 then
                (copyInnerRemoveValue E p bit (rank i.dm bit)).bind fun r => M.ret (.tree r)
              else if popcount i.dm = 2 then
                if shift > 0 then M.ret (.single vp (if rank i.dm bit = 0 then 1 else 0))
                else
                  (copyEl vp (if rank i.dm bit = 0 then 1 else 0)).bind fun y =>
                    (makeInner1 E (i.dm &&& ~~~ bit) y).bind fun r => M.ret (.tree r)
              else (empty c E em).bind fun r => M.ret (.tree r)
            else M.ret .nothing
        else M.ret .nothing

/-- where the singleton of `sub_result_mut` is: in `store`, which owns it, or in a node.  (`store` is a local variable of
`sub_mut`; the element there is kept in the result.) -/
inductive Loc (T : Type) where
  | store (x : T)
  | at (q i : Nat)

/-- champ.hpp 1298-1339 `sub_result_mut`, with `mutated` -/
inductive SubRM (T : Type) where
  | nothing
  | single (l : Loc T) (mutated : Bool)
  | tree (r : Nat) (mutated : Bool)

/-- 1304 `sub_result_mut(sub_result)` -/
def SubR.toMut : SubR → SubRM T
  | .nothing => .nothing
  | .single q i => .single (.at q i) false
  | .tree r => .tree r false

/-- `result.owned ? std::move(*result.data.singleton) : *result.data.singleton` (1407-1409) -/
def Loc.take {w : Nat} : Loc T → HM w T T
  | .store x => M.ret x
  | .at q i => copyEl q i

/-- champ.hpp 1341-1474 `do_sub_mut` -/
def doSubMut (em e : Nat) (k : K) : (d p : Nat) → (hash : BitVec 64) → (shift : Nat) → HM c.W T (SubRM T)
  | 0, p, _, _ =>
      (canMutate E e p).bind fun mu => (collCount p).bind fun n => (scan c k p 0 n).bind fun pos =>
        match pos with
        | some i =>
            if n ≤ 2 then
              if mu then
                (moveEl p (if i = 0 then 1 else 0)).bind fun x => (deleteCollision p).bind fun _ =>
                  M.ret (.single (.store x) true)
              else M.ret (.single (.at p (if i = 0 then 1 else 0)) false)
            else
              (if mu then moveCollisionRemove E p i else copyCollisionRemove E p i).bind fun r =>
                (owned E r e).bind fun r => M.ret (.tree r mu)
        | none => M.ret .nothing
  | d + 1, p, hash, shift =>
      let bit := bitOf c.W (c.idx hash shift)
      (canMutate E e p).bind fun mu => (getI p).bind fun i =>
        if i.nm &&& bit ≠ 0#c.W then
          (liftO i.cs[rank i.nm bit]?).bind fun ch =>
            (if mu then doSubMut em e k d ch hash (shift + c.B)
              else (doSub c E em k d ch hash (shift + c.B)).bind fun r => M.ret r.toMut).bind fun res =>
              match res with
              | .nothing => M.ret .nothing
              | .single l mutated =>
                  if i.dm = 0#c.W ∧ popcount i.nm = 1 ∧ shift > 0 then
                    (if mu then
                        (deleteInner E p).bind fun _ => if mutated then M.ret () else release E d ch
                      else M.ret ()).bind fun _ => M.ret (.single l mu)
                  else
                    (l.take).bind fun x =>
                      (if mu then moveInnerReplaceInline E e p bit (rank i.nm bit) x
                        else copyInnerReplaceInline E p bit (rank i.nm bit) x).bind fun r =>
                        (if !mutated && mu then release E d ch else M.ret ()).bind fun _ =>
                          (ownedValues E r e).bind fun r => M.ret (.tree r mu)
              | .tree q mutated =>
                  if mu then
                    (writeKids p (rank i.nm bit) [q]).bind fun _ =>
                      (if mutated then M.ret () else release E d ch).bind fun _ => M.ret (.tree p true)
                  else
                    (((copyInnerReplace E p (rank i.nm bit) q).bind fun r => owned E r e).guard (deleteDeep E d q)).bind fun r =>
                      M.ret (.tree r false)
        else if i.dm &&& bit ≠ 0#c.W then
          (liftO i.vals).bind fun vp => (if mu then canMutate E e vp else M.ret false).bind fun mutVals =>
            (readEl vp (rank i.dm bit)).bind fun x => (eqM c x k).bind fun b =>
              if b then
                if i.nm ≠ 0#c.W ∨ popcount i.dm > 2 then
                  (if mu then moveInnerRemoveValue E e p bit (rank i.dm bit)
                    else copyInnerRemoveValue E p bit (rank i.dm bit)).bind fun r =>
                      (ownedValuesSafe E r e).bind fun r => M.ret (.tree r mu)
                else if popcount i.dm = 2 then
                  if shift > 0 then
                    if mutVals then
                      (moveEl vp (if rank i.dm bit = 0 then 1 else 0)).bind fun y => (deleteInner E p).bind fun _ =>
                        M.ret (.single (.store y) true)
                    else M.ret (.single (.at vp (if rank i.dm bit = 0 then 1 else 0)) false)
                  else
                    (if mutVals then moveEl vp (if rank i.dm bit = 0 then 1 else 0)
                      else copyEl vp (if rank i.dm bit = 0 then 1 else 0)).bind fun y =>
                      (makeInner1 E (i.dm &&& ~~~ bit) y).bind fun r =>
                        (if mu then deleteInner E p else M.ret ()).bind fun _ =>
                          (ownedValues E r e).bind fun r => M.ret (.tree r mu)
                else
                  (if mu then deleteInner E p else M.ret ()).bind fun _ =>
                    (empty c E em).bind fun r => M.ret (.tree r mu)
              else M.ret .nothing
        else M.ret .nothing

end ChampHeap
