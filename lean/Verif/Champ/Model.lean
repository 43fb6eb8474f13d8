import Verif.Champ.Sparse

/-!
# Value-level model of the CHAMP tries behind `immer::map`, `immer::set` and `immer::table`

Models `immer/detail/hamts/champ.hpp` and the node helpers of `immer/detail/hamts/node.hpp`
for the persistent (const) operations.

* A node is an inductive value; the address of a node is not represented here (see
  `Verif/ChampHeap` for the heap level).  Where the code compares node pointers (`equals_tree`,
  `diff`), the model takes an arbitrary predicate `same` that may answer `true` only on equal nodes.
* Result `none` of type `Option` is *undefined behaviour*: reading an array out of bounds, reading
  an inner-node field of a collision node or vice versa (the union in node.hpp), or reaching
  `IMMER_UNREACHABLE`.
* `B` is arbitrary; the bitmap type has exactly `2^B` bits (bits.hpp 28-52 picks a C++ integer of
  at least `2^B` bits, of which only the lowest `2^B` are ever set).
* `count_t`, `size_t` counters are unbounded `Nat`.
-/

namespace Champ

/-- Template parameters of `champ<T, Hash, Equal, MemoryPolicy, B>` (champ.hpp 121-126).  `key` is
the projection from stored element to key used by the `hash_key`/`equal_key` functors of map.hpp
(96-124) and table.hpp; it is the identity for `set`. -/
structure Cfg (K T : Type) where
  /-- bits per level -/
  B : Nat
  /-- key of a stored element -/
  key : T → K
  /-- `Hash{}`; `hash_t = size_t` is 64 bits (bits.hpp 23) -/
  hash : K → BitVec 64
  /-- `Equal{}` -/
  eqv : K → K → Bool

/-- What the standard requires of `Hash`/`Equal`: an equivalence relation, and equal keys hash
equally.  Nothing else is assumed of the hash. -/
structure Cfg.Lawful {K T : Type} (c : Cfg K T) : Prop where
  B_pos : 0 < c.B
  refl : ∀ a, c.eqv a a = true
  symm : ∀ a b, c.eqv a b = true → c.eqv b a = true
  trans : ∀ a b d, c.eqv a b = true → c.eqv b d = true → c.eqv a d = true
  hash_eq : ∀ a b, c.eqv a b = true → c.hash a = c.hash b

/-- node.hpp 38-110: the `inner` / `collision` union.  `values` is the separately allocated array
of `data_count()` elements, `children` the array of `children_count()` node pointers. -/
inductive Node (w : Nat) (T : Type) where
  | inner (nodemap datamap : BitVec w) (values : List T) (children : List (Node w T))
  | collision (vals : List T)

variable {K T : Type}

/-- bits.hpp 54: `branches<B>`; also the width of the bitmap -/
abbrev Cfg.W (c : Cfg K T) : Nat := 2 ^ c.B

abbrev Cfg.N (c : Cfg K T) : Type := Node c.W T

/-- bits.hpp 60: `max_depth<B> = (sizeof(hash_t) * 8 + B - 1) / B` -/
def Cfg.maxDepth (c : Cfg K T) : Nat := (64 + c.B - 1) / c.B

/-- bits.hpp 57: `mask<B>` as a `size_t` -/
def Cfg.mask (c : Cfg K T) : BitVec 64 := BitVec.ofNat 64 (2 ^ c.B - 1)

/-- `hash & (mask<B> << shift)` (node.hpp 990-991) -/
def Cfg.masked (c : Cfg K T) (hash : BitVec 64) (shift : Nat) : BitVec 64 :=
  hash &&& (c.mask <<< shift)

/-- `(hash & (mask<B> << shift)) >> shift` (champ.hpp 582) -/
def Cfg.idx (c : Cfg K T) (hash : BitVec 64) (shift : Nat) : Nat :=
  (c.masked hash shift >>> shift).toNat

/-- read `n` consecutive array elements starting at `i`; out of bounds is UB -/
def slice {α : Type} (xs : List α) (i n : Nat) : Option (List α) :=
  if i + n ≤ xs.length then some ((xs.drop i).take n) else none

/-- write one array element; out of bounds is UB -/
def setAt {α : Type} (xs : List α) (i : Nat) (v : α) : Option (List α) :=
  if i < xs.length then some (xs.set i v) else none

/-! ## node helpers -/

section helpers
variable {w : Nat}

/-- node.hpp 225-262 `make_inner_n_into` as used by `champ::empty` (champ.hpp 140-148) -/
def emptyNode : Node w T := .inner 0#w 0#w [] []

/-- node.hpp 264-272 `make_inner_n(n, idx, child)` -/
def makeInnerChild (idx : Nat) (child : Node w T) : Node w T :=
  .inner (bitOf w idx) 0#w [] [child]

/-- node.hpp 274-286 `make_inner_n(n, bitmap, x)` with n = 0 -/
def makeInner1 (bitmap : BitVec w) (x : T) : Node w T := .inner 0#w bitmap [x] []

/-- node.hpp 288-317 `make_inner_n(n, idx1, x1, idx2, x2)` with n = 0 -/
def makeInner2 (idx1 : Nat) (x1 : T) (idx2 : Nat) (x2 : T) : Node w T :=
  .inner 0#w (bitOf w idx1 ||| bitOf w idx2) (if idx1 < idx2 then [x1, x2] else [x2, x1]) []

/-- node.hpp 331-362 `make_collision` -/
def makeCollision (v1 v2 : T) : Node w T := .collision [v1, v2]

/-- node.hpp 390-412 `copy_collision_insert`: the new element comes first -/
def copyCollisionInsert (vs : List T) (v : T) : Node w T := .collision (v :: vs)

/-- node.hpp 439-462 `copy_collision_remove(src, v)`; `pos` is the index of `v` -/
def copyCollisionRemove (vs : List T) (pos : Nat) : Option (Node w T) := do
  let a ← slice vs 0 pos
  let b ← slice vs (pos + 1) (vs.length - (pos + 1))
  return .collision (a ++ b)

/-- node.hpp 490-520 `copy_collision_replace(src, pos, v)`: the new element comes first, followed by
the others -/
def copyCollisionReplace (vs : List T) (pos : Nat) (v : T) : Option (Node w T) := do
  let a ← slice vs 0 pos
  let b ← slice vs (pos + 1) (vs.length - (pos + 1))
  return .collision (v :: (a ++ b))

/-- node.hpp 522-537 `copy_inner_replace` (the values array is shared, not copied) -/
def copyInnerReplace (nm dm : BitVec w) (vs : List T) (cs : List (Node w T))
    (offset : Nat) (child : Node w T) : Option (Node w T) := do
  let n := popcount nm
  let a ← slice cs 0 n
  let cs' ← setAt a offset child
  return .inner nm dm vs cs'

/-- node.hpp 560-587 `copy_inner_replace_value` -/
def copyInnerReplaceValue (nm dm : BitVec w) (vs : List T) (cs : List (Node w T))
    (offset : Nat) (v : T) : Option (Node w T) := do
  let n := popcount nm
  let nv := popcount dm
  let a ← slice vs 0 nv
  let vs' ← setAt a offset v
  let cs' ← slice cs 0 n
  return .inner nm dm vs' cs'

/-- node.hpp 589-630 `copy_inner_replace_merged` -/
def copyInnerReplaceMerged (nm dm : BitVec w) (vs : List T) (cs : List (Node w T))
    (bit : BitVec w) (voffset : Nat) (node : Node w T) : Option (Node w T) := do
  let n := popcount nm
  let nv := popcount dm
  let noffset := rank nm bit
  let vs' ← if nv > 1 then do
      let a ← slice vs 0 voffset
      let b ← slice vs (voffset + 1) (nv - (voffset + 1))
      pure (a ++ b)
    else pure []
  let ca ← slice cs 0 noffset
  let cb ← slice cs noffset (n - noffset)
  return .inner (nm ||| bit) (dm &&& ~~~ bit) vs' (ca ++ node :: cb)

/-- node.hpp 684-732 `copy_inner_replace_inline` -/
def copyInnerReplaceInline (nm dm : BitVec w) (vs : List T) (cs : List (Node w T))
    (bit : BitVec w) (noffset : Nat) (value : T) : Option (Node w T) := do
  let n := popcount nm
  let nv := popcount dm
  let voffset := rank dm bit
  let vs' ← if nv > 0 then do
      let a ← slice vs 0 voffset
      let b ← slice vs voffset (nv - voffset)
      pure (a ++ value :: b)
    else pure [value]
  let ca ← slice cs 0 noffset
  let cb ← slice cs (noffset + 1) (n - noffset - 1)
  return .inner (nm &&& ~~~ bit) (dm ||| bit) vs' (ca ++ cb)

/-- node.hpp 796-830 `copy_inner_remove_value` -/
def copyInnerRemoveValue (nm dm : BitVec w) (vs : List T) (cs : List (Node w T))
    (bit : BitVec w) (voffset : Nat) : Option (Node w T) := do
  let n := popcount nm
  let nv := popcount dm
  let vs' ← if nv > 1 then do
      let a ← slice vs 0 voffset
      let b ← slice vs (voffset + 1) (nv - (voffset + 1))
      pure (a ++ b)
    else pure []
  let cs' ← slice cs 0 n
  return .inner nm (dm &&& ~~~ bit) vs' cs'

/-- node.hpp 891-929 `copy_inner_insert_value` -/
def copyInnerInsertValue (nm dm : BitVec w) (vs : List T) (cs : List (Node w T))
    (bit : BitVec w) (v : T) : Option (Node w T) := do
  let n := popcount nm
  let nv := popcount dm
  let offset := rank dm bit
  let vs' ← if nv > 0 then do
      let a ← slice vs 0 offset
      let b ← slice vs offset (nv - offset)
      pure (a ++ v :: b)
    else pure [v]
  let cs' ← slice cs 0 n
  return .inner nm (dm ||| bit) vs' cs'

end helpers

variable (c : Cfg K T)

/-- node.hpp 987-1014 `make_merged`.  `d` is the number of levels left, i.e.
`shift == max_shift<B>` iff `d = 0`. -/
def makeMerged : (d : Nat) → (shift : Nat) → (v1 : T) → (h1 : BitVec 64) → (v2 : T) →
    (h2 : BitVec 64) → c.N
  | 0, _, v1, _, v2, _ => makeCollision v1 v2
  | d + 1, shift, v1, h1, v2, h2 =>
    let i1 := c.masked h1 shift
    let i2 := c.masked h2 shift
    if i1 = i2 then
      makeInnerChild (i1 >>> shift).toNat (makeMerged d (shift + c.B) v1 h1 v2 h2)
    else
      makeInner2 (i1 >>> shift).toNat v1 (i2 >>> shift).toNat v2

/-! ## lookup -/

/-- champ.hpp 533-561 `get`: the loop over levels; the hash is shifted right at each step.  The
outer `Option` is UB, the inner one is "found / not found" (`Project` / `Default`). -/
def getLoop : (d : Nat) → c.N → (hash : BitVec 64) → (k : K) → Option (Option T)
  | 0, .collision vs, _, k => some (vs.find? (fun x => c.eqv (c.key x) k))
  | 0, .inner .., _, _ => none
  | _ + 1, .collision _, _, _ => none
  | d + 1, .inner nm dm vs cs, hash, k =>
    let bit := bitOf c.W (hash &&& c.mask).toNat
    if nm &&& bit ≠ 0#c.W then do
      let ch ← cs[rank nm bit]?
      getLoop d ch (hash >>> c.B) k
    else if dm &&& bit ≠ 0#c.W then do
      let v ← vs[rank dm bit]?
      if c.eqv (c.key v) k then some (some v) else some none
    else some none

/-! ## insertion -/

/-- champ.hpp 569-623 `do_add`; the result pair is `add_result{node, added}` -/
def doAdd : (d : Nat) → c.N → (v : T) → (hash : BitVec 64) → (shift : Nat) →
    Option (c.N × Bool)
  | 0, .inner .., _, _, _ => none
  | 0, .collision vs, v, _, _ =>
    match vs.findIdx? (fun x => c.eqv (c.key x) (c.key v)) with
    | some pos => do return (← copyCollisionReplace vs pos v, false)
    | none => some (copyCollisionInsert vs v, true)
  | _ + 1, .collision _, _, _, _ => none
  | d + 1, .inner nm dm vs cs, v, hash, shift =>
    let bit := bitOf c.W (c.idx hash shift)
    if nm &&& bit ≠ 0#c.W then do
      let offset := rank nm bit
      let child ← cs[offset]?
      let (r, added) ← doAdd d child v hash (shift + c.B)
      return (← copyInnerReplace nm dm vs cs offset r, added)
    else if dm &&& bit ≠ 0#c.W then do
      let offset := rank dm bit
      let val ← vs[offset]?
      if c.eqv (c.key val) (c.key v) then
        return (← copyInnerReplaceValue nm dm vs cs offset v, false)
      else
        let child := makeMerged c d (shift + c.B) v hash val (c.hash (c.key val))
        return (← copyInnerReplaceMerged nm dm vs cs bit offset child, true)
    else do
      return (← copyInnerInsertValue nm dm vs cs bit v, true)

/-! ## update -/

/-- The `Project` / `Default` / `Combine` functors passed by map.hpp (53-93) and table.hpp, and the
user's function.  The user's function may be stateful: it takes and returns a state `σ`, which lets
us count and order its calls. -/
structure Upd (K T P σ : Type) where
  project : T → P
  dflt : P
  combine : K → P → T
  fn : P → σ → P × σ

variable {P σ : Type}

/-- champ.hpp 754-832 `do_update` -/
def doUpdate (u : Upd K T P σ) : (d : Nat) → c.N → (k : K) → (hash : BitVec 64) → (shift : Nat) →
    σ → Option ((c.N × Bool) × σ)
  | 0, .inner .., _, _, _, _ => none
  | 0, .collision vs, k, _, _, s =>
    match vs.findIdx? (fun x => c.eqv (c.key x) k) with
    | some pos => do
      let x ← vs[pos]?
      let (y, s') := u.fn (u.project x) s
      return ((← copyCollisionReplace vs pos (u.combine k y), false), s')
    | none =>
      let (y, s') := u.fn u.dflt s
      some ((copyCollisionInsert vs (u.combine k y), true), s')
  | _ + 1, .collision _, _, _, _, _ => none
  | d + 1, .inner nm dm vs cs, k, hash, shift, s =>
    let bit := bitOf c.W (c.idx hash shift)
    if nm &&& bit ≠ 0#c.W then do
      let offset := rank nm bit
      let child ← cs[offset]?
      let ((r, added), s') ← doUpdate u d child k hash (shift + c.B) s
      return ((← copyInnerReplace nm dm vs cs offset r, added), s')
    else if dm &&& bit ≠ 0#c.W then do
      let offset := rank dm bit
      let val ← vs[offset]?
      if c.eqv (c.key val) k then
        let (y, s') := u.fn (u.project val) s
        return ((← copyInnerReplaceValue nm dm vs cs offset (u.combine k y), false), s')
      else
        let (y, s') := u.fn u.dflt s
        let child := makeMerged c d (shift + c.B) (u.combine k y) hash val (c.hash (c.key val))
        return ((← copyInnerReplaceMerged nm dm vs cs bit offset child, true), s')
    else do
      let (y, s') := u.fn u.dflt s
      return ((← copyInnerInsertValue nm dm vs cs bit (u.combine k y), true), s')

/-- champ.hpp 848-901 `do_update_if_exists`; inner `none` models the returned `nullptr` -/
def doUpdateIfExists (u : Upd K T P σ) : (d : Nat) → c.N → (k : K) → (hash : BitVec 64) →
    (shift : Nat) → σ → Option (Option c.N × σ)
  | 0, .inner .., _, _, _, _ => none
  | 0, .collision vs, k, _, _, s =>
    match vs.findIdx? (fun x => c.eqv (c.key x) k) with
    | some pos => do
      let x ← vs[pos]?
      let (y, s') := u.fn (u.project x) s
      return (some (← copyCollisionReplace vs pos (u.combine k y)), s')
    | none => some (none, s)
  | _ + 1, .collision _, _, _, _, _ => none
  | d + 1, .inner nm dm vs cs, k, hash, shift, s =>
    let bit := bitOf c.W (c.idx hash shift)
    if nm &&& bit ≠ 0#c.W then do
      let offset := rank nm bit
      let child ← cs[offset]?
      let (r, s') ← doUpdateIfExists u d child k hash (shift + c.B) s
      match r with
      | some r => return (some (← copyInnerReplace nm dm vs cs offset r), s')
      | none => return (none, s')
    else if dm &&& bit ≠ 0#c.W then do
      let offset := rank dm bit
      let val ← vs[offset]?
      if c.eqv (c.key val) k then
        let (y, s') := u.fn (u.project val) s
        return (some (← copyInnerReplaceValue nm dm vs cs offset (u.combine k y)), s')
      else
        return (none, s)
    else
      some (none, s)

/-! ## erase -/

/-- champ.hpp 1169-1203 `sub_result` -/
inductive SubResult (N T : Type) where
  | nothing
  | singleton (x : T)
  | tree (n : N)

/-- champ.hpp 1205-1279 `do_sub`.  The singleton result is a pointer to an element inside the old
tree; the model carries the element. -/
def doSub : (d : Nat) → c.N → (k : K) → (hash : BitVec 64) → (shift : Nat) →
    Option (SubResult c.N T)
  | 0, .inner .., _, _, _ => none
  | 0, .collision vs, k, _, _ =>
    match vs.findIdx? (fun x => c.eqv (c.key x) k) with
    | some pos =>
      if vs.length > 2 then do
        return .tree (← copyCollisionRemove vs pos)
      else do
        let x ← vs[if pos = 0 then 1 else 0]?
        return .singleton x
    | none => some .nothing
  | _ + 1, .collision _, _, _, _ => none
  | d + 1, .inner nm dm vs cs, k, hash, shift =>
    let bit := bitOf c.W (c.idx hash shift)
    if nm &&& bit ≠ 0#c.W then do
      let offset := rank nm bit
      let child ← cs[offset]?
      match ← doSub d child k hash (shift + c.B) with
      | .nothing => return .nothing
      | .singleton x =>
        if dm = 0#c.W ∧ popcount nm = 1 ∧ shift > 0 then
          return .singleton x
        else
          return .tree (← copyInnerReplaceInline nm dm vs cs bit offset x)
      | .tree r =>
        return .tree (← copyInnerReplace nm dm vs cs offset r)
    else if dm &&& bit ≠ 0#c.W then do
      let offset := rank dm bit
      let val ← vs[offset]?
      if c.eqv (c.key val) k then
        let nv := popcount dm
        if nm ≠ 0#c.W ∨ nv > 2 then
          return .tree (← copyInnerRemoveValue nm dm vs cs bit offset)
        else if nv = 2 then
          let x ← vs[if offset = 0 then 1 else 0]?
          if shift > 0 then
            return .singleton x
          else
            return .tree (makeInner1 (dm &&& ~~~ bit) x)
        else
          return .tree emptyNode
      else return .nothing
    else some .nothing

/-! ## traversal -/

/-- champ.hpp 314-333 `for_each_chunk_traversal`: the list of chunks passed to `fn`, in order -/
def chunks : (d : Nat) → c.N → Option (List (List T))
  | 0, .collision vs => some [vs]
  | 0, .inner .. => none
  | _ + 1, .collision _ => none
  | d + 1, .inner nm dm vs cs => do
    let a ← if dm ≠ 0#c.W then do
        let xs ← slice vs 0 (popcount dm)
        pure [xs]
      else pure []
    let b ← if nm ≠ 0#c.W then do
        let xs ← slice cs 0 (popcount nm)
        let ys ← xs.mapM (chunks d)
        pure ys.flatten
      else pure []
    return a ++ b

/-! ## equality -/

/-- champ.hpp 1531-1546 `equals_collisions` -/
def equalsCollisions (eq : T → T → Bool) (a b : List T) : Bool :=
  a.all (fun x => b.any (fun y => eq x y))

/-- champ.hpp 1525-1529 `equals_values`: `std::equal(a, a + n, b, Eq{})` -/
def equalsValues (eq : T → T → Bool) : List T → List T → Nat → Option Bool
  | _, _, 0 => some true
  | x :: a, y :: b, n + 1 => if eq x y then equalsValues eq a b n else some false
  | _, _, _ + 1 => none

/-- champ.hpp 1499-1523 `equals_tree`; `same` models pointer equality of nodes -/
def equalsTree (eq : T → T → Bool) (same : c.N → c.N → Bool) : (d : Nat) → c.N → c.N → Option Bool
  | d, a, b =>
    if same a b then some true else
    match d, a, b with
    | 0, .collision a, .collision b =>
      if a.length = b.length then some (equalsCollisions eq a b) else some false
    | d + 1, .inner nma dma vsa csa, .inner nmb dmb vsb csb =>
      if nma ≠ nmb ∨ dma ≠ dmb then some false
      else do
        let n := popcount nma
        let xs ← slice csa 0 n
        let ys ← slice csb 0 n
        let ok ← (xs.zip ys).foldlM (fun (ok : Bool) p =>
          if ok then equalsTree eq same d p.1 p.2 else some false) true
        if ok then
          let nv := popcount dma
          if nv = 0 then some true else equalsValues eq vsa vsb nv
        else some false
    | _, _, _ => none
termination_by d => d

/-! ## the container -/

/-- champ.hpp 128-138: `root` and `size` -/
structure Map (c : Cfg K T) where
  root : c.N
  size : Nat

/-- champ.hpp 140-153 `empty()` with the default size 0 -/
def Map.empty : Map c := ⟨emptyNode, 0⟩

variable {c}

/-- champ.hpp 533-561 -/
def Map.get (m : Map c) (k : K) : Option (Option T) := getLoop c c.maxDepth m.root (c.hash k) k

/-- champ.hpp 625-631 `add` -/
def Map.add (m : Map c) (v : T) : Option (Map c) := do
  let (r, added) ← doAdd c c.maxDepth m.root v (c.hash (c.key v)) 0
  return ⟨r, m.size + (if added then 1 else 0)⟩

/-- champ.hpp 834-846 `update` -/
def Map.update (m : Map c) (u : Upd K T P σ) (k : K) (s : σ) : Option (Map c × σ) := do
  let ((r, added), s') ← doUpdate c u c.maxDepth m.root k (c.hash k) 0 s
  return (⟨r, m.size + (if added then 1 else 0)⟩, s')

/-- champ.hpp 903-914 `update_if_exists` -/
def Map.updateIfExists (m : Map c) (u : Upd K T P σ) (k : K) (s : σ) : Option (Map c × σ) := do
  let (r, s') ← doUpdateIfExists c u c.maxDepth m.root k (c.hash k) 0 s
  match r with
  | some r => return (⟨r, m.size⟩, s')
  | none => return (⟨m.root, m.size⟩, s')

/-- champ.hpp 1281-1295 `sub`; the `singleton` result at the root is `IMMER_UNREACHABLE` -/
def Map.sub (m : Map c) (k : K) : Option (Map c) := do
  match ← doSub c c.maxDepth m.root k (c.hash k) 0 with
  | .nothing => return m
  | .tree r => return ⟨r, m.size - 1⟩
  | .singleton _ => none

/-- champ.hpp 286-306 `from_range` / `from_initializer_list`.  The code inserts with `add_mut`
using a fresh owner; at value level that is `add` (proved at heap level). -/
def Map.fromRange (xs : List T) : Option (Map c) := xs.foldlM (fun m v => m.add v) (Map.empty c)

/-- champ.hpp 308-312 `for_each_chunk` -/
def Map.chunks (m : Map c) : Option (List (List T)) := Champ.chunks c c.maxDepth m.root

/-- champ.hpp 1493-1497 `equals` -/
def Map.equals (eq : T → T → Bool) (same : c.N → c.N → Bool) (a b : Map c) : Option Bool :=
  if a.size = b.size then equalsTree c eq same c.maxDepth a.root b.root else some false

end Champ
