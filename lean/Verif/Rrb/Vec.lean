import Verif.Rrb.Visit

/-!
# Model of `immer/detail/rbts/rbtree.hpp` (the implementation of `immer::vector`), persistent operations

`vector.hpp` forwards each member function to these (`vector.hpp` 140-330), so they are the API.
Sizes are unbounded naturals here, `std::size_t` in the code: the code agrees as long as sizes and
`branches<B> << shift` stay below 2^64.
-/

namespace Rrb

variable {T : Type} (c : Cfg)

/-- `rbtree` (32-35), `rrbtree` (rrbtree.hpp 33-36) -/
structure Tree (T : Type) where
  size : Nat
  shift : Nat
  root : Node T
  tail : Node T

/-- `empty_root()` (43-47) -/
def emptyRoot : Node T := .inner none []

/-- `empty_tail()` (49-53) -/
def emptyTail : Node T := .leaf []

namespace Vec

/-- `rbtree()` (86-93) -/
def empty : Tree T := ⟨0, c.BL, emptyRoot, emptyTail⟩

/-- `tail_offset()` (150): `size ? (size - 1) & ~mask<BL> : 0`; clearing the low bits is written with shifts -/
def tailOffset (size : Nat) : Nat := if size ≠ 0 then ((size - 1) >>> c.BL) <<< c.BL else 0

/-- `tail_size()` (148) -/
def tailSize (size : Nat) : Nat := if size ≠ 0 then ((size - 1) &&& (2 ^ c.BL - 1)) + 1 else 0

/-- `make_regular_sub_pos(root, shift, tail_off)` -/
def rootPos (t : Tree T) : Pos T := .regSub t.root t.shift (tailOffset c t.size)

/-- `push_back` (317-359) -/
def pushBack (t : Tree T) (x : T) : Option (Tree T) := do
  let tailOff := tailOffset c t.size
  let ts := t.size - tailOff
  if ts < 2 ^ c.BL then
    let tail ← copyLeafEmplace c t.tail ts x
    some ⟨t.size + 1, t.shift, t.root, tail⟩
  else
    let newTail ← mkLeaf c [x]
    if tailOff = 2 ^ c.B <<< t.shift then
      let root ← mkInner c [t.root, mkPath (levels c t.shift) t.tail]
      some ⟨t.size + 1, t.shift + c.B, root, newTail⟩
    else if tailOff ≠ 0 then
      let root ← pushTail c t.tail (2 ^ c.BL) (levels c t.shift) (rootPos c t)
      -- the regular branch of `push_tail_visitor` never returns null
      let root ← root
      some ⟨t.size + 1, t.shift, root, newTail⟩
    else
      some ⟨t.size + 1, t.shift, mkPath (levels c t.shift) t.tail, newTail⟩

/-- `descend` with `array_for_visitor` or `get_visitor` (217-222): leaf and index -/
def descend (t : Tree T) (idx : Nat) : Option (Node T × Nat) :=
  if tailOffset c t.size ≤ idx then some (t.tail, idx) else visitRegularDescent c t.root t.shift idx

/-- `get` (377-380) -/
def get (t : Tree T) (idx : Nat) : Option T := do
  let (n, i) ← descend c t idx
  getLeaf c n i

/-- `array_for` (361-364): the elements of the leaf holding `idx` -/
def arrayFor (t : Tree T) (idx : Nat) : Option (List T) := do
  let (n, _) ← descend c t idx
  n.leaf?

/-- `get_check` (382-387): `.error ()` is `std::out_of_range` -/
def getCheck (t : Tree T) (idx : Nat) : Option (Except Unit T) :=
  if t.size ≤ idx then some (.error ()) else (get c t idx).map .ok

/-- `front` (389) -/
def front (t : Tree T) : Option T := get c t 0

/-- `back` (391) -/
def back (t : Tree T) : Option T := do
  let xs ← t.tail.leaf?
  xs[(t.size - 1) &&& (2 ^ c.BL - 1)]?

/-- `update` (400-416) -/
def update (t : Tree T) (idx : Nat) (f : T → T) : Option (Tree T) := do
  let tailOff := tailOffset c t.size
  if tailOff ≤ idx then
    let tail ← updateV c f 0 (.leafSub t.tail (t.size - tailOff)) (idx - tailOff)
    some { t with tail := tail }
  else
    let root ← updateV c f (levels c t.shift) (rootPos c t) idx
    some { t with root := root }

/-- `assoc` (423-426), `vector::set` -/
def assoc (t : Tree T) (idx : Nat) (x : T) : Option (Tree T) := update c t idx (fun _ => x)

/-- `take` (428-454) -/
def take (t : Tree T) (n : Nat) : Option (Tree T) := do
  let tailOff := tailOffset c t.size
  if n = 0 then some (empty c)
  else if t.size ≤ n then some t
  else if tailOff < n then
    let tail ← copyLeaf c t.tail (n - tailOff)
    some ⟨n, t.shift, t.root, tail⟩
  else
    let (sh, root, _, tail) ← sliceRight c true (levels c t.shift) (rootPos c t) (n - 1)
    match root with
    | some r => some ⟨n, sh, r, tail⟩
    | none => some ⟨n, c.BL, emptyRoot, tail⟩

section
variable {σ : Type} (fn : List T → σ → Bool × σ)

/-- `for_each_chunk(fn)`, `for_each_chunk_p(fn)` (224-247) through `traverse`, `traverse_p` (152-215).
`empty_regular_pos::each` visits nothing. -/
def forEachChunk (t : Tree T) (s : σ) : Option (Bool × σ) :=
  let tailOff := tailOffset c t.size
  andP (fun s => if tailOff ≠ 0 then chunks c fn (levels c t.shift) (rootPos c t) s else some (true, s))
    (chunks c fn 0 (.leafSub t.tail (t.size - tailOff))) s

/-- `for_each_chunk(first, last, fn)`, `for_each_chunk_p(first, last, fn)` -/
def forEachChunkI (t : Tree T) (first last : Nat) (s : σ) : Option (Bool × σ) :=
  let tailOff := tailOffset c t.size
  andP (fun s => if first < tailOff then
      chunksI c fn (levels c t.shift) (rootPos c t) first (if last < tailOff then last else tailOff) s
    else some (true, s))
    (fun s => if tailOff < last then
      chunksI c fn 0 (.leafSub t.tail (t.size - tailOff)) (if tailOff < first then first - tailOff else 0)
        (last - tailOff) s
    else some (true, s)) s
end

/-! ## Equality -/

section
variable (same : Node T → Node T → Bool) (eq : T → T → Bool)

/-- `std::equal(f, f + n, g)`; reading past the end of the second array is undefined behaviour -/
def stdEqual : List T → List T → Option Bool
  | [], _ => some true
  | x :: xs, y :: ys => if eq x y then stdEqual xs ys else some false
  | _ :: _, [] => none

/-- `each_pred_zip` (position.hpp 388-410, 1208-1226): visit children pairwise, stop at the first false -/
def zipP (v : Pos T → Node T → Option Bool) : List (Pos T) → List (Node T) → Option Bool
  | [], _ => some true
  | p :: ps, y :: ys => do
      if ← v p y then zipP v ps ys else some false
  | _ :: _, [] => none

/-- `equals_visitor::visit_regular(pos, other)`, `visit_leaf(pos, other)` (operations.hpp 439-454).
`same` is pointer equality of nodes. -/
def equalsReg : Nat → Pos T → Node T → Option Bool
  | 0, p, other =>
      if same p.node other then some true
      else do
        let xs ← p.node.leaf?
        let xs ← slice xs 0 (p.count c)
        let ys ← other.leaf?
        stdEqual eq xs ys
  | L + 1, p, other =>
      if same p.node other then some true
      else do
        let ps ← p.each c
        let ys ← other.inner?
        zipP (equalsReg L) ps ys

/-- `equals` (249-260) -/
def equals (t u : Tree T) : Option Bool := do
  if t.size ≠ u.size then some false
  else if t.size = 0 then some true
  else do
    let a ← if t.size ≤ 2 ^ c.BL then some true
      else equalsReg c same eq (levels c t.shift) (rootPos c t) u.root
    if a then equalsReg c same eq 0 (.leafSub t.tail (tailSize c t.size)) u.tail else some false

end
end Vec

/-! ## Iterators (rbtree_iterator.hpp) -/

/-- `rbtree_iterator` (20-58): index, cached base and cached leaf.  `base_ = ~size_t{}` (nothing cached) is `none`;
no real base has all low bits set. -/
structure VecIter (T : Type) where
  tree : Tree T
  i : Nat
  cache : Option (Nat × List T)

namespace VecIter

/-- `begin()` (34-39) -/
def begin (t : Tree T) : VecIter T := ⟨t, 0, none⟩

/-- `end()` (41-46) -/
def end' (t : Tree T) : VecIter T := ⟨t, t.size, none⟩

/-- `increment` (58-62), undefined at the end -/
def incr (x : VecIter T) : Option (VecIter T) := if x.i < x.tree.size then some { x with i := x.i + 1 } else none

/-- `decrement` (64-68), undefined at the beginning -/
def decr (x : VecIter T) : Option (VecIter T) := if 0 < x.i then some { x with i := x.i - 1 } else none

/-- `advance` (70-75), undefined outside `[0, size]` -/
def advance (x : VecIter T) (n : Int) : Option (VecIter T) :=
  if 0 ≤ (x.i : Int) + n ∧ (x.i : Int) + n ≤ x.tree.size then some { x with i := ((x.i : Int) + n).toNat } else none

/-- `equal` (77) -/
def equal (x y : VecIter T) : Bool := x.i == y.i

/-- `distance_to` (79-83) -/
def distanceTo (x y : VecIter T) : Int := if y.i > x.i then ((y.i - x.i : Nat) : Int) else -((x.i - y.i : Nat) : Int)

/-- `dereference` (85-93): returns the element and the iterator with its cache updated -/
def deref (x : VecIter T) : Option (T × VecIter T) := do
  let base := (x.i >>> c.BL) <<< c.BL
  let xs ← match x.cache with
    | some (b, xs) => if b = base then some xs else Vec.arrayFor c x.tree x.i
    | none => Vec.arrayFor c x.tree x.i
  let v ← xs[x.i &&& (2 ^ c.BL - 1)]?
  some (v, { x with cache := some (base, xs) })

end VecIter
end Rrb
