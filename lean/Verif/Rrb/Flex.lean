import Verif.Rrb.Concat
import Verif.Rrb.Vec

/-!
# Model of `immer/detail/rbts/rrbtree.hpp` (the implementation of `immer::flex_vector`), persistent operations

The object layout is that of `rbtree`, so `Tree` is shared with `Vec.lean`.
`flex_vector.hpp` 130-500 forwards to these functions or composes them (`insert`, `erase`, `push_front` below).
-/

namespace Rrb

variable {T : Type} (c : Cfg)

namespace Flex

/-- `rrbtree()` (106-113) -/
def empty : Tree T := ⟨0, c.BL, emptyRoot, emptyTail⟩

/-- `tail_offset()` (165-174) -/
def tailOffset (t : Tree T) : Option Nat := do
  match ← t.root.relaxed? with
  | some sz => sz[sz.length - 1]?
  | none => some (Vec.tailOffset c t.size)

/-- `push_tail(root, shift, size, tail, tail_size)` (333-380) -/
def pushTailRoot (root : Node T) (shift size : Nat) (tail : Node T) (ts : Nat) : Option (Nat × Node T) := do
  match ← root.relaxed? with
  | some sz =>
      match ← pushTail c tail ts (levels c shift) (.rel root shift sz) with
      | some n => some (shift, n)
      | none => do
          let n ← mkInnerR c [size, size + ts] [root, mkPath (levels c shift) tail]
          some (shift + c.B, n)
  | none =>
      if size = 2 ^ c.B <<< shift then do
        let n ← mkInner c [root, mkPath (levels c shift) tail]
        some (shift + c.B, n)
      else if size ≠ 0 then do
        -- `visit(push_tail_visitor, tail)`: the default tail size is `branches<BL>`
        let n ← pushTail c tail (2 ^ c.BL) (levels c shift) (.regSub root shift size)
        let n ← n
        some (shift, n)
      else some (shift, mkPath (levels c shift) tail)

/-- `push_back` (468-490) -/
def pushBack (t : Tree T) (x : T) : Option (Tree T) := do
  let off ← tailOffset c t
  let ts := t.size - off
  if ts < 2 ^ c.BL then
    let tail ← copyLeafEmplace c t.tail ts x
    some ⟨t.size + 1, t.shift, t.root, tail⟩
  else
    let newTail ← mkLeaf c [x]
    let (s, root) ← pushTailRoot c t.root t.shift off t.tail (t.size - off)
    some ⟨t.size + 1, s, root, newTail⟩

/-- `region_for` (492-506): elements of the leaf, index of its first element and one past its last -/
def regionFor (t : Tree T) (idx : Nat) : Option (List T × Nat × Nat) := do
  let off ← tailOffset c t
  if off ≤ idx then
    let xs ← t.tail.leaf?
    some (xs, off, t.size)
  else
    let p ← Pos.maybeRelaxedSub t.root t.shift off
    let (xs, i, n) ← Rrb.regionFor c (levels c t.shift) p idx
    some (xs, idx - i, idx - i + n)

/-- `descend` (242-249) -/
def descend (t : Tree T) (idx : Nat) : Option (Node T × Nat) := do
  let off ← tailOffset c t
  if off ≤ idx then some (t.tail, idx - off) else visitMaybeRelaxedDescent c t.root t.shift idx

/-- `get` (524-527) -/
def get (t : Tree T) (idx : Nat) : Option T := do
  let (n, i) ← descend c t idx
  getLeaf c n i

/-- `get_check` (529-534) -/
def getCheck (t : Tree T) (idx : Nat) : Option (Except Unit T) :=
  if t.size ≤ idx then some (.error ()) else (get c t idx).map .ok

/-- `front` (536) -/
def front (t : Tree T) : Option T := get c t 0

/-- `back` (538) -/
def back (t : Tree T) : Option T := get c t (t.size - 1)

/-- `update` (547-562) -/
def update (t : Tree T) (idx : Nat) (f : T → T) : Option (Tree T) := do
  let off ← tailOffset c t
  if off ≤ idx then
    let tail ← updateV c f 0 (.leafSub t.tail (t.size - off)) (idx - off)
    some { t with tail := tail }
  else
    let p ← Pos.maybeRelaxedSub t.root t.shift off
    let root ← updateV c f (levels c t.shift) p idx
    some { t with root := root }

/-- `assoc` (569-572), `flex_vector::set` -/
def assoc (t : Tree T) (idx : Nat) (x : T) : Option (Tree T) := update c t idx (fun _ => x)

/-- `take` (615-641) -/
def take (t : Tree T) (n : Nat) : Option (Tree T) := do
  let off ← tailOffset c t
  if n = 0 then some (empty c)
  else if t.size ≤ n then some t
  else if off < n then
    let tail ← copyLeaf c t.tail (n - off)
    some ⟨n, t.shift, t.root, tail⟩
  else
    let p ← Pos.maybeRelaxedSub t.root t.shift off
    let (sh, root, _, tail) ← sliceRight c true (levels c t.shift) p (n - 1)
    match root with
    | some r => some ⟨n, sh, r, tail⟩
    | none => some ⟨n, c.BL, emptyRoot, tail⟩

/-- `drop` (679-701) -/
def drop (t : Tree T) (n : Nat) : Option (Tree T) := do
  if n = 0 then some t
  else if t.size ≤ n then some (empty c)
  else
    let off ← tailOffset c t
    if n = off then some ⟨t.size - n, c.BL, emptyRoot, t.tail⟩
    else if off < n then
      let tail ← copyLeafI c t.tail (n - off) (t.size - off)
      some ⟨t.size - n, c.BL, emptyRoot, tail⟩
    else
      let p ← Pos.maybeRelaxedSub t.root t.shift off
      let (sh, root) ← sliceLeft c true (levels c t.shift) p n
      some ⟨t.size - n, sh, root, t.tail⟩

/-- `concat` (703-779) -/
def concat (t r : Tree T) : Option (Tree T) := do
  if t.size = 0 then some r
  else if r.size = 0 then some t
  else
    let roff ← tailOffset c r
    let off ← tailOffset c t
    let ts := t.size - off
    if roff = 0 then
      if ts = 2 ^ c.BL then
        let (s, root) ← pushTailRoot c t.root t.shift off t.tail ts
        some ⟨t.size + r.size, s, root, r.tail⟩
      else if ts + r.size ≤ 2 ^ c.BL then
        let tail ← copyLeaf2 c t.tail ts r.tail r.size
        some ⟨t.size + r.size, t.shift, t.root, tail⟩
      else
        let remaining := 2 ^ c.BL - ts
        let addTail ← copyLeaf2 c t.tail ts r.tail remaining
        let newTail ← copyLeafI c r.tail remaining r.size
        let (s, root) ← pushTailRoot c t.root t.shift off addTail (2 ^ c.BL)
        some ⟨t.size + r.size, s, root, newTail⟩
    else if off = 0 then
      let (s, root) ← concatTreesTail c t.tail ts r.root r.shift roff
      some ⟨t.size + r.size, s, root, r.tail⟩
    else
      let (s, root) ← concatTrees c t.root t.shift off t.tail ts r.root r.shift roff
      some ⟨t.size + r.size, s, root, r.tail⟩

/-! ### Compositions in `flex_vector.hpp` -/

/-- `flex_vector(vector)` (flex_vector.hpp 125-135): shares the nodes of the vector -/
def ofVector (t : Tree T) : Tree T := t

/-- `push_front` (flex_vector.hpp 266-269) -/
def pushFront (t : Tree T) (x : T) : Option (Tree T) := do
  let a ← pushBack c (empty c) x
  concat c a t

/-- `insert(pos, value)` (flex_vector.hpp 437-440) -/
def insert (t : Tree T) (pos : Nat) (x : T) : Option (Tree T) := do
  let a ← take c t pos
  let a ← pushBack c a x
  let b ← drop c t pos
  concat c a b

/-- `insert(pos, flex_vector)` (flex_vector.hpp 449-452) -/
def insertAll (t : Tree T) (pos : Nat) (u : Tree T) : Option (Tree T) := do
  let a ← take c t pos
  let a ← concat c a u
  let b ← drop c t pos
  concat c a b

/-- `erase(pos)` (flex_vector.hpp 475-478) -/
def erase (t : Tree T) (pos : Nat) : Option (Tree T) := do
  let a ← take c t pos
  let b ← drop c t (pos + 1)
  concat c a b

/-- `erase(pos, lpos)` (flex_vector.hpp 485-488) -/
def eraseRange (t : Tree T) (pos lpos : Nat) : Option (Tree T) :=
  if pos < lpos then do
    let a ← take c t pos
    let b ← drop c t lpos
    concat c a b
  else some t

section
variable {σ : Type} (fn : List T → σ → Bool × σ)

/-- `for_each_chunk(fn)`, `for_each_chunk_p(fn)` (251-269) through `traverse`, `traverse_p` (176-240) -/
def forEachChunk (t : Tree T) (s : σ) : Option (Bool × σ) := do
  let off ← tailOffset c t
  andP (fun s => if off ≠ 0 then do
        let p ← Pos.maybeRelaxedSub t.root t.shift off
        chunks c fn (levels c t.shift) p s
      else some (true, s))
    (chunks c fn 0 (.leafSub t.tail (t.size - off))) s

/-- `for_each_chunk(first, last, fn)`, `for_each_chunk_p(first, last, fn)` -/
def forEachChunkI (t : Tree T) (first last : Nat) (s : σ) : Option (Bool × σ) := do
  let off ← tailOffset c t
  andP (fun s => if first < off then do
      let p ← Pos.maybeRelaxedSub t.root t.shift off
      chunksI c fn (levels c t.shift) p first (if last < off then last else off) s
    else some (true, s))
    (fun s => if off < last then
      chunksI c fn 0 (.leafSub t.tail (t.size - off)) (if off < first then first - off else 0)
        (last - off) s
    else some (true, s)) s
end

end Flex

/-! ## Iterators (rrbtree_iterator.hpp) -/

/-- `rrbtree_iterator` (19-61): index and cached region (elements, first index, one past the last index); `none` is the
initial `{nullptr, ~0, ~0}`, for which the test in `dereference` always fails -/
structure FlexIter (T : Type) where
  tree : Tree T
  i : Nat
  cache : Option (List T × Nat × Nat)

namespace FlexIter

/-- constructors (38-48) -/
def begin (t : Tree T) : FlexIter T := ⟨t, 0, none⟩
def end' (t : Tree T) : FlexIter T := ⟨t, t.size, none⟩

/-- `increment` (57-62), undefined at the end -/
def incr (x : FlexIter T) : Option (FlexIter T) := if x.i < x.tree.size then some { x with i := x.i + 1 } else none

/-- `decrement` (64-69), undefined at the beginning -/
def decr (x : FlexIter T) : Option (FlexIter T) := if 0 < x.i then some { x with i := x.i - 1 } else none

/-- `advance` (71-77), undefined outside `[0, size]` -/
def advance (x : FlexIter T) (n : Int) : Option (FlexIter T) :=
  if 0 ≤ (x.i : Int) + n ∧ (x.i : Int) + n ≤ x.tree.size then some { x with i := ((x.i : Int) + n).toNat } else none

/-- `equal` (79) -/
def equal (x y : FlexIter T) : Bool := x.i == y.i

/-- `distance_to` (81-85) -/
def distanceTo (x y : FlexIter T) : Int := if y.i > x.i then ((y.i - x.i : Nat) : Int) else -((x.i - y.i : Nat) : Int)

/-- `dereference` (87-93) -/
def deref (x : FlexIter T) : Option (T × FlexIter T) := do
  let (xs, f, e) ← match x.cache with
    | some (xs, f, e) => if x.i < f ∨ e ≤ x.i then Flex.regionFor c x.tree x.i else some (xs, f, e)
    | none => Flex.regionFor c x.tree x.i
  let v ← xs[x.i - f]?
  some (v, { x with cache := some (xs, f, e) })

end FlexIter

/-! ## Equality (rrbtree.hpp 283-331, operations.hpp 319-455) -/

namespace Pos

/-- `first_sub_inner` (position.hpp 986-995, 1368-1374, 1774-1782) -/
def firstSubInner : Pos T → Option (Pos T)
  | regSub n s size => do
      let cs ← n.inner?
      let x ← cs[0]?
      some (if 2 ^ c.BL ≤ size then full x (s - c.B) else regSub x (s - c.B) size)
  | full n s => do
      let cs ← n.inner?
      let x ← cs[0]?
      some (full x (s - c.B))
  | rel n s sz => do
      let cs ← n.inner?
      let x ← cs[0]?
      let z ← sz[0]?
      maybeRelaxedSub x (s - c.B) z
  | _ => none

/-- `nth_sub` (997-1013, 1376-1384, 1784-1793) -/
def nthSub : Pos T → Nat → Option (Pos T)
  | p@(regSub n s _), i => do
      let cs ← n.inner?
      let x ← cs[i]?
      let z ← p.sizeAt i
      some (if i + 1 < p.count c then kidFull c s x else kidRegSub c s z x)
  | full n s, i => do
      let cs ← n.inner?
      let x ← cs[i]?
      some (kidFull c s x)
  | p@(rel n s _), i => do
      let cs ← n.inner?
      let x ← cs[i]?
      let z ← p.sizeAt i
      kidRel c s z x
  | _, _ => none

/-- `nth_sub_leaf` (1015-1024, 1386-1393, 1795-1802) -/
def nthSubLeaf : Pos T → Nat → Option (Pos T)
  | p@(regSub n _ _), i => do
      let cs ← n.inner?
      let x ← cs[i]?
      let z ← p.sizeAt i
      some (if i + 1 < p.count c then fullLeaf x else leafSub x z)
  | full n _, i => do
      let cs ← n.inner?
      let x ← cs[i]?
      some (fullLeaf x)
  | p@(rel n _ _), i => do
      let cs ← n.inner?
      let x ← cs[i]?
      let z ← p.sizeAt i
      some (leafSub x z)
  | _, _ => none

/-- `is_relaxed_v` (1810-1814) -/
def isRel : Pos T → Bool
  | rel _ _ _ => true
  | _ => false

end Pos

namespace Flex

section
variable (same : Node T → Node T → Bool) (samePtr : List T → List T → Bool) (eq : T → T → Bool)

/-- `iter_t{t} + k` and `*`: the elements of the leaf from index `k` on -/
def iterFrom (t : Tree T) (k : Nat) : Option (List T) := do
  let (xs, f, _) ← regionFor c t k
  some (xs.drop (k - f))

/-- `std::equal(f, f + n, it)` where `it` is an iterator of `t` at index `k` -/
def stdEqualIter (t : Tree T) : List T → Nat → Option Bool
  | [], _ => some true
  | x :: xs, k => do
      let ys ← iterFrom c t k
      let y ← ys.head?
      if eq x y then stdEqualIter t xs (k + 1) else some false

/-- `equal_chunk_p` (operations.hpp 361-374): the state is the index of the iterator.  `f == &*iter` compares addresses:
`samePtr` of what can be read from the two addresses. -/
def equalChunk (t : Tree T) (ch : List T) (k : Nat) : Option (Bool × Nat) := do
  let ys ← iterFrom c t k
  if samePtr ch ys then some (true, k + ch.length)
  else do
    let b ← stdEqualIter c eq t ch k
    some (b, k + ch.length)

/-- `for_each_chunk_p_visitor` with `equal_chunk_p`; the state is `none` after undefined behaviour -/
def equalChunks (t : Tree T) (L : Nat) (p : Pos T) (k : Nat) : Option Bool := do
  let (b, s) ← chunks c (fun ch s => match s.bind (equalChunk c samePtr eq t ch) with
    | some (b, k) => (b, some k)
    | none => (false, none)) L p (some k)
  let _ ← s
  some b

/-- the search for the child of `posr` that starts at `sbl` (operations.hpp 389-391): loop over `j`, with `sbr`.
`fuel` is the number of children left. -/
def findJ (pr : Pos T) (cr sbl : Nat) : Nat → Nat → Nat → Option (Nat × Nat)
  | 0, j, sbr => some (j, sbr)
  | fuel + 1, j, sbr =>
      if j + 1 < cr then do
        let sbr ← pr.sizeBefore j
        if sbr < sbl then findJ pr cr sbl fuel (j + 1) sbr else some (j, sbr)
      else some (j, sbr)

/-- the loop of `visit_relaxed` (operations.hpp 387-404), `n` children of `posl` left, from child `i` -/
def relaxedLoop (v : Pos T → Pos T → Nat → Option Bool) (t : Tree T) (L : Nat) (pl pr : Pos T) (idx : Nat) :
    Nat → Nat → Nat → Nat → Option Bool
  | 0, _, _, _ => some true
  | n + 1, i, j, sbr => do
      let sbl ← pl.sizeBefore i
      let (j, sbr) ← findJ pr (pr.count c) sbl (pr.count c) j sbr
      let res ← if sbl = sbr then do
          let qr ← pr.nthSub c j
          -- `this_aux_t`
          let ql ← if qr.isLeaf then pl.nthSubLeaf c i else pl.nthSub c i
          v ql qr (idx + sbl)
        else do
          let ql ← pl.nthSub c i
          equalChunks c samePtr eq t L ql (idx + sbl)
      if res then relaxedLoop v t L pl pr idx n (i + 1) j sbr else some false

/-- `equals_visitor` on two positions that start at the same index `idx` (operations.hpp 376-437).  `t` is the tree whose
iterator is passed along, the one `posr` belongs to. -/
def equalsV (t : Tree T) : Nat → Pos T → Pos T → Nat → Option Bool
  | 0, pl, pr, idx =>
      if same pl.node pr.node then some true
      else do
        let xs ← pl.node.leaf?
        let xs ← slice xs 0 (pl.count c)
        let ys ← pr.node.leaf?
        let m := min (pl.count c) (pr.count c)
        if ← Vec.stdEqual eq (xs.take m) ys then stdEqualIter c eq t (xs.drop m) (idx + m) else some false
  | L + 1, pl, pr, idx =>
      if pl.isRel ∨ pr.isRel then
        if same pl.node pr.node then some true
        else relaxedLoop c samePtr eq (equalsV t L) t L pl pr idx (pl.count c) 0 0 0
      else if pr.count c ≤ pl.count c then Vec.equalsReg c same eq (L + 1) pl pr.node
      else Vec.equalsReg c same eq (L + 1) pr pl.node

/-- `equals_visitor::rrb::visit_node` (operations.hpp 341-358): descend to the level of the other tree -/
def equalsRrb (t : Tree T) : Nat → Pos T → Node T → Nat → Nat → Option Bool
  | 0, _, _, _, _ => none
  | k + 1, pr, rootl, shiftl, sizel =>
      if shiftl = pr.shift then do
        let pl ← Pos.maybeRelaxedSub rootl shiftl sizel
        equalsV c same samePtr eq t (levels c shiftl) pl pr 0
      else do
        let q ← pr.firstSubInner c
        equalsRrb t k q rootl shiftl sizel

/-- `equals` (rrbtree.hpp 283-331) -/
def equals (t u : Tree T) : Option Bool := do
  if t.size ≠ u.size then some false
  else if t.size = 0 then some true
  else
    let off ← tailOffset c t
    let uoff ← tailOffset c u
    let trees ← if 0 < off ∧ 0 < uoff then
        if t.shift ≤ u.shift then do
          let p ← Pos.maybeRelaxedSub u.root u.shift uoff
          equalsRrb c same samePtr eq u (levels c u.shift) p t.root t.shift off
        else do
          let p ← Pos.maybeRelaxedSub t.root t.shift off
          equalsRrb c same samePtr eq t (levels c t.shift) p u.root u.shift uoff
      else some true
    if trees then
      if off = uoff then Vec.equalsReg c same eq 0 (.leafSub t.tail (t.size - off)) u.tail
      else do
        let xs ← t.tail.leaf?
        let xs ← slice xs 0 (t.size - off)
        if uoff < off then do
          let ys ← u.tail.leaf?
          Vec.stdEqual eq xs (ys.drop (off - uoff))
        else stdEqualIter c eq u xs off
    else some false

end
end Flex
end Rrb
