import Verif.Rrb.Visit

/-!
# Model of concatenation: `immer/detail/rbts/operations.hpp` 1461-2004

Persistent versions (`concat_trees`).  Reference counts, and the cleanup after exceptions, are not visible at this level.
-/

namespace Rrb

variable {T : Type} (c : Cfg)

/-! ## Child positions with exact sizes (position.hpp, members `*_sub`) -/

namespace Pos

/-- leaf positions: their visit calls `visit_leaf` -/
def isLeaf : Pos T → Bool
  | leaf _ _ | leafSub _ _ | fullLeaf _ => true
  | _ => false

/-- `each_right_sub_(v, i)` of `regular_sub_pos` (869-888): `last << shift_` is computed in 32 bits -/
def eachRightSubI (n : Node T) (s size i : Nat) : Option (List (Pos T)) := do
  let last := count c (regSub n s size) - 1
  let l ← shl32 last s
  let cs ← n.inner?
  let pre ← slice cs i last
  let e ← cs[last]?
  some (pre.map (kidFull c s) ++ [kidRegSub c s (size - l) e])

/-- `each_right_sub` (896-901, 1294-1298, 1637-1641): all children but the first -/
def eachRightSub : Pos T → Option (List (Pos T))
  | regSub n s size => if 1 < count c (regSub n s size) then eachRightSubI c n s size 1 else some []
  | full n s => do
      let cs ← n.inner?
      let ks ← slice cs 1 (2 ^ c.B)
      some (ks.map (kidFull c s))
  | p@(rel _ _ _) => p.eachRight c 1
  | _ => none

/-- `each_left_sub` (903-907, 1607-1611): all children but the last.  `full_pos` has one too but no `last_sub`, so it
is never the left operand. -/
def eachLeftSub : Pos T → Option (List (Pos T))
  | p@(regSub _ _ _) => p.eachLeft c (p.count c - 1)
  | p@(rel _ _ sz) => p.eachLeft c (sz.length - 1)
  | _ => none

/-- `last_sub` (948-958, 1740-1750) -/
def lastSub : Pos T → Option (Pos T)
  | p@(regSub n s size) => do
      let cs ← n.inner?
      let off := p.count c - 1
      let x ← cs[off]?
      some (kidRegSub c s (size - (off <<< s)) x)
  | p@(rel n s sz) => do
      let cs ← n.inner?
      let x ← cs[sz.length - 1]?
      let z ← p.sizeAt (sz.length - 1)
      kidRel c s z x
  | _ => none

/-- `first_sub` (960-974, 1351-1358, 1752-1763) -/
def firstSub : Pos T → Option (Pos T)
  | regSub n s size => do
      let cs ← n.inner?
      let x ← cs[0]?
      some (if 1 <<< s ≤ size then kidFull c s x else kidRegSub c s size x)
  | full n s => do
      let cs ← n.inner?
      let x ← cs[0]?
      some (kidFull c s x)
  | rel n s sz => do
      let cs ← n.inner?
      let x ← cs[0]?
      let z ← sz[0]?
      kidRel c s z x
  | _ => none

/-- `first_sub_leaf` (976-984, 1360-1366, 1765-1772) -/
def firstSubLeaf : Pos T → Option (Pos T)
  | regSub n _ size => do
      let cs ← n.inner?
      let x ← cs[0]?
      some (if 2 ^ c.BL ≤ size then fullLeaf x else leafSub x size)
  | full n _ => do
      let cs ← n.inner?
      let x ← cs[0]?
      some (fullLeaf x)
  | rel n _ sz => do
      let cs ← n.inner?
      let x ← cs[0]?
      let z ← sz[0]?
      some (leafSub x z)
  | _ => none

end Pos

/-- left operands: positions with sizes, and `singleton_regular_sub_pos` (position.hpp 713-762), a leaf posing as the only
child of an inner node -/
inductive LPos (T : Type) where
  | pos (p : Pos T)
  | single (leaf : Node T) (count : Nat)

namespace LPos

def shift : LPos T → Nat
  | pos p => p.shift
  | single _ _ => c.BL

def lastSub : LPos T → Option (Pos T)
  | pos p => p.lastSub c
  | single n k => some (.leafSub n k)

def eachLeftSub : LPos T → Option (List (Pos T))
  | pos p => p.eachLeftSub c
  | single _ _ => some []

end LPos

/-! ## `concat_center_pos` (1461-1557) -/

/-- up to three nodes with cumulative sizes -/
structure Center (T : Type) where
  shift : Nat
  nodes : List (Node T)
  sizes : List Nat

namespace Center

/-- `each_sub` (1505-1520) -/
def eachSub (x : Center T) : Option (List (Pos T)) :=
  (List.range x.nodes.length).mapM fun i => do
    let n ← x.nodes[i]?
    if x.shift = c.BL then
      let b ← Pos.szBefore x.sizes i
      let e ← x.sizes[i]?
      some (.leafSub n (e - b))
    else
      match ← n.relaxed? with
      | some sz => some (.rel n (x.shift - c.B) sz)
      | none => none

/-- `realize` (1522-1541): shift and node of the resulting relaxed position -/
def realize (x : Center T) : Option (Nat × Node T) :=
  if 1 < x.nodes.length then do
    let n ← mkInnerR c x.sizes x.nodes
    some (x.shift, n)
  else do
    let n ← x.nodes[0]?
    some (x.shift - c.B, n)

end Center

/-! ## The rebalancing plan (1721-1814) -/

namespace Plan

/-- `fill` (1721-1754): slot counts of all nodes; the array has `2 * branches<B> + 1` entries -/
def fill (ps : List (Pos T)) : Option (List Nat) :=
  if ps.length ≤ 2 * 2 ^ c.B + 1 then some (ps.map (·.count c)) else none

/-- `while (counts[i] > branches - rrb_invariant) i++` (1769-1771), over `counts[i..n)`; reading past the counts is an error -/
def skip (br : Nat) : List Nat → Nat → Option Nat
  | [], _ => none
  | x :: xs, i => if br - 1 < x then skip br xs (i + 1) else some i

/-- the `do … while (remaining > 0)` loop (1774-1782), over `counts[i+1..n)`: the counts it writes and the counts after the last one it read -/
def redist (br : Nat) : Nat → List Nat → Option (List Nat × List Nat)
  | _, [] => none
  | remaining, next :: rest =>
      let count := min (remaining + next) br
      let remaining := remaining + next - count
      if 0 < remaining then (redist br remaining rest).map fun (w, r) => (count :: w, r)
      else some ([count], rest)

/-- `while (n >= optimal + rrb_extras)` (1768-1787).  `fuel` bounds the iterations; running out would be an infinite loop. -/
def loop (br optimal : Nat) : Nat → List Nat → Nat → Option (List Nat)
  | 0, _, _ => none
  | fuel + 1, counts, i =>
      if optimal + 2 ≤ counts.length then do
        let i ← skip br (counts.drop i) i
        let remaining ← counts[i]?
        let (w, r) ← redist br remaining (counts.drop (i + 1))
        loop br optimal fuel (counts.take i ++ w ++ r) (i + w.length - 1)
      else some counts

/-- `shuffle(shift)` (1756-1792) -/
def shuffle (shift : Nat) (counts : List Nat) : Option (List Nat) :=
  let bits := if shift = c.BL then c.BL else c.B
  let total := counts.sum
  let optimal := ((total - 1) >>> bits) + 1
  loop (2 ^ bits) optimal (counts.length + 1) counts 0

end Plan

/-! ## `concat_merger` (1559-1702) -/

/-- state of the merger: counts still to be produced (`curr_`), `n_`, the finished parents and their cumulative sizes, the
parent being filled (`relaxed()->d.sizes`, `inner()`), the cumulative size, and the node being filled (`to_`), which is a
leaf or an inner node depending on the level -/
structure Merger (T : Type) where
  curr : List Nat
  n : Nat
  prev : List (Node T)
  prevSizes : List Nat
  sz : List Nat
  cs : List (Node T)
  size : Nat
  toLeaf : Option (List T)
  toInner : Option (List Nat × List (Node T))

namespace Merger

/-- constructor (1572-1578) -/
def init (counts : List Nat) : Merger T := ⟨counts, counts.length, [], [], [], [], 0, none, none⟩

/-- last lines of `add_child` (1600-1605); the parent was allocated with room for `min(n_, branches<B>)` children -/
def put (m : Merger T) (p : Node T) (size : Nat) : Option (Merger T) :=
  if m.cs.length < min m.n (2 ^ c.B) then do
    let b ← Pos.szBefore m.sz m.sz.length
    some { m with cs := m.cs ++ [p], sz := m.sz ++ [size + b], size := m.size + size }
  else none

/-- `add_child` (1584-1606) -/
def addChild (m : Merger T) (p : Node T) (size : Nat) : Option (Merger T) :=
  let m := { m with curr := m.curr.tail }
  if m.sz.length = 2 ^ c.B then
    if m.prev.length + 1 < 3 then
      put c { m with n := m.n - 2 ^ c.B, prev := m.prev ++ [.inner (some m.sz) m.cs],
                     prevSizes := m.prevSizes ++ [m.size], sz := [], cs := [] } p size
    else none
  else put c m p size

/-- the copying loop of `merge_leaf` (1621-1640) on the elements not yet copied -/
def leafLoop : Nat → Merger T → List T → Option (Merger T)
  | 0, _, _ => none
  | fuel + 1, m, xs => do
      let count ← m.curr.head?
      let dst := m.toLeaf.getD []
      let k := min xs.length (count - dst.length)
      let dst := dst ++ xs.take k
      let m ← if count = dst.length then do
          let n ← mkLeaf c dst
          let m ← addChild c m n dst.length
          some { m with toLeaf := none }
        else some { m with toLeaf := some dst }
      if k = xs.length then some m else leafLoop fuel m (xs.drop k)

/-- `merge_leaf` (1608-1642) -/
def mergeLeaf (m : Merger T) (p : Pos T) : Option (Merger T) := do
  let fromSize ← p.size c
  let fromCount := p.count c
  let count ← m.curr.head?
  if m.toLeaf.isNone ∧ count = fromCount then addChild c m p.node fromSize
  else do
    let xs ← p.node.leaf?
    let xs ← slice xs 0 fromCount
    leafLoop c (fromCount + 1) m xs

/-- the copying loop of `merge_inner` (1654-1682) on the children from `off` on -/
def innerLoop (p : Pos T) : Nat → Merger T → Nat → List (Node T) → Option (Merger T)
  | 0, _, _, _ => none
  | fuel + 1, m, off, xs => do
      let count ← m.curr.head?
      let (tsz, tcs) := m.toInner.getD ([], [])
      let k := min xs.length (count - tcs.length)
      let tcs := tcs ++ xs.take k
      let ss ← copySizes p off k (tsz.getLast?.getD 0)
      let tsz := tsz ++ ss
      let toSize ← tsz.getLast?
      let m ← if count = tcs.length then do
          let n ← mkInnerR c tsz tcs
          let m ← addChild c m n toSize
          some { m with toInner := none }
        else some { m with toInner := some (tsz, tcs) }
      if k = xs.length then some m else innerLoop p fuel m (off + k) (xs.drop k)

/-- `merge_inner` (1644-1684) -/
def mergeInner (m : Merger T) (p : Pos T) : Option (Merger T) := do
  let fromSize ← p.size c
  let fromCount := p.count c
  let count ← m.curr.head?
  if m.toInner.isNone ∧ count = fromCount then addChild c m p.node fromSize
  else do
    let xs ← p.node.inner?
    let xs ← slice xs 0 fromCount
    innerLoop c p (fromCount + 1) m 0 xs

/-- `concat_merger_visitor` (1704-1719) -/
def visit (m : Merger T) (p : Pos T) : Option (Merger T) :=
  if p.isLeaf then mergeLeaf c m p else mergeInner c m p

/-- `finish` (1686-1690): asserts that nothing is left over -/
def finish (m : Merger T) (shift : Nat) : Option (Center T) :=
  if m.toLeaf.isNone ∧ m.toInner.isNone then
    some ⟨shift + c.B, m.prev ++ [.inner (some m.sz) m.cs], m.prevSizes ++ [m.size]⟩
  else none

end Merger

/-- `concat_rebalance` (1816-1829) with `merge` (1794-1813); `ls`, `rs` are what `each_left_sub` and `each_right_sub` visit -/
def concatRebalance (ls : List (Pos T)) (x : Center T) (rs : List (Pos T)) : Option (Center T) := do
  let xs ← x.eachSub c
  let ps := ls ++ xs ++ rs
  let counts ← Plan.fill c ps
  let counts ← Plan.shuffle c x.shift counts
  let m ← ps.foldlM (Merger.visit c) (Merger.init counts)
  m.finish c x.shift

/-- `concat_leafs` (1831-1857); no tail position is `empty_leaf_pos` -/
def concatLeafs (l : Pos T) (t : Option (Pos T)) (r : Pos T) : Option (Center T) :=
  if l.isLeaf ∧ r.isLeaf then
    match t with
    | some t =>
        if 0 < t.count c then
          some ⟨c.BL, [l.node, t.node, r.node],
            [l.count c, l.count c + t.count c, l.count c + t.count c + r.count c]⟩
        else some ⟨c.BL, [l.node, r.node], [l.count c, l.count c + r.count c]⟩
    | none => some ⟨c.BL, [l.node, r.node], [l.count c, l.count c + r.count c]⟩
  else none

/-- `concat_inners` (1865-1882) with `concat_left_visitor`, `concat_right_visitor`, `concat_both_visitor` (1884-1942).
`fuel` is the number of levels of both operands. -/
def concatInners : Nat → LPos T → Option (Pos T) → Pos T → Option (Center T)
  | 0, _, _, _ => none
  | fuel + 1, l, t, r => do
      if r.shift < l.shift c then
        let q ← l.lastSub c
        -- `concat_left_visitor`: a leaf is `IMMER_UNREACHABLE`
        let x ← if q.isLeaf then none else concatInners fuel (.pos q) t r
        let ls ← l.eachLeftSub c
        concatRebalance c ls x []
      else if l.shift c < r.shift then
        let q ← r.firstSub c
        -- `concat_right_visitor`
        let x ← if q.isLeaf then (match l with | .pos p => concatLeafs c p t q | .single _ _ => none)
          else concatInners fuel l t q
        let rs ← r.eachRightSub c
        concatRebalance c [] x rs
      else
        let q ← l.lastSub c
        -- `concat_both_visitor`, then `concat_right_visitor`
        let x ← if q.isLeaf then do
            let q' ← r.firstSubLeaf c
            concatLeafs c q t q'
          else do
            let q' ← r.firstSub c
            if q'.isLeaf then concatLeafs c q t q' else concatInners fuel (.pos q) t q'
        let ls ← l.eachLeftSub c
        let rs ← r.eachRightSub c
        concatRebalance c ls x rs

/-- `concat_trees(lroot, lshift, lsize, ltail, ltcount, rroot, rshift, rsize)` (1972-1991) with the visitors at 1944-1970 -/
def concatTrees (lroot : Node T) (lshift lsize : Nat) (ltail : Node T) (ltcount : Nat) (rroot : Node T)
    (rshift rsize : Nat) : Option (Nat × Node T) := do
  let l ← Pos.maybeRelaxedSub lroot lshift lsize
  let r ← Pos.maybeRelaxedSub rroot rshift rsize
  let x ← concatInners c (levels c lshift + levels c rshift) (.pos l) (some (.leaf ltail ltcount)) r
  x.realize c

/-- `concat_trees(ltail, ltcount, rroot, rshift, rsize)` (1993-2004) -/
def concatTreesTail (ltail : Node T) (ltcount : Nat) (rroot : Node T) (rshift rsize : Nat) : Option (Nat × Node T) := do
  let r ← Pos.maybeRelaxedSub rroot rshift rsize
  let x ← concatInners c (1 + levels c rshift) (.single ltail ltcount) none r
  x.realize c

end Rrb
