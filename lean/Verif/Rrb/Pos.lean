import Mathlib.Data.List.Basic

/-!
# Model of the nodes and positions of the radix balanced trees

Source: `immer/detail/rbts/node.hpp`, `immer/detail/rbts/position.hpp`, `immer/detail/rbts/bits.hpp`.

Value level: a node is an inductive tree; sharing and reference counts are not visible here.
`none` is undefined behaviour: reading an array out of bounds, treating a leaf as an inner node or
vice versa, overflowing a node's capacity, or reaching `IMMER_UNREACHABLE`.

A C++ *position* pairs a node with what is known about its size.  Its member templates
(`each`, `towards_oh`, …) take a visitor and call it on child positions.  Here each member is a function
that returns the child positions; the visitors then recurse on them.
-/

namespace Rrb

/-- Template arguments (bits.hpp 18-30): `branches<B> = 2^B` children, `branches<BL> = 2^BL` elements. -/
structure Cfg where
  B : Nat
  BL : Nat
  /-- `IMMER_DESCENT_DEEP` (config.hpp 113-115), 0 unless the user defines it -/
  deep : Bool := false

/-- `node<T, MP, B, BL>` (node.hpp 26-131).  `leaf` holds the constructed elements.  `inner` holds the
children and, if relaxed, the table of cumulative sizes (`relaxed_t`: `d.sizes[0 .. d.count)`). -/
inductive Node (T : Type) where
  | leaf (xs : List T)
  | inner (r : Option (List Nat)) (cs : List (Node T))

variable {T : Type} (c : Cfg)

/-- `inner()` (node.hpp 145-151) -/
def Node.inner? : Node T → Option (List (Node T))
  | .inner _ cs => some cs
  | .leaf _ => none

/-- `leaf()` (node.hpp 173-183) -/
def Node.leaf? : Node T → Option (List T)
  | .leaf xs => some xs
  | .inner _ _ => none

/-- `relaxed()` (node.hpp 161-171) -/
def Node.relaxed? : Node T → Option (Option (List Nat))
  | .inner r _ => some r
  | .leaf _ => none

/-! ## Node construction (node.hpp 202-795) -/

/-- reading the array elements `[i, n)` by pointer increments -/
def slice {α : Type} (cs : List α) (i n : Nat) : Option (List α) :=
  if i ≤ n ∧ n ≤ cs.length then some ((cs.drop i).take (n - i)) else none

/-- `make_inner_n` and filling it (node.hpp 213-218, 347-370): capacity check, then the node -/
def mkInner (cs : List (Node T)) : Option (Node T) :=
  if cs.length ≤ 2 ^ c.B then some (.inner none cs) else none

/-- `make_inner_r_n`/`make_inner_sr_n` and filling it (node.hpp 232-273, 372-457) -/
def mkInnerR (sz : List Nat) (cs : List (Node T)) : Option (Node T) :=
  if cs.length ≤ 2 ^ c.B then some (.inner (some sz) cs) else none

/-- `make_leaf_n` and filling it (node.hpp 330-335, 458-471) -/
def mkLeaf (xs : List T) : Option (Node T) :=
  if xs.length ≤ 2 ^ c.BL then some (.leaf xs) else none

/-- `make_path(shift, node)` (node.hpp 487-503): `levels` inner nodes of one child on top of `node`.
The C++ recursion goes from `shift` down to `endshift = BL - B` in steps of `B`. -/
def mkPath : Nat → Node T → Node T
  | 0, n => n
  | k + 1, n => .inner none [mkPath k n]

/-- `copy_leaf(src, n)` (node.hpp 655-668) -/
def copyLeaf (src : Node T) (n : Nat) : Option (Node T) := do
  let xs ← src.leaf?
  let ys ← slice xs 0 n
  mkLeaf c ys

/-- `copy_leaf(src, idx, last)` (node.hpp 767-780) -/
def copyLeafI (src : Node T) (i n : Nat) : Option (Node T) := do
  let xs ← src.leaf?
  let ys ← slice xs i n
  mkLeaf c ys

/-- `copy_leaf(src1, n1, src2, n2)` (node.hpp 701-724) -/
def copyLeaf2 (a : Node T) (n : Nat) (b : Node T) (m : Nat) : Option (Node T) := do
  let xs ← a.leaf?
  let ys ← slice xs 0 n
  let zs ← b.leaf?
  let ws ← slice zs 0 m
  mkLeaf c (ys ++ ws)

/-- `copy_leaf_emplace` (node.hpp 782-795) -/
def copyLeafEmplace (src : Node T) (n : Nat) (x : T) : Option (Node T) := do
  let xs ← src.leaf?
  let ys ← slice xs 0 n
  mkLeaf c (ys ++ [x])

/-! ## Positions -/

/-- The position classes of position.hpp that carry a size. -/
inductive Pos (T : Type) where
  /-- `leaf_pos` (91-112): a leaf of a regular tree of `size` elements, size taken modulo -/
  | leaf (n : Node T) (size : Nat)
  /-- `leaf_sub_pos` (122-143): a leaf with `count` elements -/
  | leafSub (n : Node T) (count : Nat)
  /-- `full_leaf_pos` (182-202) -/
  | fullLeaf (n : Node T)
  /-- `regular_pos` (211-332): inner node on the right edge of a regular tree of `size` elements -/
  | reg (n : Node T) (shift size : Nat)
  /-- `regular_sub_pos` (775-1031): regular inner node holding exactly `size` elements -/
  | regSub (n : Node T) (shift size : Nat)
  /-- `full_pos` (1138-1400) -/
  | full (n : Node T) (shift : Nat)
  /-- `relaxed_pos` (1411-1790); `sizes` is the table it points to -/
  | rel (n : Node T) (shift : Nat) (sizes : List Nat)

namespace Pos

/-- `node()` -/
def node : Pos T → Node T
  | leaf n _ | leafSub n _ | fullLeaf n | reg n _ _ | regSub n _ _ | full n _ | rel n _ _ => n

/-- `shift()` -/
def shift : Pos T → Nat
  | leaf _ _ | leafSub _ _ | fullLeaf _ => 0
  | reg _ s _ | regSub _ s _ | full _ s | rel _ s _ => s

/-- `count()` (97, 129, 188, 220, 784, 1147, 1422) -/
def count : Pos T → Nat
  | leaf _ size => ((size - 1) &&& (2 ^ c.BL - 1)) + 1
  | leafSub _ k => k
  | fullLeaf _ => 2 ^ c.BL
  | reg _ s size => (((size - 1) >>> s) &&& (2 ^ c.B - 1)) + 1
  | regSub _ s size => ((size - 1) >>> s) + 1
  | full _ _ => 2 ^ c.B
  | rel _ _ sz => sz.length

/-- `size()` (99, 131, 190, 222, 786, 1149, 1424) -/
def size : Pos T → Option Nat
  | leaf _ size => some size
  | leafSub _ k => some k
  | fullLeaf _ => some (2 ^ c.BL)
  | reg _ _ size => some size
  | regSub _ _ size => some size
  | full _ s => some (2 ^ c.B <<< s)
  | rel _ _ sz => sz[sz.length - 1]?

/-- the loop `while (sizes[offset] <= idx) ++offset` of `relaxed_pos::index` (1446-1452), started at
`offset` with the rest of the table; running past the table is undefined behaviour -/
def scan (idx : Nat) : List Nat → Nat → Option Nat
  | [], _ => none
  | s :: ss, off => if s ≤ idx then scan idx ss (off + 1) else some off

/-- `index(idx)` (101, 133, 192, 224, 788, 1151, 1446) -/
def index : Pos T → Nat → Option Nat
  | leaf _ _, idx => some (idx &&& (2 ^ c.BL - 1))
  | leafSub _ _, idx => some (idx &&& (2 ^ c.BL - 1))
  | fullLeaf _, idx => some (idx &&& (2 ^ c.BL - 1))
  | reg _ s _, idx => some ((idx >>> s) &&& (2 ^ c.B - 1))
  | regSub _ s _, idx => some ((idx >>> s) &&& (2 ^ c.B - 1))
  | full _ s, idx => some ((idx >>> s) &&& (2 ^ c.B - 1))
  | rel _ s sz, idx => scan idx (sz.drop (idx >>> s)) (idx >>> s)

/-- `subindex(idx)` (102, 134, 193, 225, 789, 1152, 1426) -/
def subindex : Pos T → Nat → Option Nat
  | leaf _ _, idx => some idx
  | leafSub _ _, idx => some idx
  | fullLeaf _, idx => some idx
  | reg _ s _, idx => some (idx >>> s)
  | regSub _ s _, idx => some (idx >>> s)
  | full _ s, idx => some (idx >>> s)
  | rel _ s sz, idx => scan idx (sz.drop (idx >>> s)) (idx >>> s)

/-- entry `offset - 1` of a size table, 0 for offset 0 (`relaxed_pos::size_before`, 1429-1432) -/
def szBefore (sz : List Nat) : Nat → Option Nat
  | 0 => some 0
  | k + 1 => sz[k]?

/-- `size_before(offset)` (790-793, 1158-1161, 1429-1432); leaf and `regular_pos` have none -/
def sizeBefore : Pos T → Nat → Option Nat
  | regSub _ s _, o => some (o <<< s)
  | full _ s, o => some (o <<< s)
  | rel _ _ sz, o => szBefore sz o
  | _, _ => none

/-- `size(offset)` and `size_sbh(offset, size_before(offset))` (796-808, 1153-1157, 1434-1443) -/
def sizeAt : Pos T → Nat → Option Nat
  | regSub _ s size, o => some (if o = (size - 1) >>> s then size - (o <<< s) else 1 <<< s)
  | full _ s, _ => some (1 <<< s)
  | rel _ _ sz, o => do
      let b ← szBefore sz o
      let e ← sz[o]?
      some (e - b)
  | _, _ => none

/-- `this_size()` (226-229, 794) -/
def thisSize : Pos T → Option Nat
  | reg _ s size => some ((size - 1) % 2 ^ (s + c.B) + 1)
  | regSub _ _ size => some size
  | _ => none

/-! ### Child positions -/

/-- `make_full_leaf_pos(child)` / `make_full_pos(child, shift - B)` depending on `shift == BL` -/
def kidFull (s : Nat) (n : Node T) : Pos T := if s = c.BL then fullLeaf n else full n (s - c.B)

/-- `make_leaf_pos(child, size)` / `make_regular_pos(child, shift - B, size)` -/
def kidReg (s size : Nat) (n : Node T) : Pos T := if s = c.BL then leaf n size else reg n (s - c.B) size

/-- `make_leaf_sub_pos(child, size)` / `make_regular_sub_pos(child, shift - B, size)` -/
def kidRegSub (s size : Nat) (n : Node T) : Pos T :=
  if s = c.BL then leafSub n size else regSub n (s - c.B) size

/-- the position `visit_maybe_relaxed_sub(node, shift, size, …)` visits (1807-1820) -/
def maybeRelaxedSub (n : Node T) (s size : Nat) : Option (Pos T) := do
  let r ← n.relaxed?
  match r with
  | some sz => some (rel n s sz)
  | none => some (regSub n s size)

/-- `make_leaf_sub_pos(child, size)` / `visit_maybe_relaxed_sub(child, shift - B, size, …)` -/
def kidRel (s size : Nat) (n : Node T) : Option (Pos T) :=
  if s = c.BL then some (leafSub n size) else maybeRelaxedSub n (s - c.B) size

/-- the child `k` of a relaxed position, as visited by the loops of `relaxed_pos` -/
def relKid (s : Nat) (sz : List Nat) (cs : List (Node T)) (k : Nat) : Option (Pos T) := do
  let x ← cs[k]?
  let b ← szBefore sz k
  let e ← sz[k]?
  kidRel c s (e - b) x

/-- the children `[i, n)` of a relaxed position (the loops at 1471-1493, 1496-1523, 1526-1549,
1552-1580, 1583-1608, 1624-1650, 1659-1685) -/
def relKids (s : Nat) (sz : List Nat) (cs : List (Node T)) (i n : Nat) : Option (List (Pos T)) :=
  (List.range' i (n - i)).mapM (relKid c s sz cs)

/-- `each_regular`, `each_pred_regular` (335-378) -/
def eachRegular (n : Node T) (s size cnt : Nat) : Option (List (Pos T)) := do
  let cs ← n.inner?
  let pre ← slice cs 0 (cnt - 1)
  let e ← cs[cnt - 1]?
  some (pre.map (kidFull c s) ++ [kidReg c s size e])

/-- `each`, `each_pred` (235-245, 335-378, 828-838, 1173-1206, 1466-1493) -/
def each : Pos T → Option (List (Pos T))
  | reg n s size => eachRegular c n s size (count c (reg n s size))
  | regSub n s size => eachRegular c n s size (count c (regSub n s size))
  | full n s => do
      let cs ← n.inner?
      let ks ← slice cs 0 (2 ^ c.B)
      some (ks.map (kidFull c s))
  | rel n s sz => do
      let cs ← n.inner?
      relKids c s sz cs 0 sz.length
  | _ => none

/-- `each_left(v, n)`, `each_pred_left(v, n)` (467-489, 570-590, 1262-1266, 1294-1298, 1526-1549, 1624-1645) -/
def eachLeft : Pos T → Nat → Option (List (Pos T))
  | full n s, k => do
      let cs ← n.inner?
      let ks ← slice cs 0 k
      some (ks.map (kidFull c s))
  | rel n s sz, k => do
      let cs ← n.inner?
      relKids c s sz cs 0 k
  | p@(reg n s _), k => do
      if k < p.count c then
        let cs ← n.inner?
        let ks ← slice cs 0 k
        some (ks.map (kidFull c s))
      else none
  | p@(regSub n s _), k => do
      if k < p.count c then
        let cs ← n.inner?
        let ks ← slice cs 0 k
        some (ks.map (kidFull c s))
      else none
  | _, _ => none

/-- `each_right_regular`, `each_pred_right_regular` (491-523, 592-620): nothing if `start` is past the
last child -/
def eachRightRegular (n : Node T) (s size cnt start : Nat) : Option (List (Pos T)) := do
  let cs ← n.inner?
  if start ≤ cnt - 1 then
    let pre ← slice cs start (cnt - 1)
    let e ← cs[cnt - 1]?
    some (pre.map (kidFull c s) ++ [kidReg c s size e])
  else some []

/-- `each_right(v, start)`, `each_pred_right(v, start)` (…, 1256-1260, 1288-1292, 1552-1580, 1659-1685) -/
def eachRight : Pos T → Nat → Option (List (Pos T))
  | reg n s size, st => eachRightRegular c n s size (count c (reg n s size)) st
  | regSub n s size, st => eachRightRegular c n s size (count c (regSub n s size)) st
  | full n s, st => do
      let cs ← n.inner?
      let ks ← slice cs st (2 ^ c.B)
      some (ks.map (kidFull c s))
  | rel n s sz, st => do
      let cs ← n.inner?
      if 0 < st ∧ st ≤ sz.length then relKids c s sz cs st sz.length else none
  | _, _ => none

/-- `each_i_regular`, `each_pred_i_regular` (412-465, 525-568) -/
def eachIRegular (n : Node T) (s size cnt f l : Nat) : Option (List (Pos T)) := do
  let cs ← n.inner?
  if f < l then
    if l < cnt then
      let ks ← slice cs f l
      some (ks.map (kidFull c s))
    else
      let pre ← slice cs f (l - 1)
      let e ← cs[l - 1]?
      some (pre.map (kidFull c s) ++ [kidReg c s size e])
  else some []

/-- `each_i(v, f, l)`, `each_pred_i(v, f, l)` (…, 1228-1254, 1496-1523, 1583-1608) -/
def eachI : Pos T → Nat → Nat → Option (List (Pos T))
  | reg n s size, f, l => eachIRegular c n s size (count c (reg n s size)) f l
  | regSub n s size, f, l => eachIRegular c n s size (count c (regSub n s size)) f l
  | full n s, f, l => do
      let cs ← n.inner?
      let ks ← slice cs f l
      some (ks.map (kidFull c s))
  | rel n s sz, f, l => do
      let cs ← n.inner?
      relKids c s sz cs f l
  | _, _, _ => none

/-- `towards_oh_ch_regular` (622-644) -/
def towardsRegular (n : Node T) (s size cnt : Nat) (off : Nat) : Option (Pos T) := do
  let cs ← n.inner?
  let x ← cs[off]?
  some (if off + 1 ≠ cnt then kidFull c s x else kidReg c s size x)

/-- `towards_oh(v, idx, offset)` (280-286, 902-908, 1315-1323, 1692-1703): the child position and the
index passed to it.  `towards_oh_ch` and `towards` are the same with the hints computed by the caller. -/
def towardsOh : Pos T → Nat → Nat → Option (Pos T × Nat)
  | reg n s size, idx, off => (towardsRegular c n s size (count c (reg n s size)) off).map (·, idx)
  | regSub n s size, idx, off => (towardsRegular c n s size (count c (regSub n s size)) off).map (·, idx)
  | full n s, idx, off => do
      let cs ← n.inner?
      let x ← cs[off]?
      some (kidFull c s x, idx)
  | rel n s sz, idx, off => do
      let cs ← n.inner?
      let b ← szBefore sz off
      let q ← relKid c s sz cs off
      some (q, idx - b)
  | _, _, _ => none

/-- `offset << shift` computed in `count_t` (32 bits): `lsize` of `towards_sub_oh_regular` (657) and of
`each_right_sub_` (873).  Shifting by the width or more is undefined. -/
def shl32 (o s : Nat) : Option Nat := if s < 32 then some ((o <<< s) % 2 ^ 32) else none

/-- `towards_sub_oh_regular` (646-672) -/
def towardsSubRegular (n : Node T) (s size : Nat) (idx off : Nat) : Option (Pos T × Nat) := do
  let cs ← n.inner?
  let x ← cs[off]?
  let lsize ← shl32 off s
  some (if 1 <<< s ≤ size - lsize then kidFull c s x else kidRegSub c s (size - lsize) x, idx - lsize)

/-- `towards_sub_oh(v, idx, offset)` (298-303, 921-925, 1325-1336, 1715-1722): children get exact sizes
and relative indices -/
def towardsSubOh : Pos T → Nat → Nat → Option (Pos T × Nat)
  | p@(reg n s _), idx, off => do
      let t ← p.thisSize c
      towardsSubRegular c n s t idx off
  | regSub n s size, idx, off => towardsSubRegular c n s size idx off
  | full n s, idx, off => do
      let cs ← n.inner?
      let x ← cs[off]?
      some (kidFull c s x, idx - (off <<< s))
  | rel n s sz, idx, off => do
      let cs ← n.inner?
      let b ← szBefore sz off
      let q ← relKid c s sz cs off
      some (q, idx - b)
  | _, _, _ => none

/-- `last_oh(v, offset)` (305-309, 674-688, 927-931), regular positions only -/
def lastOh : Pos T → Nat → Option (Pos T)
  | reg n s size, off => do
      let cs ← n.inner?
      let x ← cs[off]?
      some (kidReg c s size x)
  | regSub n s size, off => do
      let cs ← n.inner?
      let x ← cs[off]?
      some (kidReg c s size x)
  | _, _ => none

/-- `last_oh_csh(v, offset, child_size)` (1744-1758), relaxed positions only -/
def lastOhCsh : Pos T → Nat → Nat → Option (Pos T)
  | rel n s _, off, csz => do
      let cs ← n.inner?
      let x ← cs[off]?
      kidRel c s csz x
  | _, _, _ => none

end Pos
end Rrb
