/-!
# Model of `dvektor` (immer/experimental/detail/dvektor_impl.hpp)

A vector with a *display*: pointers to the nodes on the path to the element that was used last (the focus).  Line numbers refer to
`dvektor_impl.hpp`.

Memory is a list of nodes; an address is a position in it.  `boost::intrusive_ptr` is not modelled: nodes are never freed.  All
operations return `none` where the code dereferences a null pointer, takes a leaf for an inner node or an inner node for a leaf, reads or writes
outside an array, or runs into `IMMER_UNREACHABLE`.  Numbers do not wrap (sizes are bounded in the theorems).  Exceptions are not modelled.
-/

namespace Dv

/-- `node` (55-139) -/
inductive Node (T : Type) where
  | leaf (xs : List T)
  | inner (ps : List (Option Nat))

abbrev Mem (T : Type) := List (Node T)

/-- `display` (156) -/
abbrev Disp := Nat → Option Nat

def upd (D : Disp) (i : Nat) (p : Option Nat) : Disp := fun j => if j = i then p else D j

variable {T : Type} (B : Nat)

/-- `max_depth` (39-41): `fast_log2(2^64 - 1) / B` -/
def maxDepth : Nat := 63 / B

/-- `(index >> shift) & mask<B>` -/
def dig (index shift : Nat) : Nat := (index >>> shift) &&& (2 ^ B - 1)

/-- `fast_log2(xr) / B` (28-31) -/
def displayIdx (xr : Nat) : Nat := Nat.log2 xr / B

/-- `index & ~mask<B>` -/
def block (index : Nat) : Nat := (index >>> B) <<< B

/-- `p->inner()` (108-122) -/
def inner (m : Mem T) (p : Option Nat) : Option (List (Option Nat)) :=
  match p.bind fun a => m[a]? with
  | some (.inner ps) => some ps
  | _ => none

/-- `p->leaf()` (124-138) -/
def leaf (m : Mem T) (p : Option Nat) : Option (List T) :=
  match p.bind fun a => m[a]? with
  | some (.leaf xs) => some xs
  | _ => none

/-- `p->inner()[i] = q` -/
def setSlot (m : Mem T) (p : Option Nat) (i : Nat) (q : Option Nat) : Option (Mem T) :=
  (inner m p).bind fun ps => p.bind fun a => if i < ps.length then some (m.set a (.inner (ps.set i q))) else none

/-- `p->leaf()[i] = x` -/
def setElem (m : Mem T) (p : Option Nat) (i : Nat) (x : T) : Option (Mem T) :=
  (leaf m p).bind fun xs => p.bind fun a => if i < xs.length then some (m.set a (.leaf (xs.set i x))) else none

/-- `make_node` (141-145) -/
def mk (m : Mem T) (n : Node T) : Mem T × Nat := (m ++ [n], m.length)

/-- the loop of `get_elem` (169-172) and what follows -/
def descend (m : Mem T) (index : Nat) : Nat → Option Nat → Nat → Option T
  | 0, p, _ => (leaf m p).bind fun xs => xs[dig B index 0]?
  | d + 1, p, shift => (inner m p).bind fun ps => ps[dig B index shift]?.bind fun q => descend m index d q (shift - B)

/-- `get_elem` (164-174) -/
def getElem (m : Mem T) (D : Disp) (index xr : Nat) : Option T :=
  descend B m index (displayIdx B xr) (D (displayIdx B xr)) (displayIdx B xr * B)

/-- `copy_of_inner` (192-195) -/
def copyOfInner (m : Mem T) (p : Option Nat) : Option (Mem T × Nat) := (inner m p).map fun ps => mk m (.inner ps)

/-- `copy_of_leaf` (197-200) -/
def copyOfLeaf (m : Mem T) (p : Option Nat) : Option (Mem T × Nat) := (leaf m p).map fun xs => mk m (.leaf xs)

/-- `null_slot_and_copy_inner` (176-182) -/
def nullSlotAndCopyInner (m : Mem T) (p : Option Nat) (idx : Nat) : Option (Mem T × Nat) :=
  (inner m p).bind fun ps => ps[idx]?.bind fun x => (setSlot m p idx none).bind fun m => copyOfInner m x

/-- `null_slot_and_copy_leaf` (184-190) -/
def nullSlotAndCopyLeaf (m : Mem T) (p : Option Nat) (idx : Nat) : Option (Mem T × Nat) :=
  (inner m p).bind fun ps => ps[idx]?.bind fun x => (setSlot m p idx none).bind fun m => copyOfLeaf m x

/-- `n` rounds of the loops of `stabilize` (205-209) and `goto_pos_writable_from_dirty` (244-249), from `i` on -/
def stab (index : Nat) : Nat → Nat → Nat → Mem T → Disp → Option (Mem T × Disp)
  | 0, _, _, m, D => some (m, D)
  | n + 1, i, shift, m, D =>
      (copyOfInner m (D i)).bind fun (m, p) => (setSlot m (some p) (dig B index shift) (D (i - 1))).bind fun m =>
        stab index n (i + 1) (shift + B) m (upd D i (some p))

/-- `stabilize` (202-210) -/
def stabilize (depth index : Nat) (m : Mem T) (D : Disp) : Option (Mem T × Disp) := stab B index (depth - 1) 1 B m D

/-- `goto_pos_writable_from_clean` (212-232); with more than one level it is `IMMER_UNREACHABLE` -/
def gotoWritableFromClean (depth : Nat) (m : Mem T) (D : Disp) : Option (Mem T × Disp) :=
  if depth = 1 then (copyOfLeaf m (D 0)).map fun (m, p) => (m, upd D 0 (some p)) else none

/-- the second loop of `goto_pos_writable_from_dirty` (250-254); `i` is the loop variable -/
def walk (new : Nat) : Nat → Nat → Mem T → Disp → Option (Mem T × Disp)
  | 0, _, m, D => some (m, D)
  | i + 1, shift, m, D =>
      (nullSlotAndCopyInner m (D (i + 2)) (dig B new (shift - B))).bind fun (m, p) =>
        walk new i (shift - B) m (upd D (i + 1) (some p))

/-- `goto_pos_writable_from_dirty` (234-258) -/
def gotoWritableFromDirty (old new xr : Nat) (m : Mem T) (D : Disp) : Option (Mem T × Disp) :=
  if xr < 2 ^ B then (copyOfLeaf m (D 0)).map fun (m, p) => (m, upd D 0 (some p))
  else
    (stab B old (displayIdx B xr) 1 B m D).bind fun (m, D) =>
      (walk B new (displayIdx B xr - 1) (B + displayIdx B xr * B) m D).bind fun (m, D) =>
        (nullSlotAndCopyLeaf m (D 1) (dig B new B)).map fun (m, p) => (m, upd D 0 (some p))

/-- the loop of `goto_fresh_pos_writable_from_clean` (273-278); `i` is the loop variable; `shift` stays as it is -/
def freshLoop (new shift : Nat) : Nat → Mem T → Disp → Option (Mem T × Disp)
  | 0, m, D => some (m, D)
  | i + 1, m, D =>
      (inner m (D (i + 2))).bind fun ps => ps[dig B new shift]?.bind fun node =>
        match node with
        | some q => freshLoop new shift i m (upd D (i + 1) (some q))
        | none => freshLoop new shift i (m ++ [.inner (List.replicate (2 ^ B) none)]) (upd D (i + 1) (some m.length))

/-- the new root (267-272) -/
def newRoot (old k depth : Nat) (m : Mem T) (D : Disp) : Option (Mem T × Disp × Nat) :=
  if k = depth then
    if k < maxDepth B then
      (setSlot (m ++ [.inner (List.replicate (2 ^ B) none)]) (some m.length) (dig B old (k * B)) (D (k - 1))).map fun m' =>
        (m', upd D k (some m.length), depth + 1)
    else none
  else some (m, D, depth)

variable [Inhabited T]

/-- `goto_fresh_pos_writable_from_clean` (260-281): also gives the depth -/
def gotoFreshFromClean (old new xr depth : Nat) (m : Mem T) (D : Disp) : Option (Mem T × Disp × Nat) :=
  if 0 < displayIdx B xr then
    (newRoot B old (displayIdx B xr) depth m D).bind fun (m, D, depth) =>
      (freshLoop B new (displayIdx B xr * B) (displayIdx B xr - 1) m D).map fun (m, D) =>
        (m ++ [.leaf (List.replicate (2 ^ B) default)], upd D 0 (some m.length), depth)
  else some (m, D, depth)

/-- `goto_fresh_pos_writable_from_dirty` (283-289) -/
def gotoFreshFromDirty (old new xr depth : Nat) (m : Mem T) (D : Disp) : Option (Mem T × Disp × Nat) :=
  (stabilize B depth old m D).bind fun (m, D) => gotoFreshFromClean B old new xr depth m D

/-- `impl` (317-329) with `ref` (147-156) -/
structure Impl where
  size : Nat
  focus : Nat
  dirty : Bool
  depth : Nat
  display : Disp

/-- `empty` (405-406) -/
def empty : Impl := ⟨0, 0, false, 1, fun _ => none⟩

/-- `goto_pos_writable` (337-347) on a copy of `s` with another size and focus -/
def gotoWritable (s : Impl) (size new : Nat) (m : Mem T) : Option (Mem T × Impl) :=
  if s.dirty then (gotoWritableFromDirty B s.focus new (s.focus ^^^ new) m s.display).map fun (m, D) => (m, ⟨size, new, true, s.depth, D⟩)
  else (gotoWritableFromClean s.depth m s.display).map fun (m, D) => (m, ⟨size, new, true, s.depth, D⟩)

/-- `goto_fresh_pos_writable` (349-359) on a copy of `s` with another size and focus -/
def gotoFresh (s : Impl) (size new : Nat) (m : Mem T) : Option (Mem T × Impl) :=
  (if s.dirty then gotoFreshFromDirty B s.focus new (s.focus ^^^ new) s.depth m s.display
    else gotoFreshFromClean B s.focus new (s.focus ^^^ new) s.depth m s.display).map fun (m, D, depth) => (m, ⟨size, new, true, depth, D⟩)

/-- `push_back` (361-382) -/
def pushBack (s : Impl) (x : T) (m : Mem T) : Option (Mem T × Impl) :=
  if s.size ≠ 0 then
    (if s.size ≠ block B s.size then gotoWritable B s (s.size + 1) (block B s.size) m
      else gotoFresh B s (s.size + 1) (block B s.size) m).bind fun (m, s') =>
        (setElem m (s'.display 0) (dig B s.size 0) x).map fun m => (m, s')
  else some (m ++ [.leaf ((List.replicate (2 ^ B) default).set 0 x)], ⟨1, 0, false, 1, upd (fun _ => none) 0 (some m.length)⟩)

omit [Inhabited T] in
/-- `get` (384-387) -/
def get (s : Impl) (index : Nat) (m : Mem T) : Option T := getElem B m s.display index (index ^^^ s.focus)

omit [Inhabited T] in
/-- `update` (389-397); `assoc` (399-402) is `update` with a constant function -/
def update (s : Impl) (idx : Nat) (f : T → T) (m : Mem T) : Option (Mem T × Impl) :=
  (gotoWritable B s s.size idx m).bind fun (m, s') =>
    (leaf m (s'.display 0)).bind fun xs => xs[dig B idx 0]?.bind fun v =>
      (setElem m (s'.display 0) (dig B idx 0) (f v)).map fun m => (m, s')

/-! ## Iterators (408-500) -/

/-- `p_` (446), `i_`, `base_` and `curr_`, as an index into the leaf -/
structure Iter where
  depth : Nat
  display : Disp
  i : Nat
  base : Nat
  curr : Nat

omit [Inhabited T] in
/-- `goto_pos` (303-314): `display_idx` and `shift` -/
def gotoPosLoop (m : Mem T) (index : Nat) : Nat → Nat → Disp → Option Disp
  | 0, _, D => some D
  | d + 1, shift, D =>
      (inner m (D (d + 1))).bind fun ps => ps[dig B index shift]?.bind fun q => gotoPosLoop m index d (shift - B) (upd D d q)

omit [Inhabited T] in
def gotoPos (m : Mem T) (index xr : Nat) (D : Disp) : Option Disp := gotoPosLoop B m index (displayIdx B xr) (displayIdx B xr * B) D

omit [Inhabited T] in
/-- the loop of `goto_next_block_start` (298-299) -/
def nextLoop (m : Mem T) : Nat → Disp → Option Disp
  | 0, D => some D
  | d + 1, D => (inner m (D (d + 1))).bind fun ps => ps[0]?.bind fun q => nextLoop m d (upd D d q)

omit [Inhabited T] in
/-- `goto_next_block_start` (291-301) -/
def gotoNext (m : Mem T) (index xr : Nat) (D : Disp) : Option Disp :=
  match displayIdx B xr with
  | 0 => some D
  | k + 1 => (inner m (D (k + 1))).bind fun ps => ps[dig B index ((k + 1) * B)]?.bind fun q => nextLoop m k (upd D k q)

omit [Inhabited T] in
/-- `p_.display[0]->leaf().begin() + k`: one past the last element is allowed -/
def leafPos (m : Mem T) (D : Disp) (k : Nat) : Option Nat := (leaf m (D 0)).bind fun xs => if k ≤ xs.length then some k else none

omit [Inhabited T] in
/-- the two constructors (420-440), at block `base` and position `i` -/
def iterAt (s : Impl) (i base : Nat) (m : Mem T) : Option (Mem T × Iter) :=
  (if s.dirty then stabilize B s.depth s.focus m s.display else some (m, s.display)).bind fun (m, D) =>
    (gotoPos B m base (base ^^^ s.focus) D).bind fun D => (leafPos m D (i - base)).map fun k => (m, ⟨s.depth, D, i, base, k⟩)

omit [Inhabited T] in
/-- `begin()` (420-429) -/
def begin (s : Impl) (m : Mem T) : Option (Mem T × Iter) := iterAt B s 0 0 m

omit [Inhabited T] in
/-- `end()` (431-440); with size 0 the block is that of the largest number -/
def fin (s : Impl) (m : Mem T) : Option (Mem T × Iter) :=
  iterAt B s s.size (block B ((s.size + (2 ^ 64 - 1)) % 2 ^ 64)) m

omit [Inhabited T] in
/-- `increment` (451-462) -/
def incr (m : Mem T) (it : Iter) : Option Iter :=
  if it.i + 1 - it.base < 2 ^ B then some { it with i := it.i + 1, curr := it.curr + 1 }
  else
    (gotoNext B m (it.base + 2 ^ B) (it.base ^^^ (it.base + 2 ^ B)) it.display).bind fun D =>
      (leafPos m D 0).map fun k => ⟨it.depth, D, it.i + 1, it.base + 2 ^ B, k⟩

omit [Inhabited T] in
/-- `decrement` (464-476) -/
def decr (m : Mem T) (it : Iter) : Option Iter :=
  if it.i = 0 then none
  else if it.base ≤ it.i - 1 then (if it.curr = 0 then none else some { it with i := it.i - 1, curr := it.curr - 1 })
  else
    (gotoPos B m (it.base - 2 ^ B) (it.base ^^^ (it.base - 2 ^ B)) it.display).bind fun D =>
      (leaf m (D 0)).map fun xs => ⟨it.depth, D, it.i - 1, it.base - 2 ^ B, xs.length - 1⟩

omit [Inhabited T] in
/-- `advance` (478-489) to position `i`.  The test `i_ <= base_ && i_ - base_ < branches<B>` only holds for `i_ == base_`. -/
def advance (m : Mem T) (it : Iter) (i : Nat) : Option Iter :=
  if i ≤ it.base ∧ (i + 2 ^ 64 - it.base) % 2 ^ 64 < 2 ^ B then (if it.i ≤ it.curr + i then some { it with i := i, curr := it.curr + i - it.i } else none)
  else
    (gotoPos B m (block B i) (it.base ^^^ block B i) it.display).bind fun D =>
      (leafPos m D (i - block B i)).map fun k => ⟨it.depth, D, i, block B i, k⟩

omit [Inhabited T] in
/-- `dereference` (499) -/
def deref (m : Mem T) (it : Iter) : Option T := (leaf m (it.display 0)).bind fun xs => xs[it.curr]?

end Dv
