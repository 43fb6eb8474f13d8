import Verif.Rrb.Pos

/-!
# Model of the visitors of `immer/detail/rbts/operations.hpp` (persistent operations)

The visitors recurse from parent to child.  The recursion here is on the level (number of inner levels
still below); a level-0 visit is `visit_leaf`, a level-`L+1` visit is `visit_regular`/`visit_relaxed`
depending on the position.  Visiting a leaf position at level `L+1`, or an inner one at level 0, is
undefined behaviour in the code (wrong union member) and yields `none` here.
-/

namespace Rrb

variable {T : Type} (c : Cfg)

/-! ## Descent (position.hpp 1044-1136, 1822-1990; operations.hpp 26-80) -/

/-- `regular_descent_pos` (position.hpp 1044-1105) with `get_visitor`/`array_for_visitor`: the leaf and
index at which `visit_leaf` is called -/
def descendRegular : Nat → Node T → Nat → Option (Node T × Nat)
  | 0, n, idx => some (n, idx)
  | L + 1, n, idx => do
      let cs ← n.inner?
      let x ← cs[(idx >>> (c.BL + c.B * L)) &&& (2 ^ c.B - 1)]?
      descendRegular L x idx

/-- `relaxed_descent_pos` (position.hpp 1826-1920); the specialisation for the lowest inner level masks
the starting offset (1888-1894).  With `masked` it is the loop used for deep trees (1967-1983), which masks
the starting offset on all levels. -/
def descendMaybe (masked : Bool) : Nat → Node T → Nat → Option (Node T × Nat)
  | 0, n, idx => some (n, idx)
  | L + 1, n, idx => do
      match ← n.relaxed? with
      | none => descendRegular c (L + 1) n idx
      | some sz =>
        let cs ← n.inner?
        let start := if L = 0 ∨ masked then (idx >>> (c.BL + c.B * L)) &&& (2 ^ c.B - 1) else idx >>> (c.BL + c.B * L)
        let off ← Pos.scan idx (sz.drop start) start
        let x ← cs[off]?
        let b ← Pos.szBefore sz off
        descendMaybe masked L x (idx - b)

/-- the `switch (shift)` of `visit_regular_descent` and `visit_maybe_relaxed_descent`
(position.hpp 1114-1136, 1936-1990): cases `BL + B * 0` … `BL + B * 5`, otherwise `IMMER_UNREACHABLE`, or
the loop if `IMMER_DESCENT_DEEP`.  Returns the number of inner levels and whether the loop is used.
(The loop runs `for (level = shift; level != BL - B; level -= B)`, that is, for the levels encoded by `shift`.) -/
def descentLevels (shift : Nat) : Option (Nat × Bool) :=
  match (List.range 6).find? (fun k => shift == c.BL + c.B * k) with
  | some k => some (k + 1, false)
  | none => if c.deep then some ((shift - c.BL) / c.B + 1, true) else none

/-- `visit_regular_descent` (1107-1136) -/
def visitRegularDescent (n : Node T) (shift idx : Nat) : Option (Node T × Nat) := do
  let (L, _) ← descentLevels c shift
  descendRegular c L n idx

/-- `visit_maybe_relaxed_descent` (1922-1990) -/
def visitMaybeRelaxedDescent (n : Node T) (shift idx : Nat) : Option (Node T × Nat) := do
  let (L, m) ← descentLevels c shift
  descendMaybe c m L n idx

/-- `get_visitor::visit_leaf` (operations.hpp 75-79) on a `leaf_descent_pos` -/
def getLeaf (n : Node T) (idx : Nat) : Option T := do
  let xs ← n.leaf?
  xs[idx &&& (2 ^ c.BL - 1)]?

/-- number of inner levels encoded by `shift` -/
def levels (shift : Nat) : Nat := (shift - c.BL) / c.B + 1

/-! ## `region_for_visitor` (operations.hpp 44-61) -/

/-- the leaf's elements, the index in the leaf and the leaf's count -/
def regionFor : Nat → Pos T → Nat → Option (List T × Nat × Nat)
  | 0, p, idx => do
      let xs ← p.node.leaf?
      let i ← p.index c idx
      some (xs, i, p.count c)
  | L + 1, p, idx => do
      let off ← p.index c idx
      let (q, i) ← p.towardsOh c idx off
      regionFor L q i

/-! ## `update_visitor` (operations.hpp 457-512) -/

/-- node with the same header as position `p` (a relaxed node keeps its size table) -/
def remake (p : Pos T) (cs : List (Node T)) : Option (Node T) :=
  match p with
  | .rel _ _ sz => mkInnerR c sz cs
  | _ => mkInner c cs

/-- `update_visitor` -/
def updateV (f : T → T) : Nat → Pos T → Nat → Option (Node T)
  | 0, p, idx => do
      let off ← p.index c idx
      let n ← copyLeaf c p.node (p.count c)
      let xs ← n.leaf?
      let x ← xs[off]?
      some (.leaf (xs.set off (f x)))
  | L + 1, p, idx => do
      let off ← p.index c idx
      let (q, i) ← p.towardsOh c idx off
      let child ← updateV f L q i
      let cs ← p.node.inner?
      let ks ← slice cs 0 (p.count c)
      if off < ks.length then remake c p (ks.set off child) else none

/-! ## `push_tail_visitor` (operations.hpp 779-857) -/

/-- end of `visit_relaxed` (808-817): copy the first `ni` children and sizes, append the new child -/
def pushTailFinish (n : Node T) (sz : List Nat) (ni tot : Nat) (child : Node T) : Option (Node T) := do
  let cs ← n.inner?
  let ks ← slice cs 0 ni
  let ss ← slice sz 0 ni
  mkInnerR c (ss ++ [tot]) (ks ++ [child])

/-- `push_tail_visitor`; the inner `none` is the null pointer returned when there is no room -/
def pushTail (tail : Node T) (ts : Nat) : Nat → Pos T → Option (Option (Node T))
  | 0, _ => none
  | L + 1, .rel n s sz => do
      let p := Pos.rel n s sz
      let idx := p.count c - 1
      let children ← p.sizeAt idx
      let tot ← p.size c
      let ni := if children = 1 <<< s ∨ s = c.BL then idx + 1 else idx
      if 2 ^ c.B ≤ ni then some none
      else if idx = ni then do
        let q ← p.lastOhCsh c idx children
        match ← pushTail tail ts L q with
        | some child => (pushTailFinish c n sz ni (tot + ts) child).map some
        | none =>
          if ni + 1 < 2 ^ c.B then
            (pushTailFinish c n sz (ni + 1) (tot + ts) (mkPath L tail)).map some
          else some none
      else (pushTailFinish c n sz ni (tot + ts) (mkPath L tail)).map some
  | L + 1, p => do
      let size ← p.size c
      let idx ← p.index c (size - 1)
      let ni ← p.index c (size + 2 ^ c.BL - 1)
      let child ← if idx = ni then do
          let q ← p.lastOh c idx
          (← pushTail tail ts L q)
        else some (mkPath L tail)
      let cs ← p.node.inner?
      let ks ← slice cs 0 ni
      (mkInner c (ks ++ [child])).map some

/-! ## `slice_right_visitor` (operations.hpp 1080-1188) -/

/-- `slice_right_visitor<NodeT, Collapse>`: new shift, new root (null if everything left is in the tail),
size of the new tail and the new tail -/
def sliceRight : Bool → Nat → Pos T → Nat → Option (Nat × Option (Node T) × Nat × Node T)
  | _, 0, p, last => do
      let i ← p.index c last
      let _ ← p.node.leaf?
      let tail ← if i + 1 = p.count c then some p.node else copyLeaf c p.node (i + 1)
      some (0, none, i + 1, tail)
  | collapse, L + 1, p, last => do
      let idx ← p.index c last
      if collapse ∧ idx = 0 then do
        let (q, i) ← p.towardsOh c last idx
        sliceRight collapse L q i
      else do
        let (q, i) ← p.towardsOh c last idx
        let (_, next, ts, tail) ← sliceRight false L q i
        let cs ← p.node.inner?
        match next with
        | some nx =>
            let ks ← slice cs 0 idx
            let n ← match p with
              | .rel _ _ sz => do
                  let ss ← slice sz 0 idx
                  mkInnerR c (ss ++ [last + 1 - ts]) (ks ++ [nx])
              | _ => mkInner c (ks ++ [nx])
            some (p.shift, some n, ts, tail)
        | none =>
            if idx = 0 then some (p.shift, none, ts, tail)
            else if collapse ∧ idx = 1 ∧ c.BL < p.shift then do
              let x ← cs[0]?
              some (p.shift - c.B, some x, ts, tail)
            else do
              let ks ← slice cs 0 idx
              let n ← match p with
                | .rel _ _ sz => do
                    let ss ← slice sz 0 idx
                    mkInnerR c ss ks
                | _ => mkInner c ks
              some (p.shift, some n, ts, tail)

/-! ## `slice_left_visitor` (operations.hpp 1398-1459) -/

/-- the loop that adds `2^shift` for each full child (`copy_sizes`, position.hpp 810-822, 1163-1170) -/
def fullSizes (w : Nat) : Nat → Nat → List Nat
  | 0, _ => []
  | n + 1, init => (init + w) :: fullSizes w n (init + w)

/-- the loop of `relaxed_pos::copy_sizes` (position.hpp 1454-1465) over the entries read -/
def relSizes : Nat → Nat → List Nat → List Nat
  | _, _, [] => []
  | prev, init, e :: es => (init + (e - prev)) :: relSizes e (init + (e - prev)) es

/-- `copy_sizes(offset, n, init, sizes)` (position.hpp 810-822, 1163-1170, 1454-1465) -/
def copySizes : Pos T → Nat → Nat → Nat → Option (List Nat)
  | p@(.regSub _ s _), off, n, init =>
      if n = 0 then some []
      else do
        let z ← p.sizeAt (off + n - 1)
        let pre := fullSizes (1 <<< s) (n - 1) init
        some (pre ++ [(pre.getLast?.getD init) + z])
  | .full _ s, _, n, init => some (fullSizes (1 <<< s) n init)
  | .rel _ _ sz, off, n, init => do
      let prev ← Pos.szBefore sz off
      let ss ← slice sz off (off + n)
      some (relSizes prev init ss)
  | _, _, _, _ => none

/-- `slice_left_visitor<NodeT, Collapse>`: new shift and new root -/
def sliceLeft : Bool → Nat → Pos T → Nat → Option (Nat × Node T)
  | _, 0, p, first => do
      let i ← p.index c first
      let n ← copyLeafI c p.node i (p.count c)
      some (0, n)
  | collapse, L + 1, p, first => do
      let idx ← p.subindex first
      let cnt := p.count c
      let lsz ← p.sizeBefore idx
      let csz ← p.sizeAt idx
      if collapse ∧ c.BL < p.shift ∧ idx = cnt - 1 then do
        let (q, i) ← p.towardsSubOh c first idx
        sliceLeft collapse L q i
      else do
        let (q, i) ← p.towardsSubOh c first idx
        let (_, n0) ← sliceLeft false L q i
        let s0 := csz - (first - lsz)
        let ss ← copySizes p (idx + 1) (cnt - idx - 1) s0
        let cs ← p.node.inner?
        let ks ← slice cs (idx + 1) cnt
        let n ← mkInnerR c (s0 :: ss) (n0 :: ks)
        some (p.shift, n)

/-! ## Chunk traversals (operations.hpp 81-317)

Each traversal exists twice in the code: `for_each_chunk_*` calls `fn` for effect, `for_each_chunk_p_*`
stops when `fn` returns false.  The model is the second with a stateful `fn`; the first is the instance
whose `fn` always answers true. -/

/-- `each_pred`: visit in order, stop at the first false -/
def eachP {α σ : Type} (v : α → σ → Option (Bool × σ)) : List α → σ → Option (Bool × σ)
  | [], s => some (true, s)
  | p :: ps, s => do
      let (b, s') ← v p s
      if b then eachP v ps s' else some (false, s')

variable {σ : Type} (fn : List T → σ → Bool × σ)

/-- `a && b` with effects -/
def andP (a b : σ → Option (Bool × σ)) (s : σ) : Option (Bool × σ) := do
  let (x, s') ← a s
  if x then b s' else some (false, s')

/-- `for_each_chunk_visitor`, `for_each_chunk_p_visitor` (81-114) -/
def chunks : Nat → Pos T → σ → Option (Bool × σ)
  | 0, p, s => do
      let xs ← p.node.leaf?
      let ch ← slice xs 0 (p.count c)
      some (fn ch s)
  | L + 1, p, s => do
      let ps ← p.each c
      eachP (chunks L) ps s

/-- `for_each_chunk_left_visitor`, `for_each_chunk_p_left_visitor` (116-135, 210-230): up to and including `last` -/
def chunksLeft : Nat → Pos T → Nat → σ → Option (Bool × σ)
  | 0, p, last, s => do
      let xs ← p.node.leaf?
      let l ← p.index c last
      let ch ← slice xs 0 (l + 1)
      some (fn ch s)
  | L + 1, p, last, s => do
      let l ← p.index c last
      let ps ← p.eachLeft c l
      let (q, i) ← p.towardsOh c last l
      andP (eachP (chunks c fn L) ps) (chunksLeft L q i) s

/-- `for_each_chunk_right_visitor`, `for_each_chunk_p_right_visitor` (137-156, 232-252): from `first` on -/
def chunksRight : Nat → Pos T → Nat → σ → Option (Bool × σ)
  | 0, p, first, s => do
      let xs ← p.node.leaf?
      let f ← p.index c first
      let ch ← slice xs f (p.count c)
      some (fn ch s)
  | L + 1, p, first, s => do
      let f ← p.index c first
      let (q, i) ← p.towardsOh c first f
      let ps ← p.eachRight c (f + 1)
      andP (chunksRight L q i) (eachP (chunks c fn L) ps) s

/-- `for_each_chunk_i_visitor`, `for_each_chunk_p_i_visitor` (158-208, 254-317): the elements `[first, last)` -/
def chunksI : Nat → Pos T → Nat → Nat → σ → Option (Bool × σ)
  | 0, p, first, last, s => do
      let xs ← p.node.leaf?
      if first < last then
        let f ← p.index c first
        let l ← p.index c (last - 1)
        let ch ← slice xs f (l + 1)
        some (fn ch s)
      else some (true, s)
  | L + 1, p, first, last, s => do
      if first < last then
        let f ← p.index c first
        let l ← p.index c (last - 1)
        if f = l then
          let (q, i) ← p.towardsOh c first f
          match p with
          | .rel _ _ sz =>
              let b ← Pos.szBefore sz f
              chunksI L q i (last - b) s
          | _ => chunksI L q i last s
        else
          let (q, i) ← p.towardsOh c first f
          let ps ← p.eachI c (f + 1) l
          let (q', i') ← p.towardsOh c (last - 1) l
          andP (chunksRight c fn L q i) (andP (eachP (chunks c fn L) ps) (chunksLeft c fn L q' i')) s
      else some (true, s)

end Rrb
