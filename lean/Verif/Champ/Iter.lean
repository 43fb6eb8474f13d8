import Verif.Champ.Model

/-!
# Model of `champ_iterator` (immer/detail/hamts/champ_iterator.hpp)

Pointers are modelled as (array, offset) pairs.  `while` loops take fuel; running out of fuel is
reported as `none`, like undefined behaviour, so a result `some _` includes termination.
-/

namespace Champ

variable {K T : Type}

/-- `cur_` and `end_` (champ_iterator.hpp 65-66): both null, or `arr + i` and `arr + e` -/
inductive Cur (T : Type) where
  | null
  | at (arr : List T) (i e : Nat)

/-- `cur_ == end_` -/
def Cur.atEnd : Cur T → Bool
  | .null => true
  | .at _ i e => i == e

/-- `*cur_`; dereferencing null or out of bounds is UB -/
def Cur.deref : Cur T → Option T
  | .null => none
  | .at arr i e => if i < e then arr[i]? else none

/-- a `node_t* const*` into a children array (or at the root field): `path_[i]` -/
structure Frame (c : Cfg K T) where
  arr : List c.N
  idx : Nat

/-- champ_iterator.hpp 65-70; `path` holds `path_[depth_], ..., path_[0]` -/
structure Iter (c : Cfg K T) where
  cur : Cur T
  path : List (Frame c)

variable (c : Cfg K T)

/-- the new `cur_`/`end_` after moving to `child`, which is at `depth` (champ_iterator.hpp 88-96, 115-123) -/
def enter (cur : Cur T) (depth : Nat) (child : c.N) : Option (Cur T) :=
  if depth < c.maxDepth then
    match child with
    | .inner _ dm vs _ => if dm ≠ 0#c.W then some (.at vs 0 (popcount dm)) else some cur
    | .collision _ => none
  else
    match child with
    | .collision vs => some (.at vs 0 vs.length)
    | .inner .. => none

/-- champ_iterator.hpp 78-103 `step_down`; inner `none` is `false` -/
def stepDown (it : Iter c) : Option (Option (Iter c)) :=
  match it.path with
  | [] => none
  | f :: _ =>
    let depth := it.path.length - 1
    if depth < c.maxDepth then do
      match ← f.arr[f.idx]? with
      | .collision _ => none
      | .inner nm _ _ cs =>
        if nm ≠ 0#c.W then
          let child ← cs[0]?
          let cur ← enter c it.cur (depth + 1) child
          return some ⟨cur, ⟨cs, 0⟩ :: it.path⟩
        else return none
    else return none

/-- champ_iterator.hpp 105-130 `step_right` (the loop pops one level per iteration) -/
def stepRight (cur : Cur T) : List (Frame c) → Option (Option (Iter c))
  | [] => none
  | [_] => some none
  | f :: pf :: rest => do
    match ← pf.arr[pf.idx]? with
    | .collision _ => none
    | .inner nm _ _ _ =>
      let next := f.idx + 1
      if next < popcount nm then
        let child ← f.arr[next]?
        let cur ← enter c cur (rest.length + 1) child
        return some ⟨cur, ⟨f.arr, next⟩ :: pf :: rest⟩
      else stepRight cur (pf :: rest)

/-- champ_iterator.hpp 135-137: `while (step_down()) if (cur_ != end_) return;` -/
def downLoop : (fuel : Nat) → Iter c → Option (Bool × Iter c)
  | 0, _ => none
  | fuel + 1, it => do
    match ← stepDown c it with
    | none => return (false, it)
    | some it' => if it'.cur.atEnd then downLoop fuel it' else return (true, it')

/-- champ_iterator.hpp 132-146 `ensure_valid_` -/
def ensureValid : (fuel : Nat) → Iter c → Option (Iter c)
  | 0, _ => none
  | fuel + 1, it =>
    if it.cur.atEnd then do
      match ← downLoop c fuel it with
      | (true, it') => return it'
      | (false, it') =>
        match ← stepRight c it'.cur it'.path with
        | some it'' => ensureValid fuel it''
        | none => return ⟨.null, it'.path.drop (it'.path.length - 1)⟩
    else some it

/-- champ_iterator.hpp 34-45: the begin iterator -/
def Iter.begin (fuel : Nat) (root : c.N) : Option (Iter c) := do
  let cur ← match root with
    | .inner _ dm vs _ => if dm ≠ 0#c.W then some (.at vs 0 (popcount dm)) else some .null
    | .collision _ => none
  ensureValid c fuel ⟨cur, [⟨[root], 0⟩]⟩

/-- champ_iterator.hpp 72-76 `increment`; incrementing a null pointer is UB -/
def Iter.increment (fuel : Nat) (it : Iter c) : Option (Iter c) :=
  match it.cur with
  | .null => none
  | .at arr i e => ensureValid c fuel ⟨.at arr (i + 1) e, it.path⟩

/-- comparison with the end iterator (champ_iterator.hpp 47-53, 148): `cur_ == nullptr` -/
def Iter.isEnd (it : Iter c) : Bool := match it.cur with | .null => true | .at .. => false

/-- `for (; it != end; ++it) use(*it);` with at most `n` steps -/
def Iter.collect (fuel : Nat) : (n : Nat) → Iter c → Option (List T)
  | n, it =>
    if it.isEnd then some []
    else match n with
      | 0 => none
      | n + 1 => do
        let x ← it.cur.deref
        let it' ← it.increment c fuel
        let xs ← Iter.collect fuel n it'
        return x :: xs

end Champ
