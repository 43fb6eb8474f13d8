import Verif.Array.Gc

/-!
# What programs with arrays and transients should do (garbage collection)

Every array and every transient is a list.
-/

namespace ArrGc

variable {α : Type}

/-- what a variable holds -/
inductive Val (α : Type) where
  | arr (xs : List α)
  | tr (xs : List α)
  /-- a transient that was moved from (also by `std::move(t).persistent()`): it may only be assigned to and destroyed -/
  | gone

abbrev Env (α : Type) := List (Option (Val α))

/-- the `i`-th variable, if it exists -/
def nth {β : Type} (l : List (Option β)) (i : Nat) : Option β := (l[i]?).join

/-- The operations on lists.  `none`: the operation may not be called. -/
def spec : Op α → Env α → Option (Env α)
  | .fromRange xs, e => some (e ++ [some (.arr xs)])
  | .fromFill n v, e => some (e ++ [some (.arr (List.replicate n v))])
  | .newTr, e => some (e ++ [some (.tr [])])
  | .copyCtor i, e =>
    match nth e i with
    | some (.arr xs) => some (e ++ [some (.arr xs)])
    | some (.tr xs) => some (e ++ [some (.tr xs)])
    | _ => none
  | .moveCtor i, e =>
    match nth e i with
    | some (.arr xs) => some (e.set i (some (.arr [])) ++ [some (.arr xs)])
    | some (.tr xs) => some (e.set i (some .gone) ++ [some (.tr xs)])
    | _ => none
  | .copyAssign i j, e =>
    match nth e i, nth e j with
    | some (.arr _), some (.arr ys) => some (e.set i (some (.arr ys)))
    | some (.tr _), some (.tr ys) => some (e.set i (some (.tr ys)))
    | some .gone, some (.tr ys) => some (e.set i (some (.tr ys)))
    | _, _ => none
  | .moveAssign i j, e =>
    match nth e i, nth e j with
    | some (.arr xs), some (.arr ys) => some ((e.set j (some (.arr xs))).set i (some (.arr ys)))
    | some (.tr _), some (.tr ys) => some ((e.set j (some .gone)).set i (some (.tr ys)))
    | some .gone, some (.tr ys) => some ((e.set j (some .gone)).set i (some (.tr ys)))
    | _, _ => none
  | .destroy i, e => if (nth e i).isSome then some (e.set i none) else none
  | .pushBack i v, e =>
    match nth e i with
    | some (.arr xs) => some (e ++ [some (.arr (xs ++ [v]))])
    | some (.tr xs) => if xs.length < maxSize then some (e.set i (some (.tr (xs ++ [v])))) else none
    | _ => none
  | .set i idx v, e =>
    match nth e i with
    | some (.arr xs) => if idx < xs.length then some (e ++ [some (.arr (xs.set idx v))]) else none
    | some (.tr xs) => if idx < xs.length then some (e.set i (some (.tr (xs.set idx v)))) else none
    | _ => none
  | .update i idx g, e =>
    match nth e i with
    | some (.arr xs) => if idx < xs.length then some (e ++ [some (.arr (xs.modify idx g))]) else none
    | some (.tr xs) => if idx < xs.length then some (e.set i (some (.tr (xs.modify idx g)))) else none
    | _ => none
  | .take i n, e =>
    match nth e i with
    | some (.arr xs) => if n ≤ xs.length then some (e ++ [some (.arr (xs.take n))]) else none
    | some (.tr xs) => if n ≤ xs.length then some (e.set i (some (.tr (xs.take n)))) else none
    | _ => none
  | .dataMutWrite i idx v, e =>
    match nth e i with
    | some (.tr xs) => if idx < xs.length then some (e.set i (some (.tr (xs.set idx v)))) else none
    | _ => none
  | .transient i, e =>
    match nth e i with
    | some (.arr xs) => some (e ++ [some (.tr xs)])
    | _ => none
  | .persistent i, e =>
    match nth e i with
    | some (.tr xs) => some (e ++ [some (.arr xs)])
    | _ => none
  | .persistentMove i, e =>
    match nth e i with
    | some (.tr xs) => some (e.set i (some .gone) ++ [some (.arr xs)])
    | _ => none
  | .collect _, e => some e

/-- When an operation throws, everything is as before; an update of a transient may leave the element moved from. -/
def specThrow (mv : α → α) (op : Op α) (e e'' : Env α) : Prop :=
  e'' = e ∨ ∃ i idx g xs, op = .update i idx g ∧ nth e i = some (.tr xs) ∧ e'' = e.set i (some (.tr (xs.modify idx mv)))

/-- `take` of a transient in place is not used to remove elements that have destructors: line 305 of `with_capacity.hpp` destroys
the wrong elements (see C29) -/
def Safe (triv : Bool) (op : Op α) (s : St α) : Prop :=
  ∀ i n t c, op = .take i n → nth s.vars i = some (.tr t) → s.mem t.ptr = some c → triv = true ∨ n = t.size ∨ c.tok ≠ t.tok

/-- the list, if all are elements -/
def allSome : List (Option α) → Option (List α)
  | [] => some []
  | some x :: l => (allSome l).map (x :: ·)
  | none :: _ => none

/-- the first `n` elements of a node, if there are as many -/
def look (m : Mem α) (p n : Nat) : Option (List α) :=
  (m p).bind fun c => if n ≤ c.slots.length then allSome (c.slots.take n) else none

/-- what a variable shows: what is in memory from `data()` to `data() + size()` -/
def seen1 (m : Mem α) : Option Obj → Option (Val α) → Option (Val α)
  | _, some .gone => some .gone
  | some (.arr x), _ => (look m x.ptr x.size).map .arr
  | some (.tr t), _ => (look m t.ptr t.size).map .tr
  | none, _ => none

/-- What all variables show.  From `e` only those moved from are used. -/
def seen (s : St α) (e : Env α) : Env α := s.vars.mapIdx fun i o => seen1 s.mem o (nth e i)

/-- The states that programs reach, with what the variables show.  Any allocation, copy and user function may throw, memory may
be anywhere that is free, and the collector may run between any two operations. -/
inductive Reach (triv : Bool) (mv : α → α) (ea ew : Nat) : St α → Env α → Prop
  | start (h : ea ≠ ew) : Reach triv mv ea ew (start ea ew) []
  | ok {s s' e e' a f op} (h : Reach triv mv ea ew s e) (ha : s.mem a = none) (hs : spec op e = some e') (hsafe : Safe triv op s)
      (hr : step triv mv ea ew a f op s = .ok s') : Reach triv mv ea ew s' (seen s' e')
  | thrown {s s' e e' a f op} (h : Reach triv mv ea ew s e) (ha : s.mem a = none) (hs : spec op e = some e') (hsafe : Safe triv op s)
      (hr : step triv mv ea ew a f op s = .thrown s') : Reach triv mv ea ew s' (seen s' e)

end ArrGc
