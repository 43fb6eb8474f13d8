import Verif.Champ.Bits
import Verif.Champ.Model

/-!
# Model of `champ::diff` (champ.hpp 335-531)

The user passes a `differ` with three callbacks.  The model records the sequence of callbacks made.
-/

namespace Champ

/-- one callback made by `diff` (algorithm.hpp 233-252) -/
inductive Event (T : Type) where
  | added (x : T)
  | removed (x : T)
  | changed (old new : T)
deriving DecidableEq

variable {K T : Type} (c : Cfg K T)

/-- `for (auto bit : set_bits_range(bm)) body(bit)`, collecting the callbacks of `body` -/
def forBits {w : Nat} (bm : BitVec w) (body : BitVec w → Option (List (Event T))) :
    Option (List (Event T)) := do
  let ess ← (setBits bm).mapM body
  return ess.flatten

/-- champ.hpp 430-437, body of the inner loop of `diff_data_node` -/
def diffDataNodeStep (eq : T → T → Bool) (old : T) (st : Bool × List (Event T)) (it : T) :
    Bool × List (Event T) :=
  if c.eqv (c.key old) (c.key it) then
    (true, st.2 ++ (if !eq old it then [.changed old it] else []))
  else (st.1, st.2 ++ [.added it])

/-- champ.hpp 416-442 `diff_data_node`; `chunks` are the chunks of the new child -/
def diffDataNode (eq : T → T → Bool) (old : T) (chunks : List (List T)) : List (Event T) :=
  let st := chunks.foldl (fun st chunk => chunk.foldl (diffDataNodeStep c eq old) st) (false, [])
  if !st.1 then st.2 ++ [.removed old] else st.2

/-- champ.hpp 458-465, body of the inner loop of `diff_node_data` -/
def diffNodeDataStep (eq : T → T → Bool) (new : T) (st : Bool × List (Event T)) (it : T) :
    Bool × List (Event T) :=
  if c.eqv (c.key it) (c.key new) then
    (true, st.2 ++ (if !eq it new then [.changed it new] else []))
  else (st.1, st.2 ++ [.removed it])

/-- champ.hpp 444-470 `diff_node_data` -/
def diffNodeData (eq : T → T → Bool) (new : T) (chunks : List (List T)) : List (Event T) :=
  let st := chunks.foldl (fun st chunk => chunk.foldl (diffNodeDataStep c eq new) st) (false, [])
  if !st.1 then st.2 ++ [.added new] else st.2

/-- champ.hpp 472-490 `diff_data_data` -/
def diffDataData (eq : T → T → Bool) (old new : T) : List (Event T) :=
  if !c.eqv (c.key old) (c.key new) then [.removed old, .added new]
  else if !eq old new then [.changed old new] else []

/-- champ.hpp 492-530 `diff_collisions` -/
def diffCollisions (eq : T → T → Bool) (old new : List T) : List (Event T) :=
  old.flatMap (fun x =>
    match new.find? (fun y => c.eqv (c.key x) (c.key y)) with
    | some y => if !eq x y then [.changed x y] else []
    | none => [.removed x]) ++
  new.flatMap (fun y =>
    match old.find? (fun x => c.eqv (c.key x) (c.key y)) with
    | some _ => []
    | none => [.added y])

/-- champ.hpp 341-414 `diff(old_node, new_node, depth, differ)`; `same` models the pointer comparison -/
def diffNode (eq : T → T → Bool) (same : c.N → c.N → Bool) :
    (d : Nat) → c.N → c.N → Option (List (Event T))
  | 0, a, b =>
    if same a b then some [] else
    match a, b with
    | .collision xs, .collision ys => some (diffCollisions c eq xs ys)
    | _, _ => none
  | d + 1, a, b =>
    if same a b then some [] else
    match a, b with
    | .inner nmO dmO vsO csO, .inner nmN dmN vsN csN => do
      let oldBits := nmO ||| dmO
      let newBits := nmN ||| dmN
      let changes := oldBits ^^^ newBits
      -- added bits
      let es1 ← forBits (newBits &&& changes) (fun bit =>
        if nmN &&& bit ≠ 0#c.W then do
          let child ← csN[rank nmN bit]?
          let xss ← chunks c d child
          return (xss.map (fun xs => xs.map Event.added)).flatten
        else if dmN &&& bit ≠ 0#c.W then do
          let v ← vsN[rank dmN bit]?
          return [.added v]
        else some [])
      -- removed bits
      let es2 ← forBits (oldBits &&& changes) (fun bit =>
        if nmO &&& bit ≠ 0#c.W then do
          let child ← csO[rank nmO bit]?
          let xss ← chunks c d child
          return (xss.map (fun xs => xs.map Event.removed)).flatten
        else if dmO &&& bit ≠ 0#c.W then do
          let v ← vsO[rank dmO bit]?
          return [.removed v]
        else some [])
      -- bits in both nodes
      let es3 ← forBits (oldBits &&& newBits) (fun bit =>
        if nmO &&& bit ≠ 0#c.W ∧ nmN &&& bit ≠ 0#c.W then do
          let oldChild ← csO[rank nmO bit]?
          let newChild ← csN[rank nmN bit]?
          diffNode eq same d oldChild newChild
        else if dmO &&& bit ≠ 0#c.W ∧ nmN &&& bit ≠ 0#c.W then do
          let oldValue ← vsO[rank dmO bit]?
          let newChild ← csN[rank nmN bit]?
          let xss ← chunks c d newChild
          return diffDataNode c eq oldValue xss
        else if nmO &&& bit ≠ 0#c.W ∧ dmN &&& bit ≠ 0#c.W then do
          let oldChild ← csO[rank nmO bit]?
          let newValue ← vsN[rank dmN bit]?
          let xss ← chunks c d oldChild
          return diffNodeData c eq newValue xss
        else if dmO &&& bit ≠ 0#c.W ∧ dmN &&& bit ≠ 0#c.W then do
          let oldValue ← vsO[rank dmO bit]?
          let newValue ← vsN[rank dmN bit]?
          return diffDataData c eq oldValue newValue
        else some [])
      return es1 ++ es2 ++ es3
    | _, _ => none

variable {c}

/-- champ.hpp 335-339 `diff`, called by `immer::diff(old, new, differ)` (algorithm.hpp 306-311) -/
def Map.diff (eq : T → T → Bool) (same : c.N → c.N → Bool) (a b : Map c) : Option (List (Event T)) :=
  diffNode c eq same c.maxDepth a.root b.root

end Champ
