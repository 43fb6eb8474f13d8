import Verif.Rrb.VecProps
import Verif.Rrb.FlexProps

/-!
# The operators of iterators (detail/iterator_facade.hpp) on machine words

`Rrb/Vec.lean` and `Rrb/Flex.lean` have the core of the iterators with unbounded integers.  Here `i_` is a `size_t` and differences are
`ptrdiff_t`, both of 64 bits, and programs use all operators of `iterator_facade` on any number of iterators and of
`std::reverse_iterator`s (whose definition is that of the C++ standard, [reverse.iterators]).
-/

namespace Rrb

variable {T I : Type}

/-! ## Spec: positions -/

namespace FacadeSpec

/-- what a program can do with iterators; new iterators get the next number -/
inductive Cmd where
  | first (rev : Bool)
  | last (rev : Bool)
  | copy (r : Nat)
  | inc (r : Nat)
  | dec (r : Nat)
  | postInc (r : Nat)
  | postDec (r : Nat)
  | add (r : Nat) (n : BitVec 64)
  | sub (r : Nat) (n : BitVec 64)
  | plus (r : Nat) (n : BitVec 64)
  | minus (r : Nat) (n : BitVec 64)
  | deref (r : Nat)
  | index (r : Nat) (n : BitVec 64)
  | diff (r s : Nat)
  | eq (r s : Nat)
  | ne (r s : Nat)
  | lt (r s : Nat)
  | le (r s : Nat)
  | gt (r s : Nat)
  | ge (r s : Nat)

/-- what it answers -/
inductive Ans (T : Type) where
  | none
  | val (v : T)
  | num (n : Int)
  | bool (b : Bool)
deriving DecidableEq

/-- An iterator is a position in the list, or in the reversed list: from `0` to the length. -/
structure SPos where
  rev : Bool
  p : Nat
deriving DecidableEq

/-- the list that is traversed -/
def view (l : List T) (rev : Bool) : List T := if rev then l.reverse else l

/-- the position that is `n` further, if there is one -/
def SPos.move (l : List T) (a : SPos) (n : Int) : Option SPos :=
  if 0 ≤ (a.p : Int) + n ∧ (a.p : Int) + n ≤ l.length then some ⟨a.rev, ((a.p : Int) + n).toNat⟩ else none

/-- two iterators of the same type -/
def two (S : List SPos) (r s : Nat) (f : Nat → Nat → Ans T) : Option (Ans T × List SPos) :=
  match S[r]?, S[s]? with
  | some a, some b => if a.rev = b.rev then some (f a.p b.p, S) else none
  | _, _ => none

/-- one command; `none`: not allowed -/
def step (l : List T) (S : List SPos) : Cmd → Option (Ans T × List SPos)
  | .first rev => some (.none, S ++ [⟨rev, 0⟩])
  | .last rev => some (.none, S ++ [⟨rev, l.length⟩])
  | .copy r => S[r]?.map fun a => (.none, S ++ [a])
  | .inc r => S[r]?.bind fun a => (a.move l 1).map fun b => (.none, S.set r b)
  | .dec r => S[r]?.bind fun a => (a.move l (-1)).map fun b => (.none, S.set r b)
  | .postInc r => S[r]?.bind fun a => (a.move l 1).map fun b => (.none, S.set r b ++ [a])
  | .postDec r => S[r]?.bind fun a => (a.move l (-1)).map fun b => (.none, S.set r b ++ [a])
  | .add r n => S[r]?.bind fun a => (a.move l n.toInt).map fun b => (.none, S.set r b)
  | .sub r n => S[r]?.bind fun a => (a.move l (-n.toInt)).map fun b => (.none, S.set r b)
  | .plus r n => S[r]?.bind fun a => (a.move l n.toInt).map fun b => (.none, S ++ [b])
  | .minus r n => S[r]?.bind fun a => (a.move l (-n.toInt)).map fun b => (.none, S ++ [b])
  | .deref r => S[r]?.bind fun a => (view l a.rev)[a.p]?.map fun v => (.val v, S)
  | .index r n => S[r]?.bind fun a => (a.move l n.toInt).bind fun b => (view l b.rev)[b.p]?.map fun v => (.val v, S)
  | .diff r s => two S r s fun p q => .num ((p : Int) - q)
  | .eq r s => two S r s fun p q => .bool (decide (p = q))
  | .ne r s => two S r s fun p q => .bool (decide (p ≠ q))
  | .lt r s => two S r s fun p q => .bool (decide (p < q))
  | .le r s => two S r s fun p q => .bool (decide (p ≤ q))
  | .gt r s => two S r s fun p q => .bool (decide (q < p))
  | .ge r s => two S r s fun p q => .bool (decide (q ≤ p))

/-- a program -/
def run (l : List T) : List Cmd → List SPos → Option (List (Ans T) × List SPos)
  | [], S => some ([], S)
  | k :: ks, S => (step l S k).bind fun (a, S') => (run l ks S').map fun (as, S'') => (a :: as, S'')

end FacadeSpec

open FacadeSpec (Cmd Ans)

/-! ## Model -/

/-- what `iterator_core_access` (iterator_facade.hpp 18-55) calls; `none` is undefined behaviour.  `deref` also returns the iterator,
whose cache it changes. -/
structure Core (I T : Type) where
  begin : I
  fin : I
  incr : I → Option I
  decr : I → Option I
  advance : I → BitVec 64 → Option I
  equal : I → I → Bool
  distanceTo : I → I → Option (BitVec 64)
  deref : I → Option (T × I)

/-- `-n` on a `ptrdiff_t`; undefined for the least value -/
def negate (n : BitVec 64) : Option (BitVec 64) := if n = BitVec.intMin 64 then none else some (-n)

/-- `n - 1` on a `ptrdiff_t`; undefined for the least value -/
def pred (n : BitVec 64) : Option (BitVec 64) := if n = BitVec.intMin 64 then none else some (n - 1#64)

namespace Core
variable (k : Core I T)

/-- `operator+=` (iterator_facade.hpp 143-147) -/
def addAssign (x : I) (n : BitVec 64) : Option I := k.advance x n

/-- `operator-=` (148-152) -/
def subAssign (x : I) (n : BitVec 64) : Option I := (negate n).bind (k.advance x)

/-- `operator[]` (103-107): `*(derived() + n)`, the sum is a copy -/
def index (x : I) (n : BitVec 64) : Option T := (k.addAssign x n).bind fun y => (k.deref y).map Prod.fst

/-- `operator-` of iterators (170-174) -/
def diff (a b : I) : Option (BitVec 64) := k.distanceTo b a

/-- `operator<` (176-180) -/
def lt (a b : I) : Option Bool := (k.distanceTo a b).map fun d => BitVec.slt 0#64 d

/-- `operator<=` (181-185) -/
def le (a b : I) : Option Bool := (k.distanceTo a b).map fun d => BitVec.sle 0#64 d

/-- `operator>` (186-190) -/
def gt (a b : I) : Option Bool := (k.distanceTo a b).map fun d => BitVec.slt d 0#64

/-- `operator>=` (191-195) -/
def ge (a b : I) : Option Bool := (k.distanceTo a b).map fun d => BitVec.sle d 0#64

end Core

/-- an iterator, or a `std::reverse_iterator` with this base -/
inductive AnyIt (I : Type) where
  | fwd (x : I)
  | rev (x : I)

namespace AnyIt
variable (k : Core I T)

/-- `begin()`, `rbegin()` (vector.hpp 144, 160-163, flex_vector.hpp 142, 158-161) -/
def first : Bool → AnyIt I
  | false => fwd k.begin
  | true => rev k.fin

/-- `end()`, `rend()` (vector.hpp 150-153, 170-173, flex_vector.hpp 148-151, 168-171) -/
def last : Bool → AnyIt I
  | false => fwd k.fin
  | true => rev k.begin

/-- `++` (iterator_facade.hpp 118-122); on reverse iterators `--` of the base -/
def inc : AnyIt I → Option (AnyIt I)
  | fwd x => (k.incr x).map fwd
  | rev x => (k.decr x).map rev

/-- `--` (130-135) -/
def dec : AnyIt I → Option (AnyIt I)
  | fwd x => (k.decr x).map fwd
  | rev x => (k.incr x).map rev

/-- `+=` (143-147) -/
def add (n : BitVec 64) : AnyIt I → Option (AnyIt I)
  | fwd x => (k.addAssign x n).map fwd
  | rev x => (k.subAssign x n).map rev

/-- `-=` (148-152) -/
def sub (n : BitVec 64) : AnyIt I → Option (AnyIt I)
  | fwd x => (k.subAssign x n).map fwd
  | rev x => (k.addAssign x n).map rev

/-- `*` (101); a reverse iterator decrements a copy of its base -/
def deref : AnyIt I → Option (T × AnyIt I)
  | fwd x => (k.deref x).map fun (v, y) => (v, fwd y)
  | rev x => (k.decr x).bind fun y => (k.deref y).map fun (v, _) => (v, rev x)

/-- `[]` (103-107); on reverse iterators `base[-n - 1]` -/
def index (n : BitVec 64) : AnyIt I → Option T
  | fwd x => k.index x n
  | rev x => (negate n).bind fun m => (pred m).bind (k.index x)

/-- `-` of iterators (170-174) -/
def diff : AnyIt I → AnyIt I → Option (BitVec 64)
  | fwd x, fwd y => k.diff x y
  | rev x, rev y => k.diff y x
  | _, _ => none

/-- `==` (109-112) -/
def eq : AnyIt I → AnyIt I → Option Bool
  | fwd x, fwd y => some (k.equal x y)
  | rev x, rev y => some (k.equal x y)
  | _, _ => none

/-- `!=` (113-116) -/
def ne : AnyIt I → AnyIt I → Option Bool
  | fwd x, fwd y => some (!k.equal x y)
  | rev x, rev y => some (!k.equal x y)
  | _, _ => none

/-- `<` (176-180) -/
def lt : AnyIt I → AnyIt I → Option Bool
  | fwd x, fwd y => k.lt x y
  | rev x, rev y => k.gt x y
  | _, _ => none

/-- `<=` (181-185) -/
def le : AnyIt I → AnyIt I → Option Bool
  | fwd x, fwd y => k.le x y
  | rev x, rev y => k.ge x y
  | _, _ => none

/-- `>` (186-190) -/
def gt : AnyIt I → AnyIt I → Option Bool
  | fwd x, fwd y => k.gt x y
  | rev x, rev y => k.lt x y
  | _, _ => none

/-- `>=` (191-195) -/
def ge : AnyIt I → AnyIt I → Option Bool
  | fwd x, fwd y => k.ge x y
  | rev x, rev y => k.le x y
  | _, _ => none

end AnyIt

namespace Facade
variable (k : Core I T)

/-- a use of two iterators -/
def two {β : Type} (S : List (AnyIt I)) (r s : Nat) (f : AnyIt I → AnyIt I → Option β) (g : β → Ans T) :
    Option (Ans T × List (AnyIt I)) :=
  match S[r]?, S[s]? with
  | some a, some b => (f a b).map fun v => (g v, S)
  | _, _ => none

/-- one command -/
def step (S : List (AnyIt I)) : Cmd → Option (Ans T × List (AnyIt I))
  | .first rev => some (.none, S ++ [AnyIt.first k rev])
  | .last rev => some (.none, S ++ [AnyIt.last k rev])
  | .copy r => S[r]?.map fun a => (.none, S ++ [a])
  | .inc r => S[r]?.bind fun a => (a.inc k).map fun b => (.none, S.set r b)
  | .dec r => S[r]?.bind fun a => (a.dec k).map fun b => (.none, S.set r b)
  -- iterator_facade.hpp 123-128, 136-142: the copy is made before
  | .postInc r => S[r]?.bind fun a => (a.inc k).map fun b => (.none, S.set r b ++ [a])
  | .postDec r => S[r]?.bind fun a => (a.dec k).map fun b => (.none, S.set r b ++ [a])
  | .add r n => S[r]?.bind fun a => (a.add k n).map fun b => (.none, S.set r b)
  | .sub r n => S[r]?.bind fun a => (a.sub k n).map fun b => (.none, S.set r b)
  -- 154-169: `+=` or `-=` on a copy
  | .plus r n => S[r]?.bind fun a => (a.add k n).map fun b => (.none, S ++ [b])
  | .minus r n => S[r]?.bind fun a => (a.sub k n).map fun b => (.none, S ++ [b])
  | .deref r => S[r]?.bind fun a => (a.deref k).map fun (v, b) => (.val v, S.set r b)
  | .index r n => S[r]?.bind fun a => (a.index k n).map fun v => (.val v, S)
  | .diff r s => two S r s (AnyIt.diff k) fun d => .num d.toInt
  | .eq r s => two S r s (AnyIt.eq k) .bool
  | .ne r s => two S r s (AnyIt.ne k) .bool
  | .lt r s => two S r s (AnyIt.lt k) .bool
  | .le r s => two S r s (AnyIt.le k) .bool
  | .gt r s => two S r s (AnyIt.gt k) .bool
  | .ge r s => two S r s (AnyIt.ge k) .bool

/-- a program -/
def run : List Cmd → List (AnyIt I) → Option (List (Ans T) × List (AnyIt I))
  | [], S => some ([], S)
  | c :: cs, S => (step k S c).bind fun (a, S') => (run cs S').map fun (as, S'') => (a :: as, S'')

end Facade

/-! ### The core on words, the same text in both iterators -/

namespace Word

/-- `increment` (rbtree_iterator.hpp 58-62, rrbtree_iterator.hpp 57-62) -/
def incr (size i : BitVec 64) : Option (BitVec 64) := if i < size then some (i + 1#64) else none

/-- `decrement` (64-68, 64-69) -/
def decr (i : BitVec 64) : Option (BitVec 64) := if 0#64 < i then some (i - 1#64) else none

/-- `advance` (70-75, 71-77): what violates the assertions is undefined; `n` is converted to `size_t` and added modulo `2^64` -/
def advance (size i n : BitVec 64) : Option (BitVec 64) :=
  if (BitVec.sle n 0#64 || (i + n).ule size) && (BitVec.sle 0#64 n || (-n).ule i) then some (i + n) else none

/-- `distance_to` (79-83, 81-85) -/
def distanceTo (i j : BitVec 64) : Option (BitVec 64) := if i < j then some (j - i) else negate (i - j)

end Word

/-- the iterator of `vector` -/
def VecIter.core (c : Cfg) (t : Tree T) : Core (VecIter T) T where
  begin := .begin t
  fin := .end' t
  incr x := (Word.incr (.ofNat 64 x.tree.size) (.ofNat 64 x.i)).map fun i => { x with i := i.toNat }
  decr x := (Word.decr (.ofNat 64 x.i)).map fun i => { x with i := i.toNat }
  advance x n := (Word.advance (.ofNat 64 x.tree.size) (.ofNat 64 x.i) n).map fun i => { x with i := i.toNat }
  equal x y := BitVec.ofNat 64 x.i == BitVec.ofNat 64 y.i
  distanceTo x y := Word.distanceTo (.ofNat 64 x.i) (.ofNat 64 y.i)
  deref := VecIter.deref c

/-- the iterator of `flex_vector` -/
def FlexIter.core (c : Cfg) (t : Tree T) : Core (FlexIter T) T where
  begin := .begin t
  fin := .end' t
  incr x := (Word.incr (.ofNat 64 x.tree.size) (.ofNat 64 x.i)).map fun i => { x with i := i.toNat }
  decr x := (Word.decr (.ofNat 64 x.i)).map fun i => { x with i := i.toNat }
  advance x n := (Word.advance (.ofNat 64 x.tree.size) (.ofNat 64 x.i) n).map fun i => { x with i := i.toNat }
  equal x y := BitVec.ofNat 64 x.i == BitVec.ofNat 64 y.i
  distanceTo x y := Word.distanceTo (.ofNat 64 x.i) (.ofNat 64 y.i)
  deref := FlexIter.deref c

/-! ## Proofs -/

/-- a core that acts on positions -/
structure Core.Good (k : Core I T) (l : List T) (R : I → Nat → Prop) : Prop where
  len : l.length < 2 ^ 63
  le : ∀ {x p}, R x p → p ≤ l.length
  begin : R k.begin 0
  fin : R k.fin l.length
  incr : ∀ {x p}, R x p → p < l.length → ∃ y, k.incr x = some y ∧ R y (p + 1)
  decr : ∀ {x p}, R x p → 0 < p → ∃ y, k.decr x = some y ∧ R y (p - 1)
  advance : ∀ {x p} (n : BitVec 64), R x p → 0 ≤ (p : Int) + n.toInt → (p : Int) + n.toInt ≤ l.length →
    ∃ y, k.advance x n = some y ∧ R y ((p : Int) + n.toInt).toNat
  equal : ∀ {x y p q}, R x p → R y q → k.equal x y = decide (p = q)
  dist : ∀ {x y p q}, R x p → R y q → ∃ d, k.distanceTo x y = some d ∧ d.toInt = (q : Int) - p
  deref : ∀ {x p}, R x p → (h : p < l.length) → ∃ y, k.deref x = some (l[p], y) ∧ R y p

section words

theorem toInt_of_lt {n : Nat} (h : n < 2 ^ 63) : (BitVec.ofNat 64 n).toInt = n := by
  rw [BitVec.toInt_ofNat']; simp [Int.bmod]; omega

theorem Word.incr_spec {s i : Nat} (hs : s < 2 ^ 63) (hi : i < s) :
    Word.incr (.ofNat 64 s) (.ofNat 64 i) = some (.ofNat 64 (i + 1)) := by
  simp only [Word.incr]
  rw [if_pos]
  · congr 1; apply BitVec.eq_of_toNat_eq; simp
  · simp only [BitVec.lt_def, BitVec.toNat_ofNat]; omega

theorem Word.decr_spec {i : Nat} (hs : i < 2 ^ 63) (hi : 0 < i) :
    Word.decr (.ofNat 64 i) = some (.ofNat 64 (i - 1)) := by
  simp only [Word.decr]
  rw [if_pos]
  · congr 1; apply BitVec.eq_of_toNat_eq; simp; omega
  · simp only [BitVec.lt_def, BitVec.toNat_ofNat]; omega

theorem negate_spec {n : BitVec 64} (h : n ≠ BitVec.intMin 64) : ∃ m, negate n = some m ∧ m.toInt = -n.toInt := by
  refine ⟨-n, by simp [negate, h], BitVec.toInt_neg_of_ne_intMin h⟩

theorem ne_intMin {n : BitVec 64} (h : -2 ^ 63 < n.toInt) : n ≠ BitVec.intMin 64 := by
  rintro rfl
  revert h; decide

theorem pred_spec {n : BitVec 64} (h : -2 ^ 63 < n.toInt) : ∃ m, pred n = some m ∧ m.toInt = n.toInt - 1 := by
  refine ⟨n - 1#64, by simp [pred, ne_intMin h], ?_⟩
  have h1 := BitVec.toInt_lt (x := n)
  rw [BitVec.toInt_sub]
  simp [Int.bmod] at *
  omega

theorem Word.advance_spec {s i : Nat} {n : BitVec 64} (hs : s < 2 ^ 63) (hi : i ≤ s) (h0 : 0 ≤ (i : Int) + n.toInt)
    (h1 : (i : Int) + n.toInt ≤ s) :
    Word.advance (.ofNat 64 s) (.ofNat 64 i) n = some (.ofNat 64 ((i : Int) + n.toInt).toNat) := by
  have hn := n.isLt
  simp only [Word.advance]
  rw [if_pos]
  · congr 1; apply BitVec.eq_of_toNat_eq
    simp only [BitVec.toNat_add, BitVec.toNat_ofNat]
    rw [BitVec.toInt_eq_toNat_cond] at *
    split at * <;> omega
  · simp only [Bool.and_eq_true, Bool.or_eq_true, BitVec.sle, BitVec.ule, decide_eq_true_eq, BitVec.toNat_add, BitVec.toNat_ofNat,
      BitVec.toInt_zero, BitVec.toNat_neg]
    rw [BitVec.toInt_eq_toNat_cond] at *
    split at * <;> omega

theorem Word.distanceTo_spec {i j : Nat} (hi : i < 2 ^ 63) (hj : j < 2 ^ 63) :
    ∃ d, Word.distanceTo (.ofNat 64 i) (.ofNat 64 j) = some d ∧ d.toInt = (j : Int) - i := by
  simp only [Word.distanceTo]
  by_cases h : i < j
  · refine ⟨.ofNat 64 (j - i), ?_, ?_⟩
    · rw [if_pos (by simp only [BitVec.lt_def, BitVec.toNat_ofNat]; omega)]
      congr 1; apply BitVec.eq_of_toNat_eq; simp; omega
    · rw [toInt_of_lt (by omega)]; omega
  · have e : BitVec.ofNat 64 i - BitVec.ofNat 64 j = BitVec.ofNat 64 (i - j) := by
      apply BitVec.eq_of_toNat_eq; simp; omega
    rw [if_neg (by simp only [BitVec.lt_def, BitVec.toNat_ofNat]; omega), e]
    have h1 : (BitVec.ofNat 64 (i - j)).toInt = ((i - j : Nat) : Int) := toInt_of_lt (by omega)
    obtain ⟨m, h2, h3⟩ := negate_spec (ne_intMin (n := BitVec.ofNat 64 (i - j)) (by omega))
    exact ⟨m, h2, by omega⟩

end words


section refine

open FacadeSpec (SPos)

variable {k : Core I T} {l : List T} {R : I → Nat → Prop}

/-- an iterator of the program is at a position -/
def AnyIt.Sits (l : List T) (R : I → Nat → Prop) : AnyIt I → SPos → Prop
  | .fwd x, s => s.rev = false ∧ R x s.p
  | .rev x, s => s.rev = true ∧ ∃ b, R x b ∧ b + s.p = l.length

theorem move_some {s s' : SPos} {n : Int} (h : s.move l n = some s') :
    0 ≤ (s.p : Int) + n ∧ (s.p : Int) + n ≤ l.length ∧ s' = ⟨s.rev, ((s.p : Int) + n).toNat⟩ := by
  simp only [SPos.move] at h
  split at h
  · rename_i hc
    exact ⟨hc.1, hc.2, (Option.some.inj h).symm⟩
  · cases h

namespace AnyIt

theorem at_first (g : k.Good l R) (rev : Bool) : Sits l R (first k rev) ⟨rev, 0⟩ := by
  cases rev
  · exact ⟨rfl, g.begin⟩
  · exact ⟨rfl, _, g.fin, rfl⟩

theorem at_last (g : k.Good l R) (rev : Bool) : Sits l R (last k rev) ⟨rev, l.length⟩ := by
  cases rev
  · exact ⟨rfl, g.fin⟩
  · exact ⟨rfl, _, g.begin, by simp⟩

theorem at_inc (g : k.Good l R) {a : AnyIt I} {s s' : SPos} (h : Sits l R a s) (hm : s.move l 1 = some s') :
    ∃ b, a.inc k = some b ∧ Sits l R b s' := by
  obtain ⟨h0, h1, rfl⟩ := move_some hm
  cases a with
  | fwd x =>
    obtain ⟨y, e, hy⟩ := g.incr h.2 (by omega)
    refine ⟨.fwd y, by simp [inc, e], h.1, ?_⟩
    rwa [show ((s.p : Int) + 1).toNat = s.p + 1 by omega]
  | rev x =>
    obtain ⟨hr, b, hb, hs⟩ := h
    obtain ⟨y, e, hy⟩ := g.decr hb (by omega)
    exact ⟨.rev y, by simp [inc, e], hr, _, hy, by simp only; omega⟩

theorem at_dec (g : k.Good l R) {a : AnyIt I} {s s' : SPos} (h : Sits l R a s) (hm : s.move l (-1) = some s') :
    ∃ b, a.dec k = some b ∧ Sits l R b s' := by
  obtain ⟨h0, h1, rfl⟩ := move_some hm
  cases a with
  | fwd x =>
    obtain ⟨y, e, hy⟩ := g.decr h.2 (by omega)
    refine ⟨.fwd y, by simp [dec, e], h.1, ?_⟩
    rwa [show ((s.p : Int) + -1).toNat = s.p - 1 by omega]
  | rev x =>
    obtain ⟨hr, b, hb, hs⟩ := h
    obtain ⟨y, e, hy⟩ := g.incr hb (by omega)
    exact ⟨.rev y, by simp [dec, e], hr, _, hy, by simp only; omega⟩

theorem sub_ok (g : k.Good l R) {x : I} {p : Nat} {n : BitVec 64} (h : R x p) (h0 : 0 ≤ (p : Int) - n.toInt)
    (h1 : (p : Int) - n.toInt ≤ l.length) : ∃ y, k.subAssign x n = some y ∧ R y ((p : Int) - n.toInt).toNat := by
  have hl := g.len
  obtain ⟨m, e, hm⟩ := negate_spec (ne_intMin (n := n) (by omega))
  obtain ⟨y, e', hy⟩ := g.advance m h (by omega) (by omega)
  exact ⟨y, by simp [Core.subAssign, e, e'], by rwa [show (p : Int) - n.toInt = p + m.toInt by omega]⟩

theorem at_add (g : k.Good l R) {a : AnyIt I} {s s' : SPos} {n : BitVec 64} (h : Sits l R a s) (hm : s.move l n.toInt = some s') :
    ∃ b, a.add k n = some b ∧ Sits l R b s' := by
  obtain ⟨h0, h1, rfl⟩ := move_some hm
  cases a with
  | fwd x =>
    obtain ⟨y, e, hy⟩ := g.advance n h.2 h0 h1
    exact ⟨.fwd y, by simp [add, Core.addAssign, e], h.1, hy⟩
  | rev x =>
    obtain ⟨hr, b, hb, hs⟩ := h
    obtain ⟨y, e, hy⟩ := sub_ok g (n := n) hb (by omega) (by omega)
    exact ⟨.rev y, by simp [add, e], hr, _, hy, by simp only; omega⟩

theorem at_sub (g : k.Good l R) {a : AnyIt I} {s s' : SPos} {n : BitVec 64} (h : Sits l R a s) (hm : s.move l (-n.toInt) = some s') :
    ∃ b, a.sub k n = some b ∧ Sits l R b s' := by
  obtain ⟨h0, h1, rfl⟩ := move_some hm
  cases a with
  | fwd x =>
    obtain ⟨y, e, hy⟩ := sub_ok g (n := n) h.2 (by omega) (by omega)
    exact ⟨.fwd y, by simp [sub, e], h.1, hy⟩
  | rev x =>
    obtain ⟨hr, b, hb, hs⟩ := h
    obtain ⟨y, e, hy⟩ := g.advance n hb (by omega) (by omega)
    exact ⟨.rev y, by simp [sub, Core.addAssign, e], hr, _, hy, by simp only; omega⟩

theorem at_deref (g : k.Good l R) {a : AnyIt I} {s : SPos} {v : T} (h : Sits l R a s)
    (hv : (FacadeSpec.view l s.rev)[s.p]? = some v) : ∃ b, a.deref k = some (v, b) ∧ Sits l R b s := by
  cases a with
  | fwd x =>
    obtain ⟨hr, hx⟩ := h
    simp only [FacadeSpec.view, hr, Bool.false_eq_true, if_false] at hv
    obtain ⟨hp, rfl⟩ := List.getElem?_eq_some_iff.mp hv
    obtain ⟨y, e, hy⟩ := g.deref hx hp
    exact ⟨.fwd y, by simp [deref, e], hr, hy⟩
  | rev x =>
    obtain ⟨hr, b, hb, hs⟩ := h
    simp only [FacadeSpec.view, hr, if_true] at hv
    obtain ⟨hp, rfl⟩ := List.getElem?_eq_some_iff.mp hv
    simp only [List.length_reverse] at hp
    obtain ⟨y, e, hy⟩ := g.decr hb (by omega)
    obtain ⟨z, e', -⟩ := g.deref hy (by omega)
    refine ⟨.rev x, ?_, hr, b, hb, hs⟩
    simp only [deref, e, e', Option.bind_some, Option.map_some, List.getElem_reverse]
    congr 3; omega

theorem at_index (g : k.Good l R) {a : AnyIt I} {s s' : SPos} {n : BitVec 64} {v : T} (h : Sits l R a s)
    (hm : s.move l n.toInt = some s') (hv : (FacadeSpec.view l s'.rev)[s'.p]? = some v) : a.index k n = some v := by
  obtain ⟨h0, h1, rfl⟩ := move_some hm
  have hl := g.len
  cases a with
  | fwd x =>
    obtain ⟨hr, hx⟩ := h
    simp only [FacadeSpec.view, hr, Bool.false_eq_true, if_false] at hv
    obtain ⟨hp, rfl⟩ := List.getElem?_eq_some_iff.mp hv
    obtain ⟨y, e, hy⟩ := g.advance n hx h0 h1
    obtain ⟨z, e', -⟩ := g.deref hy hp
    simp [index, Core.index, Core.addAssign, e, e']
  | rev x =>
    obtain ⟨hr, b, hb, hs⟩ := h
    simp only [FacadeSpec.view, hr, if_true] at hv
    obtain ⟨hp, rfl⟩ := List.getElem?_eq_some_iff.mp hv
    simp only [List.length_reverse] at hp
    obtain ⟨m, e1, hm1⟩ := negate_spec (ne_intMin (n := n) (by omega))
    obtain ⟨m', e2, hm2⟩ := pred_spec (n := m) (by omega)
    obtain ⟨y, e, hy⟩ := g.advance m' hb (by omega) (by omega)
    obtain ⟨z, e', -⟩ := g.deref hy (by omega)
    simp only [index, Core.index, Core.addAssign, e1, e2, e, e', Option.bind_some, Option.map_some, List.getElem_reverse]
    congr 2; omega

theorem at_diff (g : k.Good l R) {a b : AnyIt I} {s t : SPos} (ha : Sits l R a s) (hb : Sits l R b t) (h : s.rev = t.rev) :
    ∃ d, a.diff k b = some d ∧ d.toInt = (s.p : Int) - t.p := by
  cases a <;> cases b
  · exact g.dist hb.2 ha.2
  · rw [ha.1, hb.1] at h; cases h
  · rw [ha.1, hb.1] at h; cases h
  · obtain ⟨-, p, hp, hs⟩ := ha
    obtain ⟨-, q, hq, ht⟩ := hb
    obtain ⟨d, e, hd⟩ := g.dist hp hq
    exact ⟨d, e, by omega⟩

theorem at_eq (g : k.Good l R) {a b : AnyIt I} {s t : SPos} (ha : Sits l R a s) (hb : Sits l R b t) (h : s.rev = t.rev) :
    a.eq k b = some (decide (s.p = t.p)) := by
  cases a <;> cases b
  · simp only [eq, g.equal ha.2 hb.2]
  · rw [ha.1, hb.1] at h; cases h
  · rw [ha.1, hb.1] at h; cases h
  · obtain ⟨-, p, hp, hs⟩ := ha
    obtain ⟨-, q, hq, ht⟩ := hb
    simp only [eq, g.equal hp hq, Option.some.injEq, decide_eq_decide]; omega

theorem at_ne (g : k.Good l R) {a b : AnyIt I} {s t : SPos} (ha : Sits l R a s) (hb : Sits l R b t) (h : s.rev = t.rev) :
    a.ne k b = some (decide (s.p ≠ t.p)) := by
  cases a <;> cases b
  · simp only [ne, g.equal ha.2 hb.2, decide_not]
  · rw [ha.1, hb.1] at h; cases h
  · rw [ha.1, hb.1] at h; cases h
  · obtain ⟨-, p, hp, hs⟩ := ha
    obtain ⟨-, q, hq, ht⟩ := hb
    simp only [ne, g.equal hp hq, Option.some.injEq, ← decide_not, decide_eq_decide]; omega

theorem core_cmp (g : k.Good l R) {x y : I} {p q : Nat} (hp : R x p) (hq : R y q) :
    k.lt x y = some (decide (p < q)) ∧ k.le x y = some (decide (p ≤ q)) ∧ k.gt x y = some (decide (q < p)) ∧
      k.ge x y = some (decide (q ≤ p)) := by
  obtain ⟨d, e, hd⟩ := g.dist hp hq
  simp only [Core.lt, Core.le, Core.gt, Core.ge, e, Option.map_some, BitVec.slt, BitVec.sle, BitVec.toInt_zero, hd,
    Option.some.injEq, decide_eq_decide]
  omega

theorem at_cmp (g : k.Good l R) {a b : AnyIt I} {s t : SPos} (ha : Sits l R a s) (hb : Sits l R b t) (h : s.rev = t.rev) :
    a.lt k b = some (decide (s.p < t.p)) ∧ a.le k b = some (decide (s.p ≤ t.p)) ∧ a.gt k b = some (decide (t.p < s.p)) ∧
      a.ge k b = some (decide (t.p ≤ s.p)) := by
  cases a <;> cases b
  · exact core_cmp g ha.2 hb.2
  · rw [ha.1, hb.1] at h; cases h
  · rw [ha.1, hb.1] at h; cases h
  · obtain ⟨-, p, hp, hs⟩ := ha
    obtain ⟨-, q, hq, ht⟩ := hb
    obtain ⟨e1, e2, e3, e4⟩ := core_cmp g hp hq
    simp only [lt, le, gt, ge, e1, e2, e3, e4, Option.some.injEq, decide_eq_decide]; omega

end AnyIt

open AnyIt (Sits)

theorem all_set {as : List (AnyIt I)} {ss : List SPos} (h : List.Forall₂ (Sits l R) as ss) {r : Nat} {a : AnyIt I} {s : SPos}
    (ha : Sits l R a s) : List.Forall₂ (Sits l R) (as.set r a) (ss.set r s) := by
  induction h generalizing r with
  | nil => exact .nil
  | cons h hs ih =>
    cases r with
    | zero => exact .cons ha hs
    | succ r => exact .cons h ih

theorem all_set_left {as : List (AnyIt I)} {ss : List SPos} (h : List.Forall₂ (Sits l R) as ss) {r : Nat} {a : AnyIt I} {s : SPos}
    (hr : ss[r]? = some s) (ha : Sits l R a s) : List.Forall₂ (Sits l R) (as.set r a) ss := by
  induction h generalizing r with
  | nil => exact .nil
  | cons h hs ih =>
    cases r with
    | zero => exact .cons (by simp at hr; rwa [hr]) hs
    | succ r => exact .cons h (ih (by simpa using hr))

theorem all_get {as : List (AnyIt I)} {ss : List SPos} (h : List.Forall₂ (Sits l R) as ss) {r : Nat} {s : SPos}
    (hr : ss[r]? = some s) : ∃ a, as[r]? = some a ∧ Sits l R a s := by
  induction h generalizing r with
  | nil => simp at hr
  | cons h hs ih =>
    cases r with
    | zero => exact ⟨_, rfl, by simp at hr; rwa [← hr]⟩
    | succ r => simpa using ih (by simpa using hr)

theorem all_push {as : List (AnyIt I)} {ss : List SPos} (h : List.Forall₂ (Sits l R) as ss) {a : AnyIt I} {s : SPos}
    (ha : Sits l R a s) : List.Forall₂ (Sits l R) (as ++ [a]) (ss ++ [s]) :=
  List.rel_append h (.cons ha .nil)

theorem two_spec {β : Type} {as : List (AnyIt I)} {ss ss' : List SPos} (h : List.Forall₂ (Sits l R) as ss) {r s : Nat}
    {f : AnyIt I → AnyIt I → Option β} {g : β → Ans T} {f' : Nat → Nat → Ans T} {x : Ans T}
    (hs : FacadeSpec.two ss r s f' = some (x, ss'))
    (hf : ∀ a b s t, Sits l R a s → Sits l R b t → s.rev = t.rev → ∃ v, f a b = some v ∧ g v = f' s.p t.p) :
    ∃ as', Facade.two as r s f g = some (x, as') ∧ List.Forall₂ (Sits l R) as' ss' := by
  simp only [FacadeSpec.two] at hs
  split at hs
  · rename_i p q hp hq
    split at hs
    · rename_i hpq
      simp only [Option.some.injEq, Prod.mk.injEq] at hs
      obtain ⟨rfl, rfl⟩ := hs
      obtain ⟨a, ea, ha⟩ := all_get h hp
      obtain ⟨b, eb, hb⟩ := all_get h hq
      obtain ⟨v, ev, hv⟩ := hf a b p q ha hb hpq
      exact ⟨as, by simp [Facade.two, ea, eb, ev, hv], h⟩
    · cases hs
  · cases hs

theorem Facade.step_spec (g : k.Good l R) {as : List (AnyIt I)} {ss ss' : List SPos} (h : List.Forall₂ (Sits l R) as ss) {c : Cmd}
    {x : Ans T} (hs : FacadeSpec.step l ss c = some (x, ss')) :
    ∃ as', Facade.step k as c = some (x, as') ∧ List.Forall₂ (Sits l R) as' ss' := by
  -- a command that moves one iterator
  have mv : ∀ {r : Nat} {n : Int} {f : AnyIt I → Option (AnyIt I)} {u : AnyIt I → AnyIt I → List (AnyIt I)}
      {u' : SPos → SPos → List SPos},
      (∀ a s s', Sits l R a s → s.move l n = some s' → ∃ b, f a = some b ∧ Sits l R b s') →
      (∀ a b s s', Sits l R a s → Sits l R b s' → List.Forall₂ (Sits l R) (u a b) (u' s s')) →
      (ss[r]?.bind fun a => (a.move l n).map fun b => ((.none : Ans T), u' a b)) = some (x, ss') →
      ∃ as', (as[r]?.bind fun a => (f a).map fun b => ((.none : Ans T), u a b)) = some (x, as') ∧
        List.Forall₂ (Sits l R) as' ss' := by
    intro r n f u u' hf hu hs
    obtain ⟨s, hr, hs⟩ := Option.bind_eq_some_iff.mp hs
    obtain ⟨s', hm, hs⟩ := Option.map_eq_some_iff.mp hs
    simp only [Prod.mk.injEq] at hs
    obtain ⟨rfl, rfl⟩ := hs
    obtain ⟨a, ea, ha⟩ := all_get h hr
    obtain ⟨b, eb, hb⟩ := hf a s s' ha hm
    exact ⟨u a b, by simp [ea, eb], hu a b s s' ha hb⟩
  cases c with
  | first rev =>
    simp only [FacadeSpec.step, Option.some.injEq, Prod.mk.injEq] at hs
    obtain ⟨rfl, rfl⟩ := hs
    exact ⟨_, rfl, all_push h (AnyIt.at_first g rev)⟩
  | last rev =>
    simp only [FacadeSpec.step, Option.some.injEq, Prod.mk.injEq] at hs
    obtain ⟨rfl, rfl⟩ := hs
    exact ⟨_, rfl, all_push h (AnyIt.at_last g rev)⟩
  | copy r =>
    obtain ⟨s, hr, hs⟩ := Option.map_eq_some_iff.mp hs
    simp only [Prod.mk.injEq] at hs
    obtain ⟨rfl, rfl⟩ := hs
    obtain ⟨a, ea, ha⟩ := all_get h hr
    exact ⟨_, by simp [Facade.step, ea], all_push h ha⟩
  | inc r => exact mv (fun _ _ _ => AnyIt.at_inc g) (fun _ _ _ _ _ hb => all_set h hb) hs
  | dec r => exact mv (fun _ _ _ => AnyIt.at_dec g) (fun _ _ _ _ _ hb => all_set h hb) hs
  | postInc r => exact mv (fun _ _ _ => AnyIt.at_inc g) (fun _ _ _ _ ha hb => all_push (all_set h hb) ha) hs
  | postDec r => exact mv (fun _ _ _ => AnyIt.at_dec g) (fun _ _ _ _ ha hb => all_push (all_set h hb) ha) hs
  | add r n => exact mv (fun _ _ _ => AnyIt.at_add g) (fun _ _ _ _ _ hb => all_set h hb) hs
  | sub r n => exact mv (fun _ _ _ => AnyIt.at_sub g) (fun _ _ _ _ _ hb => all_set h hb) hs
  | plus r n => exact mv (fun _ _ _ => AnyIt.at_add g) (fun _ _ _ _ _ hb => all_push h hb) hs
  | minus r n => exact mv (fun _ _ _ => AnyIt.at_sub g) (fun _ _ _ _ _ hb => all_push h hb) hs
  | deref r =>
    obtain ⟨s, hr, hs⟩ := Option.bind_eq_some_iff.mp hs
    obtain ⟨v, hv, hs⟩ := Option.map_eq_some_iff.mp hs
    simp only [Prod.mk.injEq] at hs
    obtain ⟨rfl, rfl⟩ := hs
    obtain ⟨a, ea, ha⟩ := all_get h hr
    obtain ⟨b, eb, hb⟩ := AnyIt.at_deref g ha hv
    exact ⟨as.set r b, by simp [Facade.step, ea, eb], all_set_left h hr hb⟩
  | index r n =>
    obtain ⟨s, hr, hs⟩ := Option.bind_eq_some_iff.mp hs
    obtain ⟨s', hm, hs⟩ := Option.bind_eq_some_iff.mp hs
    obtain ⟨v, hv, hs⟩ := Option.map_eq_some_iff.mp hs
    simp only [Prod.mk.injEq] at hs
    obtain ⟨rfl, rfl⟩ := hs
    obtain ⟨a, ea, ha⟩ := all_get h hr
    exact ⟨as, by simp [Facade.step, ea, AnyIt.at_index g ha hm hv], h⟩
  | diff r s =>
    simp only [FacadeSpec.step] at hs
    simp only [Facade.step]
    refine two_spec h hs fun a b s t ha hb hr => ?_
    obtain ⟨d, e, hd⟩ := AnyIt.at_diff g ha hb hr
    exact ⟨d, e, by rw [hd]⟩
  | eq r s =>
    simp only [FacadeSpec.step] at hs
    simp only [Facade.step]
    exact two_spec h hs fun a b s t ha hb hr => ⟨_, AnyIt.at_eq g ha hb hr, rfl⟩
  | ne r s =>
    simp only [FacadeSpec.step] at hs
    simp only [Facade.step]
    exact two_spec h hs fun a b s t ha hb hr => ⟨_, AnyIt.at_ne g ha hb hr, rfl⟩
  | lt r s =>
    simp only [FacadeSpec.step] at hs
    simp only [Facade.step]
    exact two_spec h hs fun a b s t ha hb hr => ⟨_, (AnyIt.at_cmp g ha hb hr).1, rfl⟩
  | le r s =>
    simp only [FacadeSpec.step] at hs
    simp only [Facade.step]
    exact two_spec h hs fun a b s t ha hb hr => ⟨_, (AnyIt.at_cmp g ha hb hr).2.1, rfl⟩
  | gt r s =>
    simp only [FacadeSpec.step] at hs
    simp only [Facade.step]
    exact two_spec h hs fun a b s t ha hb hr => ⟨_, (AnyIt.at_cmp g ha hb hr).2.2.1, rfl⟩
  | ge r s =>
    simp only [FacadeSpec.step] at hs
    simp only [Facade.step]
    exact two_spec h hs fun a b s t ha hb hr => ⟨_, (AnyIt.at_cmp g ha hb hr).2.2.2, rfl⟩

theorem Facade.run_spec (g : k.Good l R) : ∀ (cs : List Cmd) {as : List (AnyIt I)} {ss ss' : List SPos} {xs : List (Ans T)},
    List.Forall₂ (Sits l R) as ss → FacadeSpec.run l cs ss = some (xs, ss') →
    ∃ as', Facade.run k cs as = some (xs, as') ∧ List.Forall₂ (Sits l R) as' ss'
  | [], as, ss, ss', xs, h, hs => by
    simp only [FacadeSpec.run, Option.some.injEq, Prod.mk.injEq] at hs
    obtain ⟨rfl, rfl⟩ := hs
    exact ⟨as, rfl, h⟩
  | c :: cs, as, ss, ss', xs, h, hs => by
    obtain ⟨⟨x, s1⟩, h1, hs⟩ := Option.bind_eq_some_iff.mp hs
    obtain ⟨⟨ys, s2⟩, h2, hs⟩ := Option.map_eq_some_iff.mp hs
    simp only [Prod.mk.injEq] at hs
    obtain ⟨rfl, rfl⟩ := hs
    obtain ⟨a1, e1, h1⟩ := Facade.step_spec g h h1
    obtain ⟨a2, e2, h2⟩ := Facade.run_spec g cs h1 h2
    exact ⟨a2, by simp [Facade.run, e1, e2], h2⟩

/-! ### Loops -/

/-- `for (; it != last; ++it) use(*it);` with at most `n` rounds -/
def Facade.loop (k : Core I T) (e : AnyIt I) : Nat → AnyIt I → Option (List T)
  | n, a => (a.ne k e).bind fun go =>
      if go then
        match n with
        | 0 => none
        | n + 1 => (a.deref k).bind fun (v, b) => (b.inc k).bind fun b' => (Facade.loop k e n b').map (v :: ·)
      else some []

theorem view_length (rev : Bool) : (FacadeSpec.view l rev).length = l.length := by
  cases rev <;> simp [FacadeSpec.view]

theorem Facade.loop_spec (g : k.Good l R) (rev : Bool) {e : AnyIt I} (he : Sits l R e ⟨rev, l.length⟩) :
    ∀ (n p : Nat) (a : AnyIt I), Sits l R a ⟨rev, p⟩ → p + n = l.length →
      Facade.loop k e n a = some ((FacadeSpec.view l rev).drop p)
  | 0, p, a, ha, hp => by
    have h := AnyIt.at_ne g ha he rfl
    simp only [Nat.add_zero] at hp
    rw [Facade.loop, h, hp]
    simp [← view_length (l := l) rev]
  | n + 1, p, a, ha, hp => by
    have h := AnyIt.at_ne g ha he rfl
    have hlt : p < (FacadeSpec.view l rev).length := by rw [view_length]; omega
    obtain ⟨b, eb, hb⟩ := AnyIt.at_deref g ha (List.getElem?_eq_getElem hlt)
    obtain ⟨b', eb', hb'⟩ := AnyIt.at_inc g hb (s' := ⟨rev, p + 1⟩) (by
      simp only [SPos.move]
      rw [if_pos (by omega)]; simp)
    have ih := Facade.loop_spec g rev he n (p + 1) b' hb' (by omega)
    rw [Facade.loop, h]
    simp only [Option.bind_some, ne_eq]
    rw [if_pos (by simp; omega)]
    simp only [eb, Option.bind_some, eb', ih, Option.map_some]
    rw [List.drop_eq_getElem_cons hlt]

end refine

/-! ## The two iterators -/

theorem VecIter.good {c : Cfg} (hB : 0 < c.B) {t : Tree T} {l : List T} (h : Vec.Inv c t l) (hl : Vec.Fits c l.length)
    (h63 : l.length < 2 ^ 63) : (VecIter.core c t).Good l fun x p => x.tree = t ∧ OK c x l ∧ x.i = p := by
  have hsz := h.size_eq
  have nat : ∀ {n : Nat}, n ≤ l.length → (BitVec.ofNat 64 n).toNat = n := by
    intro n hn; simp; omega
  refine ⟨h63, ?_, ⟨rfl, ⟨h, Nat.zero_le _, trivial⟩, rfl⟩, ⟨rfl, ⟨h, by simp [core, end', hsz], trivial⟩, hsz⟩, ?_, ?_, ?_, ?_,
    ?_, ?_⟩
  · rintro x p ⟨-, h2, rfl⟩; exact h2.2.1
  · rintro x p ⟨rfl, h2, rfl⟩ hp
    refine ⟨{ x with i := x.i + 1 }, ?_, rfl, ⟨h2.1, hp, h2.2.2⟩, rfl⟩
    simp only [core]
    rw [Word.incr_spec (by omega) (by omega), Option.map_some, nat (by omega)]
  · rintro x p ⟨rfl, h2, rfl⟩ hp
    have := h2.2.1
    refine ⟨{ x with i := x.i - 1 }, ?_, rfl, ⟨h2.1, by simp only; omega, h2.2.2⟩, rfl⟩
    simp only [core]
    rw [Word.decr_spec (by omega) (by omega), Option.map_some, nat (by omega)]
  · rintro x p n ⟨rfl, h2, rfl⟩ h0 h1
    have := h2.2.1
    refine ⟨{ x with i := ((x.i : Int) + n.toInt).toNat }, ?_, rfl, ⟨h2.1, by simp only; omega, h2.2.2⟩, rfl⟩
    simp only [core]
    rw [Word.advance_spec (by omega) (by omega) h0 (by omega), Option.map_some, nat (by omega)]
  · rintro x y p q ⟨-, hx, rfl⟩ ⟨-, hy, rfl⟩
    have := hx.2.1; have := hy.2.1
    simp only [core, beq_eq_decide, decide_eq_decide]
    refine ⟨fun he => ?_, fun he => by rw [he]⟩
    rw [← nat (n := x.i) (by omega), he, nat (by omega)]
  · rintro x y p q ⟨-, hx, rfl⟩ ⟨-, hy, rfl⟩
    have := hx.2.1; have := hy.2.1
    exact Word.distanceTo_spec (by omega) (by omega)
  · rintro x p ⟨rfl, h2, rfl⟩ hp
    obtain ⟨y, e1, e2, e3, e4⟩ := deref_spec hB h2 hl hp
    exact ⟨y, e1, e2, e4, e3⟩

theorem FlexIter.good {c : Cfg} (hB : 0 < c.B) {t : Tree T} {l : List T} (h : Flex.Inv c t l)
    (h63 : l.length < 2 ^ 63) : (FlexIter.core c t).Good l fun x p => x.tree = t ∧ OK c x l ∧ x.i = p := by
  have hsz := h.size
  have nat : ∀ {n : Nat}, n ≤ l.length → (BitVec.ofNat 64 n).toNat = n := by
    intro n hn; simp; omega
  refine ⟨h63, ?_, ⟨rfl, ⟨h, Nat.zero_le _, trivial⟩, rfl⟩, ⟨rfl, ⟨h, by simp [core, end', hsz], trivial⟩, hsz⟩, ?_, ?_, ?_, ?_,
    ?_, ?_⟩
  · rintro x p ⟨-, h2, rfl⟩; exact h2.2.1
  · rintro x p ⟨rfl, h2, rfl⟩ hp
    refine ⟨{ x with i := x.i + 1 }, ?_, rfl, ⟨h2.1, hp, h2.2.2⟩, rfl⟩
    simp only [core]
    rw [Word.incr_spec (by omega) (by omega), Option.map_some, nat (by omega)]
  · rintro x p ⟨rfl, h2, rfl⟩ hp
    have := h2.2.1
    refine ⟨{ x with i := x.i - 1 }, ?_, rfl, ⟨h2.1, by simp only; omega, h2.2.2⟩, rfl⟩
    simp only [core]
    rw [Word.decr_spec (by omega) (by omega), Option.map_some, nat (by omega)]
  · rintro x p n ⟨rfl, h2, rfl⟩ h0 h1
    have := h2.2.1
    refine ⟨{ x with i := ((x.i : Int) + n.toInt).toNat }, ?_, rfl, ⟨h2.1, by simp only; omega, h2.2.2⟩, rfl⟩
    simp only [core]
    rw [Word.advance_spec (by omega) (by omega) h0 (by omega), Option.map_some, nat (by omega)]
  · rintro x y p q ⟨-, hx, rfl⟩ ⟨-, hy, rfl⟩
    have := hx.2.1; have := hy.2.1
    simp only [core, beq_eq_decide, decide_eq_decide]
    refine ⟨fun he => ?_, fun he => by rw [he]⟩
    rw [← nat (n := x.i) (by omega), he, nat (by omega)]
  · rintro x y p q ⟨-, hx, rfl⟩ ⟨-, hy, rfl⟩
    have := hx.2.1; have := hy.2.1
    exact Word.distanceTo_spec (by omega) (by omega)
  · rintro x p ⟨rfl, h2, rfl⟩ hp
    obtain ⟨y, e1, e2, e3, e4⟩ := deref_spec hB h2 hp
    exact ⟨y, e1, e2, e4, e3⟩

/-! ## C56 -/

/-- Any program over iterators and reverse iterators of a `flex_vector` with all operators, in which no iterator leaves the vector,
answers as positions in the list do: values, differences, and comparisons; nothing is undefined. -/
theorem C56_flex_iterators {c : Cfg} (hB : 2 ≤ c.B) {t : Tree T} {l : List T} (h : Flex.Reach c t l) (h63 : l.length < 2 ^ 63)
    (cs : List Cmd) {xs : List (Ans T)} {S : List FacadeSpec.SPos} (hs : FacadeSpec.run l cs [] = some (xs, S)) :
    ∃ as, Facade.run (FlexIter.core c t) cs [] = some (xs, as) := by
  obtain ⟨as, h1, -⟩ := Facade.run_spec (FlexIter.good (by omega) (h.inv hB) h63) cs .nil hs
  exact ⟨as, h1⟩

/-- The same for `vector`, with at most six inner levels unless `IMMER_DESCENT_DEEP` is set (see C20). -/
theorem C56_vector_iterators_partial {c : Cfg} (hB : 0 < c.B) {t : Tree T} {l : List T} (h : Vec.Reach c t l)
    (hl : c.deep = true ∨ l.length ≤ 2 ^ (c.BL + c.B * 6)) (h63 : l.length < 2 ^ 63)
    (cs : List Cmd) {xs : List (Ans T)} {S : List FacadeSpec.SPos} (hs : FacadeSpec.run l cs [] = some (xs, S)) :
    ∃ as, Facade.run (VecIter.core c t) cs [] = some (xs, as) := by
  obtain ⟨as, h1, -⟩ := Facade.run_spec (VecIter.good hB (h.inv hB) hl h63) cs .nil hs
  exact ⟨as, h1⟩

/-- A loop from `begin()` to `end()` ends and sees the elements in order, one from `rbegin()` to `rend()` sees them in reverse. -/
theorem C56_flex_loops {c : Cfg} (hB : 2 ≤ c.B) {t : Tree T} {l : List T} (h : Flex.Reach c t l) (h63 : l.length < 2 ^ 63) :
    Facade.loop (FlexIter.core c t) (.fwd (.end' t)) l.length (.fwd (.begin t)) = some l ∧
      Facade.loop (FlexIter.core c t) (.rev (.begin t)) l.length (.rev (.end' t)) = some l.reverse := by
  have g := FlexIter.good (by omega) (h.inv hB) h63
  have h1 := Facade.loop_spec g false (AnyIt.at_last g false) l.length 0 _ (AnyIt.at_first g false) (by simp)
  have h2 := Facade.loop_spec g true (AnyIt.at_last g true) l.length 0 _ (AnyIt.at_first g true) (by simp)
  simp only [FacadeSpec.view, List.drop_zero, Bool.false_eq_true, if_false, if_true] at h1 h2
  exact ⟨h1, h2⟩

/-- The same for `vector`. -/
theorem C56_vector_loops_partial {c : Cfg} (hB : 0 < c.B) {t : Tree T} {l : List T} (h : Vec.Reach c t l)
    (hl : c.deep = true ∨ l.length ≤ 2 ^ (c.BL + c.B * 6)) (h63 : l.length < 2 ^ 63) :
    Facade.loop (VecIter.core c t) (.fwd (.end' t)) l.length (.fwd (.begin t)) = some l ∧
      Facade.loop (VecIter.core c t) (.rev (.begin t)) l.length (.rev (.end' t)) = some l.reverse := by
  have g := VecIter.good hB (h.inv hB) hl h63
  have h1 := Facade.loop_spec g false (AnyIt.at_last g false) l.length 0 _ (AnyIt.at_first g false) (by simp)
  have h2 := Facade.loop_spec g true (AnyIt.at_last g true) l.length 0 _ (AnyIt.at_first g true) (by simp)
  simp only [FacadeSpec.view, List.drop_zero, Bool.false_eq_true, if_false, if_true] at h1 h2
  exact ⟨h1, h2⟩

/-- `ptrdiff_t` has to be able to hold the size: otherwise a difference has the wrong sign, and the opposite one is undefined -/
example : (Word.distanceTo 0#64 (BitVec.ofNat 64 (2 ^ 63))).map BitVec.toInt = some (-2 ^ 63) ∧
    Word.distanceTo (BitVec.ofNat 64 (2 ^ 63)) 0#64 = none := by decide +kernel

/-- a program over the demo of a vector with relaxed nodes: it compares and subtracts iterators, moves backwards by a negative amount,
indexes from both ends -/
example : FacadeSpec.run Flex.demoList [.first false, .plus 0 5#64, .last false, .diff 2 1, .sub 2 3#64, .lt 1 2,
    .postInc 1, .deref 3, .index 1 (-6#64), .first true, .index 4 0#64, .add 4 (-0#64), .inc 4, .deref 4, .last true, .diff 5 4, .gt 4 5] [] =
    (do some ([.none, .none, .none, .num 28, .none, .bool true, .none, .val (← Flex.demoList[5]?), .val (← Flex.demoList[0]?), .none,
      .val (← Flex.demoList[32]?), .none, .none, .val (← Flex.demoList[31]?), .none, .num 32, .bool false],
      [⟨false, 0⟩, ⟨false, 6⟩, ⟨false, 30⟩, ⟨false, 5⟩, ⟨true, 1⟩, ⟨true, 33⟩])) := by decide +kernel

end Rrb
