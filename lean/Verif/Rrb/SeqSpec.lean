/-!
# What sequences and their iterators should do

Nothing here mentions trees.
-/

namespace Rrb

/-- operations of `immer::vector` -/
inductive VOp (T : Type) where
  | push (x : T)
  | set (i : Nat) (x : T)
  | update (i : Nat) (f : T → T)
  | take (n : Nat)

namespace VOp

variable {T : Type}

/-- effect on the list of elements; `none`: the precondition `i < size()` does not hold -/
def spec : VOp T → List T → Option (List T)
  | push x, l => some (l ++ [x])
  | set i x, l => if i < l.length then some (l.take i ++ x :: l.drop (i + 1)) else none
  | update i f, l => l[i]?.map fun x => l.take i ++ f x :: l.drop (i + 1)
  | take n, l => some (l.take n)

def specAll : List (VOp T) → List T → Option (List T)
  | [], l => some l
  | o :: os, l => (o.spec l).bind (specAll os)

end VOp

/-- uses of a random access iterator -/
inductive Mv where
  | incr
  | decr
  | advance (n : Int)
  | deref

/-- the operations of an iterator type `I`; `none` is undefined behaviour -/
structure IterOps (I T : Type) where
  incr : I → Option I
  decr : I → Option I
  advance : I → Int → Option I
  deref : I → Option (T × I)

/-- run a sequence of uses, collecting the dereferenced values -/
def IterOps.run {I T : Type} (o : IterOps I T) : List Mv → I → Option (List T × I)
  | [], x => some ([], x)
  | .incr :: ms, x => (o.incr x).bind (o.run ms)
  | .decr :: ms, x => (o.decr x).bind (o.run ms)
  | .advance n :: ms, x => (o.advance x n).bind (o.run ms)
  | .deref :: ms, x => (o.deref x).bind fun (v, y) => (o.run ms y).map fun (vs, z) => (v :: vs, z)

/-- the same over positions in a list: a position is an integer from `0` to the length -/
def specMv {T : Type} (l : List T) : List Mv → Int → Option (List T × Int)
  | [], p => some ([], p)
  | .incr :: ms, p => if p < l.length then specMv l ms (p + 1) else none
  | .decr :: ms, p => if 0 < p then specMv l ms (p - 1) else none
  | .advance n :: ms, p => if 0 ≤ p + n ∧ p + n ≤ l.length then specMv l ms (p + n) else none
  | .deref :: ms, p =>
      if p < l.length then l[p.toNat]?.bind fun v => (specMv l ms p).map fun (vs, q) => (v :: vs, q) else none

/-- An iterator type whose operations act on positions as expected acts as expected on all sequences of uses. -/
theorem IterOps.run_spec {I T : Type} (o : IterOps I T) (l : List T) (R : I → Nat → Prop)
    (hle : ∀ x p, R x p → p ≤ l.length)
    (hi : ∀ x p, R x p → p < l.length → ∃ y, o.incr x = some y ∧ R y (p + 1))
    (hd : ∀ x p, R x p → 0 < p → ∃ y, o.decr x = some y ∧ R y (p - 1))
    (ha : ∀ x p n, R x p → 0 ≤ (p : Int) + n → (p : Int) + n ≤ l.length →
      ∃ y, o.advance x n = some y ∧ R y ((p : Int) + n).toNat)
    (hr : ∀ x p, R x p → (h : p < l.length) → ∃ y, o.deref x = some (l[p], y) ∧ R y p) :
    ∀ (ms : List Mv) (x : I) (p : Nat) (vs : List T) (q : Int), R x p → specMv l ms p = some (vs, q) →
      ∃ y, o.run ms x = some (vs, y) ∧ 0 ≤ q ∧ R y q.toNat
  | [], x, p, vs, q, h, hs => by
    simp only [specMv, Option.some.injEq, Prod.mk.injEq] at hs
    obtain ⟨rfl, rfl⟩ := hs
    exact ⟨x, rfl, by omega, by simpa using h⟩
  | .incr :: ms, x, p, vs, q, h, hs => by
    simp only [specMv] at hs
    split at hs
    · rename_i hlt
      obtain ⟨y, h1, h2⟩ := hi x p h (by omega)
      obtain ⟨z, h3, h4⟩ := run_spec o l R hle hi hd ha hr ms y (p + 1) vs q h2 (by simpa using hs)
      exact ⟨z, by simp [IterOps.run, h1, h3], h4⟩
    · simp at hs
  | .decr :: ms, x, p, vs, q, h, hs => by
    simp only [specMv] at hs
    split at hs
    · rename_i hlt
      obtain ⟨y, h1, h2⟩ := hd x p h (by omega)
      obtain ⟨z, h3, h4⟩ := run_spec o l R hle hi hd ha hr ms y (p - 1) vs q h2
        (by rw [show ((p - 1 : Nat) : Int) = (p : Int) - 1 by omega]; exact hs)
      exact ⟨z, by simp [IterOps.run, h1, h3], h4⟩
    · simp at hs
  | .advance n :: ms, x, p, vs, q, h, hs => by
    simp only [specMv] at hs
    split at hs
    · rename_i hlt
      obtain ⟨y, h1, h2⟩ := ha x p n h hlt.1 hlt.2
      obtain ⟨z, h3, h4⟩ := run_spec o l R hle hi hd ha hr ms y _ vs q h2
        (by rw [Int.toNat_of_nonneg hlt.1]; exact hs)
      exact ⟨z, by simp [IterOps.run, h1, h3], h4⟩
    · simp at hs
  | .deref :: ms, x, p, vs, q, h, hs => by
    simp only [specMv] at hs
    split at hs
    · rename_i hlt
      have hlt' : p < l.length := by omega
      obtain ⟨y, h1, h2⟩ := hr x p h hlt'
      simp only [Int.toNat_natCast, List.getElem?_eq_getElem hlt', Option.bind_some, Option.map_eq_some_iff,
        Prod.mk.injEq, Prod.exists] at hs
      obtain ⟨vs', q', hs, rfl, rfl⟩ := hs
      obtain ⟨z, h3, h4⟩ := run_spec o l R hle hi hd ha hr ms y p vs' q' h2 hs
      exact ⟨z, by simp [IterOps.run, h1, h3], h4⟩
    · simp at hs

end Rrb
