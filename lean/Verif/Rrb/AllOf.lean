import Verif.Rrb.VecProps
import Verif.Rrb.FlexProps

/-!
# Which calls `all_of` makes (C18)

`C18_vector_algorithms` says that `all_of` is `stdAllOf` on the elements.  Here is what this means, without `stdAllOf`: the predicate
is called on the first `k` elements in order, and all but the last call return true.

In `Algo.lean` the state of a predicate is outside of it (captured by reference).  `std::all_of` takes the predicate by value
(algorithm.hpp 219, 231), and so does `accumulate_move` (106): state within the function object is copied for every chunk, and what
one chunk does to it is lost for the next one.  `allOfOwn` models this.
-/

namespace Rrb

variable {T σ τ : Type} {c : Cfg}

namespace Algo

/-- the state after calls on the first `k` elements -/
def after (p : T → σ → Bool × σ) (l : List T) (s : σ) (k : Nat) : σ := (l.take k).foldl (fun s x => (p x s).2) s

/-- The outcome of `all_of` over `l`, from state `s`: `k` calls were made, on the first `k` elements in order.  The result is true if
all calls returned true and there are no more elements, and false if the last call is the only one that returned false. -/
def Stops (p : T → σ → Bool × σ) (l : List T) (s : σ) (r : Bool) (s' : σ) : Prop :=
  ∃ k ≤ l.length, s' = after p l s k ∧ (r = true → k = l.length) ∧ (r = false → 0 < k) ∧
    ∀ i (hi : i < l.length), i < k → ((p l[i] (after p l s i)).1 = true ↔ r = true ∨ i + 1 < k)

theorem stdAllOf_stops (p : T → σ → Bool × σ) : ∀ (l : List T) (s : σ), Stops p l s (stdAllOf p l s).1 (stdAllOf p l s).2
  | [], s => ⟨0, Nat.le_refl _, rfl, fun _ => rfl, fun h => by simp [stdAllOf] at h, fun i hi => absurd hi (by simp)⟩
  | x :: xs, s => by
    unfold stdAllOf
    split
    · rename_i hx
      obtain ⟨k, h1, h2, h3, h4, h5⟩ := stdAllOf_stops p xs (p x s).2
      refine ⟨k + 1, by simpa using h1, by rw [h2]; simp [after], fun h => by rw [h3 h]; simp, fun _ => by omega, ?_⟩
      intro i hi hk
      cases i with
      | zero =>
        have h0 : (p x s).1 = true ↔ (stdAllOf p xs (p x s).2).1 = true ∨ 0 + 1 < k + 1 := by
          refine iff_of_true hx ?_
          cases hr : (stdAllOf p xs (p x s).2).1 with
          | true => exact .inl rfl
          | false => have := h4 hr; right; omega
        exact h0
      | succ i =>
        have := h5 i (by simpa using hi) (by omega)
        simpa [after] using this
    · rename_i hx
      refine ⟨1, by simp, by simp [after], by simp, by simp, ?_⟩
      intro i hi hk
      obtain rfl : i = 0 := by omega
      simpa [after] using hx

theorem allOf_stops {l : List T} {v : ChunkFn T} (h : Visits l v) (p : T → σ → Bool × σ) (s : σ) : ∃ r s', allOf v p s = some (r, s') ∧ Stops p l s r s' :=
  ⟨_, _, allOf_spec h p s, stdAllOf_stops p l s⟩

/-- `all_of` (algorithm.hpp 215-234) with a predicate that has a state of its own, `t` at first -/
def allOfOwn (v : ChunkFn T) (p : τ → T → Bool × τ) (t : τ) : Option Bool :=
  (v (fun ch u => ((stdAllOf (fun x t => p t x) ch t).1, u)) ()).map (·.1)

/-- If what the predicate returns does not depend on its state, the copies do no harm. -/
theorem allOfOwn_pure {l : List T} {v : ChunkFn T} (h : Visits l v) (p : τ → T → Bool × τ) (q : T → Bool) (hp : ∀ t x, (p t x).1 = q x) (t : τ) :
    allOfOwn v p t = some (l.all q) := by
  have key : ∀ (ch : List T) (t : τ), (stdAllOf (fun x t => p t x) ch t).1 = ch.all q := by
    intro ch
    induction ch with
    | nil => intro t; rfl
    | cons x xs ih =>
      intro t
      unfold stdAllOf
      rw [hp, List.all_cons]
      cases hq : q x with
      | true => rw [if_pos rfl, ih]; rfl
      | false => rw [if_neg (by simp)]; rfl
  obtain ⟨chs, rfl, hv⟩ := h
  unfold allOfOwn
  rw [hv, Option.map_some]
  congr 1
  clear hv
  induction chs with
  | nil => rfl
  | cons ch chs ih =>
    unfold runP
    rw [List.flatten_cons, List.all_append]
    dsimp only
    rw [key]
    cases hq : ch.all q with
    | true => simpa [hq] using ih
    | false => simp

end Algo

/-- **C18**: `all_of` over a range of a vector calls the predicate on consecutive elements up to the first for which it returns false
and on no others, and returns whether there is none. -/
theorem Vec.C18_vector_all_of (hB : 0 < c.B) {t : Tree T} {l : List T} (h : Vec.Reach c t l) {i j : Nat} (hij : i ≤ j) (hj : j ≤ l.length)
    (p : T → σ → Bool × σ) (s : σ) :
    ∃ r s', Algo.allOf (fun fn s => Vec.forEachChunkI c fn t i j s) p s = some (r, s') ∧ Algo.Stops p ((l.take j).drop i) s r s' :=
  Algo.allOf_stops ((Vec.C18_vector_chunks hB h).2 i j hij hj) p s

/-- **C18**, the same for `flex_vector` -/
theorem Flex.C18_flex_all_of (hB : 2 ≤ c.B) {t : Tree T} {l : List T} (h : Flex.Reach c t l) {i j : Nat} (hij : i ≤ j) (hj : j ≤ l.length)
    (p : T → σ → Bool × σ) (s : σ) :
    ∃ r s', Algo.allOf (fun fn s => Flex.forEachChunkI c fn t i j s) p s = some (r, s') ∧ Algo.Stops p ((l.take j).drop i) s r s' :=
  Algo.allOf_stops ((Flex.C18_flex_chunks hB h).2 i j hij hj) p s

/-- The state is the list of calls.  On the range from 3 to 21 of the demo vector, the predicate "below 8 or 50" stops at 8. -/
example : Algo.allOf (fun fn s => Vec.forEachChunkI ⟨2, 1, false⟩ fn
    ((Vec.steps ⟨2, 1, false⟩ Vec.demoOps (Vec.empty ⟨2, 1, false⟩)).getD (Vec.empty ⟨2, 1, false⟩)) 3 21 s) (fun x s => (decide (x < 8 ∨ x = 50), s ++ [x])) [] =
    some (false, [3, 4, 50, 6, 7, 8]) := by decide +kernel

/-- F33: with a predicate that counts its calls in itself and returns false from the fifth on, `all_of` over 21 elements returns true,
since no leaf has five elements; `std::all_of` over the same elements, without copies of the predicate, returns false. -/
theorem Vec.C18_own_state : Algo.allOfOwn (fun fn s => Vec.forEachChunk ⟨2, 1, false⟩ fn
      ((Vec.steps ⟨2, 1, false⟩ Vec.demoOps (Vec.empty ⟨2, 1, false⟩)).getD (Vec.empty ⟨2, 1, false⟩)) s) (fun n (_ : Nat) => (decide (n < 4), n + 1)) 0 = some true ∧
    (Algo.stdAllOf (fun (_ : Nat) n => (decide (n < 4), n + 1)) ((List.range 21).set 5 50) 0).1 = false := by decide +kernel

end Rrb
