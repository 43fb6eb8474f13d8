import Verif.Rrb.FlexEq
import Verif.Rrb.FlexProps

/-!
# C17: `==` of flexible vectors

The code does not have the property: see `C17_tail_only_false` and `C17_higher_false`.
-/

namespace Rrb

variable {T : Type} {c : Cfg}

namespace Flex

variable {same : Node T → Node T → Bool} {samePtr : List T → List T → Bool} {eq : T → T → Bool}

/-- Comparing never goes wrong, and never says that equal vectors differ, whatever their shapes and sharing. -/
theorem C17_equal_lists (hB : 2 ≤ c.B) (hsame : ∀ a b, same a b = true → a = b)
    (hptr : ∀ a b, samePtr a b = true → a <+: b) (heq : ∀ x y, eq x y = true ↔ x = y)
    {t u : Tree T} {l m : List T} (ht : Reach c t l) (hu : Reach c u m) :
    ∃ b, equals c same samePtr eq t u = some b ∧ (l = m → b = true) := by
  obtain ⟨off, uoff, -, -, b, h1, h2⟩ := equals_spec (by omega) hsame hptr heq (ht.inv hB) (hu.inv hB)
  exact ⟨b, h1, fun h => h2.2 (by rw [h]; simp)⟩

/-- `==` is equality of the element lists, provided that: if the left operand has elements outside its tail so has the
right one; and if the left tree is higher than the right one then it does not hold more elements (outside the tail).
Missing for the full claim: these two conditions, and without either the claim is false
(`C17_tail_only_false`, `C17_higher_false`). -/
theorem C17_equality_partial (hB : 2 ≤ c.B) (hsame : ∀ a b, same a b = true → a = b)
    (hptr : ∀ a b, samePtr a b = true → a <+: b) (heq : ∀ x y, eq x y = true ↔ x = y)
    {t u : Tree T} {l m : List T} (ht : Reach c t l) (hu : Reach c u m) {off uoff : Nat}
    (hto : tailOffset c t = some off) (huo : tailOffset c u = some uoff) (h1 : 0 < off → 0 < uoff)
    (h2 : u.shift < t.shift → off ≤ uoff) :
    ∃ b, equals c same samePtr eq t u = some b ∧ (b = true ↔ l = m) := by
  obtain ⟨off', uoff', e1, e2, b, h3, h4⟩ := equals_spec (by omega) hsame hptr heq (ht.inv hB) (hu.inv hB)
  rw [hto] at e1; cases e1
  rw [huo] at e2; cases e2
  refine ⟨b, h3, ?_⟩
  rw [h4]
  constructor
  · rintro ⟨a1, a2, a3⟩
    rcases Nat.eq_zero_or_pos off with h0 | h0
    · simpa [h0] using a2
    · have a4 := a3 h0 (h1 h0)
      have key : ∀ k, off ≤ k → l.take k = m.take k → l = m := by
        intro k hk h
        have : l.take off = m.take off := by
          have := congrArg (List.take off) h
          rwa [List.take_take, List.take_take, Nat.min_eq_left hk] at this
        rw [← List.take_append_drop off l, ← List.take_append_drop off m, this, a2]
      refine key _ ?_ a4
      split
      · exact le_refl _
      · exact h2 (by omega)
  · rintro rfl
    simp

/-- What `==` does compare, in full: sizes, elements from the left tail on, and if neither tree is empty, the elements
up to the end of the lower tree (the left one if they are of equal height). -/
theorem C17_compared (hB : 2 ≤ c.B) (hsame : ∀ a b, same a b = true → a = b)
    (hptr : ∀ a b, samePtr a b = true → a <+: b) (heq : ∀ x y, eq x y = true ↔ x = y)
    {t u : Tree T} {l m : List T} (ht : Reach c t l) (hu : Reach c u m) :
    ∃ off uoff b, tailOffset c t = some off ∧ tailOffset c u = some uoff ∧ equals c same samePtr eq t u = some b ∧
      (b = true ↔ l.length = m.length ∧ l.drop off = m.drop off ∧
        (0 < off → 0 < uoff → l.take (if t.shift ≤ u.shift then off else uoff) =
          m.take (if t.shift ≤ u.shift then off else uoff))) := by
  obtain ⟨off, uoff, e1, e2, b, h1, h2⟩ := equals_spec (by omega) hsame hptr heq (ht.inv hB) (hu.inv hB)
  exact ⟨off, uoff, b, e1, e2, h1, h2⟩

/-! ### Concrete programs, `B = 2`, `BL = 1`, no shared nodes -/

/-- repeated `push_back` -/
def pushes (c : Cfg) : List T → Tree T → Option (Tree T)
  | [], t => some t
  | x :: xs, t => (pushBack c t x).bind (pushes c xs)

theorem pushes_reach (hB : 2 ≤ c.B) : ∀ (xs : List T) {t : Tree T} {l : List T}, Reach c t l →
    ∃ r, pushes c xs t = some r ∧ Reach c r (l ++ xs)
  | [], t, l, h => ⟨t, rfl, by simpa using h⟩
  | x :: xs, t, l, h => by
    obtain ⟨r, h1, -⟩ := pushBack_spec (by omega) (h.inv hB) x
    obtain ⟨r', h2, h3⟩ := pushes_reach hB xs (.push h h1)
    exact ⟨r', by simp only [pushes, h1, Option.bind_some, h2], by simpa using h3⟩

/-- elements pushed, some dropped from the front -/
def dropped (c : Cfg) (xs : List T) (n : Nat) : Option (Tree T) := (pushes c xs (empty c)).bind fun t => drop c t n

theorem dropped_reach (hB : 2 ≤ c.B) (xs : List T) (n : Nat)
    (hs : (pushes c xs (empty c)).all (fun t => decide (t.size ≤ 2 ^ 32 ∧ t.shift < 32)) = true) :
    ∃ r, dropped c xs n = some r ∧ Reach c r (xs.drop n) := by
  obtain ⟨t, h1, h2⟩ := pushes_reach hB xs .empty
  rw [h1] at hs
  simp only [Option.all_some, decide_eq_true_eq] at hs
  have hsm : Small t := ⟨hs.1, hs.2⟩
  obtain ⟨r, h3, -⟩ := drop_spec (by omega) (h2.inv hB) hsm n
  exact ⟨r, by simp only [dropped, h1, Option.bind_some, h3], .drop h2 hsm h3⟩

/-- `v == w` is true for `v = [1, 2]`, `w = [9, 2]` when `v` is `{0, 1, 2}.drop(1)`: with nothing outside the right tail,
only the left tail is compared. -/
theorem C17_tail_only_false : ∃ t u, Reach ⟨2, 1, false⟩ t [1, 2] ∧ Reach ⟨2, 1, false⟩ u [9, 2] ∧
    equals ⟨2, 1, false⟩ (fun _ _ => false) (fun _ _ => false) (fun x y : Nat => decide (x = y)) t u = some true := by
  obtain ⟨t, h1, h2⟩ := dropped_reach (c := ⟨2, 1, false⟩) (by decide) [0, 1, 2] 1 (by decide +kernel)
  obtain ⟨u, h3, h4⟩ := pushes_reach (c := ⟨2, 1, false⟩) (by decide) [9, 2] .empty
  refine ⟨t, u, h2, h4, ?_⟩
  have : ((dropped ⟨2, 1, false⟩ [0, 1, 2] 1).bind fun t => (pushes ⟨2, 1, false⟩ [9, 2] (empty ⟨2, 1, false⟩)).bind fun u =>
    equals ⟨2, 1, false⟩ (fun _ _ => false) (fun _ _ => false) (fun x y : Nat => decide (x = y)) t u) = some true := by
    decide +kernel
  simpa only [h1, h3, Option.bind_some] using this

/-- The other case: the left tree is higher than the right one and reaches further, what is between the ends of the two
trees is not compared (index 6 here). -/
theorem C17_higher_false : ∃ t u, Reach ⟨2, 1, false⟩ t [3, 4, 5, 6, 7, 8, 9, 10] ∧
    Reach ⟨2, 1, false⟩ u [3, 4, 5, 6, 7, 8, 99, 10] ∧
    equals ⟨2, 1, false⟩ (fun _ _ => false) (fun _ _ => false) (fun x y : Nat => decide (x = y)) t u = some true := by
  obtain ⟨t, h1, h2⟩ := dropped_reach (c := ⟨2, 1, false⟩) (by decide) (List.range 11) 3 (by decide +kernel)
  obtain ⟨u, h3, h4⟩ := pushes_reach (c := ⟨2, 1, false⟩) (by decide) [3, 4, 5, 6, 7, 8, 99, 10] .empty
  refine ⟨t, u, h2, h4, ?_⟩
  have : ((dropped ⟨2, 1, false⟩ (List.range 11) 3).bind fun t =>
    (pushes ⟨2, 1, false⟩ [3, 4, 5, 6, 7, 8, 99, 10] (empty ⟨2, 1, false⟩)).bind fun u =>
    equals ⟨2, 1, false⟩ (fun _ _ => false) (fun _ _ => false) (fun x y : Nat => decide (x = y)) t u) = some true := by
    decide +kernel
  simpa only [h1, h3, Option.bind_some] using this

/-- and in the other order the same two vectors are found to differ: `==` is not symmetric -/
example : ((dropped ⟨2, 1, false⟩ (List.range 11) 3).bind fun t =>
    (pushes ⟨2, 1, false⟩ [3, 4, 5, 6, 7, 8, 99, 10] (empty ⟨2, 1, false⟩)).bind fun u =>
    equals ⟨2, 1, false⟩ (fun _ _ => false) (fun _ _ => false) (fun x y : Nat => decide (x = y)) u t) = some false := by
  decide +kernel

/-- a case for `C17_equality_partial`: 30 elements, dropped 3, against the same pushed one by one, with relaxed against
regular nodes and tails of different lengths; and with one element changed -/
example : ((dropped ⟨2, 1, false⟩ (List.range 30) 3).bind fun t =>
    (pushes ⟨2, 1, false⟩ ((List.range 30).drop 3) (empty ⟨2, 1, false⟩)).bind fun u =>
    (pushes ⟨2, 1, false⟩ (((List.range 30).drop 3).set 20 0) (empty ⟨2, 1, false⟩)).bind fun w =>
    (tailOffset ⟨2, 1, false⟩ t).bind fun o => (tailOffset ⟨2, 1, false⟩ u).bind fun o' =>
    (equals ⟨2, 1, false⟩ (fun _ _ => false) (fun _ _ => false) (fun x y : Nat => decide (x = y)) t u).bind fun b =>
    (equals ⟨2, 1, false⟩ (fun _ _ => false) (fun _ _ => false) (fun x y : Nat => decide (x = y)) t w).bind fun b' =>
    some (t.shift, u.shift, o, o', b, b')) = some (3, 3, 25, 26, true, false) := by
  decide +kernel

end Flex
end Rrb
