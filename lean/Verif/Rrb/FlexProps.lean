import Verif.Rrb.FlexRead
import Verif.Rrb.VecProps
import Verif.Rrb.PlanSpec

/-!
# Properties of `immer::flex_vector`

C11 `at`, C12 concatenation, C13 slicing and inserting, C14 indexing, C15 rebalancing plan, C18 chunked traversal,
C19 iterators, C20 depth, C21 wide sizes.  Equality (C17) is in `FlexEq.lean`.

`hB : 2 ≤ c.B` is the `static_assert(Node::bits >= 2)` of `concat_leafs` (operations.hpp 1834).
-/

namespace Rrb

variable {T : Type} {c : Cfg}

namespace Flex

variable (c) in
/-- `t` is the outcome of a program on flexible vectors whose list meaning is `l`.  Where a part of the code computes
with 32-bit shifts, the operand must be `Small`: at most `2^32` elements and a `shift` below 32 (see C21). -/
inductive Reach : Tree T → List T → Prop
  | empty : Reach (empty c) []
  | ofVector {t l} : Vec.Reach c t l → Reach (ofVector t) l
  | push {t l x r} : Reach t l → pushBack c t x = some r → Reach r (l ++ [x])
  | update {t l i f r} : Reach t l → i < l.length → update c t i f = some r → Reach r (l.modify i f)
  | set {t l i x r} : Reach t l → i < l.length → assoc c t i x = some r → Reach r (l.set i x)
  | take {t l n r} : Reach t l → take c t n = some r → Reach r (l.take n)
  | drop {t l n r} : Reach t l → Small t → drop c t n = some r → Reach r (l.drop n)
  | concat {t l u m r} : Reach t l → Reach u m → Small u → concat c t u = some r → Reach r (l ++ m)
  | pushFront {t l x r} : Reach t l → Small t → pushFront c t x = some r → Reach r (x :: l)
  | insert {t l i x r} : Reach t l → Small t → insert c t i x = some r → Reach r (l.take i ++ x :: l.drop i)
  | insertAll {t l i u m r} : Reach t l → Small t → Reach u m → Small u → insertAll c t i u = some r →
      Reach r (l.take i ++ m ++ l.drop i)
  | erase {t l i r} : Reach t l → Small t → erase c t i = some r → Reach r (l.take i ++ l.drop (i + 1))
  | eraseRange {t l i j r} : Reach t l → Small t → eraseRange c t i j = some r →
      Reach r (if i < j then l.take i ++ l.drop j else l)

theorem det {o : Option (Tree T)} {r : Tree T} {l : List T} {P : Tree T → Prop} (h : o = some r)
    (hs : ∃ r', o = some r' ∧ Inv c r' l ∧ P r') : Inv c r l := by
  obtain ⟨r', h1, h2, -⟩ := hs
  rw [h] at h1
  cases h1
  exact h2

theorem range_eq (l : List T) (i j : Nat) :
    l.take i ++ l.drop (max i j) = if i < j then l.take i ++ l.drop j else l := by
  split
  · rw [Nat.max_eq_right (by omega)]
  · rw [Nat.max_eq_left (by omega), List.take_append_drop]

theorem assoc_spec (hB : 0 < c.B) {t : Tree T} {l : List T} (h : Inv c t l) {i : Nat} (hi : i < l.length)
    (x : T) : ∃ t', assoc c t i x = some t' ∧ Inv c t' (l.set i x) ∧ t'.shift = t.shift := by
  have := update_spec hB h hi (fun _ => x)
  rwa [show l.modify i (fun _ => x) = l.set i x by rw [List.modify_eq_set_getElem? ]; simp [hi]] at this

/-- programs on flexible vectors produce well formed trees with the expected elements -/
theorem Reach.inv (hB : 2 ≤ c.B) {t : Tree T} {l : List T} (h : Reach c t l) : Inv c t l := by
  have hB0 : 0 < c.B := by omega
  induction h with
  | empty => exact inv_empty
  | ofVector h => exact Inv.ofVector (h.inv hB0)
  | push _ e ih => exact det e (pushBack_spec hB0 ih _)
  | update _ hi e ih => exact det e (update_spec hB0 ih hi _)
  | set _ hi e ih => exact det e (assoc_spec hB0 ih hi _)
  | take _ e ih => exact det e (take_spec hB0 ih _)
  | drop _ hs e ih => exact det e (drop_spec hB0 ih hs _)
  | concat _ _ hs e ih ih' => exact det e (concat_spec hB ih ih' hs)
  | pushFront _ hs e ih => exact det e (pushFront_spec hB ih hs _)
  | insert _ hs e ih => exact det e (insert_spec hB ih hs _ _)
  | insertAll _ hs _ hs' e ih ih' => exact det e (insertAll_spec hB ih hs ih' hs' _)
  | erase _ hs e ih => exact det e (erase_spec hB ih hs _)
  | eraseRange _ hs e ih => rw [← range_eq]; exact det e (eraseRange_spec hB ih hs _ _)

variable (c) in
/-- what a user sees of a flexible vector: its size, its elements in iteration order -/
def Shows (t : Tree T) (l : List T) : Prop :=
  t.size = l.length ∧ Algo.copy (fun fn s => forEachChunk c fn t s) [] = some l

theorem Inv.shows (hB : 0 < c.B) {t : Tree T} {l : List T} (h : Inv c t l) : Shows c t l :=
  ⟨h.size, by simpa using Algo.copy_spec (forEachChunk_spec hB h) []⟩

/-- Every reachable flexible vector shows the elements of its list meaning. -/
theorem C13_shows (hB : 2 ≤ c.B) {t : Tree T} {l : List T} (h : Reach c t l) : Shows c t l := (h.inv hB).shows (by omega)

/-! ## C12 -/

/-- Concatenation is defined, is list concatenation, and yields a flexible vector on which every other theorem about
`Reach` applies; the height grows by at most one level over that of the higher operand.  Missing for the full claim: right
operands with more than `2^32` elements or a `shift` of 32 or more, for which the code computes 32-bit shifts (C21). -/
theorem C12_concat_partial (hB : 2 ≤ c.B) {t u : Tree T} {l m : List T} (ht : Reach c t l) (hu : Reach c u m) (hs : Small u) :
    ∃ r, concat c t u = some r ∧ Reach c r (l ++ m) ∧ Shows c r (l ++ m) ∧ r.shift ≤ max t.shift u.shift + c.B := by
  obtain ⟨r, h1, h2, h3⟩ := concat_spec hB (ht.inv hB) (hu.inv hB) hs
  exact ⟨r, h1, .concat ht hu hs h1, h2.shows (by omega), h3⟩

/-- The result of a concatenation satisfies the structural invariant: leaf sizes within capacity, exact cumulative size
tables on relaxed nodes, regular nodes full but for their last child. -/
theorem C12_concat_invariant_partial (hB : 2 ≤ c.B) {t u r : Tree T} {l m : List T} (ht : Reach c t l) (hu : Reach c u m)
    (hs : Small u) (h : concat c t u = some r) (hne : r.root ≠ emptyRoot) :
    ∃ L, r.shift = c.BL + c.B * L ∧ WF c (L + 1) r.root := by
  obtain ⟨pre, tl, -, -, -, -, -, hroot⟩ := (Reach.concat ht hu hs h).inv hB
  rcases hroot with ⟨-, h0, -⟩ | ⟨L, h1, h2⟩
  · exact absurd h0 hne
  · exact ⟨L, h1, h2.wf⟩

/-! ## C13 -/

/-- `push_back`, `take`, `set` and `update` for all trees -/
theorem C13_push_take_set (hB : 2 ≤ c.B) {t : Tree T} {l : List T} (ht : Reach c t l) :
    (∀ x, ∃ r, pushBack c t x = some r ∧ Reach c r (l ++ [x])) ∧
    (∀ n, ∃ r, take c t n = some r ∧ Reach c r (l.take n)) ∧
    (∀ i x, i < l.length → ∃ r, assoc c t i x = some r ∧ Reach c r (l.set i x)) ∧
    (∀ i f, i < l.length → ∃ r, update c t i f = some r ∧ Reach c r (l.modify i f)) := by
  have hB0 : 0 < c.B := by omega
  have h := ht.inv hB
  refine ⟨fun x => ?_, fun n => ?_, fun i x hi => ?_, fun i f hi => ?_⟩
  · obtain ⟨r, h1, -⟩ := pushBack_spec hB0 h x; exact ⟨r, h1, .push ht h1⟩
  · obtain ⟨r, h1, -⟩ := take_spec hB0 h n; exact ⟨r, h1, .take ht h1⟩
  · obtain ⟨r, h1, -⟩ := assoc_spec hB0 h hi x; exact ⟨r, h1, .set ht hi h1⟩
  · obtain ⟨r, h1, -⟩ := update_spec hB0 h hi f; exact ⟨r, h1, .update ht hi h1⟩

/-- `drop`, `push_front`, `insert` (value and vector), `erase` (index and range), for all indices including those beyond
the size.  Missing for the full claim: vectors that are not `Small` (C21). -/
theorem C13_drop_insert_erase_partial (hB : 2 ≤ c.B) {t : Tree T} {l : List T} (ht : Reach c t l) (hs : Small t) :
    (∀ n, ∃ r, drop c t n = some r ∧ Reach c r (l.drop n)) ∧
    (∀ x, ∃ r, pushFront c t x = some r ∧ Reach c r (x :: l)) ∧
    (∀ i x, ∃ r, insert c t i x = some r ∧ Reach c r (l.take i ++ x :: l.drop i)) ∧
    (∀ i u m, Reach c u m → Small u → ∃ r, insertAll c t i u = some r ∧ Reach c r (l.take i ++ m ++ l.drop i)) ∧
    (∀ i, ∃ r, erase c t i = some r ∧ Reach c r (l.take i ++ l.drop (i + 1))) ∧
    (∀ i j, ∃ r, eraseRange c t i j = some r ∧ Reach c r (if i < j then l.take i ++ l.drop j else l)) := by
  have hB0 : 0 < c.B := by omega
  have h := ht.inv hB
  refine ⟨fun n => ?_, fun x => ?_, fun i x => ?_, fun i u m hu hs' => ?_, fun i => ?_, fun i j => ?_⟩
  · obtain ⟨r, h1, -⟩ := drop_spec hB0 h hs n; exact ⟨r, h1, .drop ht hs h1⟩
  · obtain ⟨r, h1, -⟩ := pushFront_spec hB h hs x; exact ⟨r, h1, .pushFront ht hs h1⟩
  · obtain ⟨r, h1, -⟩ := insert_spec hB h hs i x; exact ⟨r, h1, .insert ht hs h1⟩
  · obtain ⟨r, h1, -⟩ := insertAll_spec hB h hs (hu.inv hB) hs' i; exact ⟨r, h1, .insertAll ht hs hu hs' h1⟩
  · obtain ⟨r, h1, -⟩ := erase_spec hB h hs i; exact ⟨r, h1, .erase ht hs h1⟩
  · obtain ⟨r, h1, -⟩ := eraseRange_spec hB h hs i j; exact ⟨r, h1, .eraseRange ht hs h1⟩

/-! ### A concrete program

`B = 2`, `BL = 1`: 23 elements, drop 3 and take 16 (unaligned on both sides), concatenated with itself, one element inserted. -/

def demo : Option (Tree Nat) := do
  let v := (Vec.steps ⟨2, 1, false⟩ ((List.range 23).map .push) (Vec.empty ⟨2, 1, false⟩)).getD (Vec.empty ⟨2, 1, false⟩)
  let a ← drop ⟨2, 1, false⟩ (ofVector v) 3
  let b ← take ⟨2, 1, false⟩ a 16
  let d ← concat ⟨2, 1, false⟩ b b
  insert ⟨2, 1, false⟩ d 20 100

def demoList : List Nat :=
  let m := ((List.range 23).drop 3).take 16
  (m ++ m).take 20 ++ 100 :: (m ++ m).drop 20

theorem demo_reach : ∃ t, demo = some t ∧ Reach ⟨2, 1, false⟩ t demoList ∧ Small t ∧ Fits ⟨2, 1, false⟩ t := by
  obtain ⟨v, h1, -⟩ := Vec.C10_operations (c := ⟨2, 1, false⟩) (by decide) ((List.range 23).map (VOp.push (T := Nat)))
    (List.range 23) (by decide +kernel)
  have hv : Reach ⟨2, 1, false⟩ (ofVector v) (List.range 23) := .ofVector ⟨_, by decide +kernel, h1⟩
  have hd : demo.map (fun t => (t.size, t.shift)) = some (33, 5) := by decide +kernel
  have hvs : (Vec.steps ⟨2, 1, false⟩ ((List.range 23).map (VOp.push (T := Nat))) (Vec.empty ⟨2, 1, false⟩)).map
    (fun t => (t.size, t.shift)) = some (23, 3) := by decide +kernel
  rw [h1] at hvs
  simp only [Option.map_some, Option.some.injEq, Prod.mk.injEq] at hvs
  simp only [demo, h1, Option.getD_some] at hd ⊢
  obtain ⟨a, a1, a2, a3⟩ := drop_spec (c := ⟨2, 1, false⟩) (by decide) (hv.inv (by decide))
    ⟨by rw [ofVector, hvs.1]; decide, by rw [ofVector, hvs.2]; decide⟩ 3
  have ha := Reach.drop hv ⟨by rw [ofVector, hvs.1]; decide, by rw [ofVector, hvs.2]; decide⟩ a1
  obtain ⟨b, b1, b2, b3⟩ := take_spec (c := ⟨2, 1, false⟩) (by decide) a2 16
  have hb := Reach.take ha b1
  simp only [ofVector] at a3
  have hbs : Small b := ⟨by rw [b2.size]; decide +kernel, by omega⟩
  obtain ⟨d, d1, d2, d3⟩ := concat_spec (c := ⟨2, 1, false⟩) (by decide) b2 b2 hbs
  have hds : Small d := ⟨by rw [d2.size]; decide +kernel, by simp only at d3; omega⟩
  have hd' := Reach.concat hb hb hbs d1
  obtain ⟨e, e1, e2, e3⟩ := insert_spec (c := ⟨2, 1, false⟩) (by decide) d2 hds 20 100
  rw [a1] at hd ⊢
  simp only [Option.bind_eq_bind, Option.bind_some, b1, d1, e1, Option.map_some, Option.some.injEq, Prod.mk.injEq] at hd ⊢
  exact ⟨e, rfl, Reach.insert hd' hds e1, ⟨by rw [hd.1]; decide, by rw [hd.2]; decide⟩, Or.inr (by rw [hd.2]; decide)⟩

/-- the demo has relaxed nodes on several levels -/
example : demo.map (fun t => match t.root with
    | .inner (some sz) (.inner (some sz') _ :: _) => (t.size, sz, sz')
    | _ => (0, [], [])) = some (33, [22, 32], [5, 13, 19, 22]) := by decide +kernel

/-! ## C14, C11 -/

/-- Indexing any reachable flexible vector finds the element at that position; it never reads a child or a size table entry
that does not exist (such reads are `none`).  Missing for the full claim: trees with more than six inner levels without
`IMMER_DESCENT_DEEP` (`C20_flex_too_deep`). -/
theorem C14_index_partial (hB : 2 ≤ c.B) {t : Tree T} {l : List T} (h : Reach c t l) (hl : Fits c t) (i : Nat)
    (hi : i < l.length) : get c t i = some l[i] := get_spec (by omega) (h.inv hB) hl hi

/-- `front` and `back` -/
theorem C14_front_back_partial (hB : 2 ≤ c.B) {t : Tree T} {l : List T} (h : Reach c t l) (hl : Fits c t) (hne : l ≠ []) :
    front c t = some (l.head hne) ∧ back c t = some (l.getLast hne) := by
  have hp := List.length_pos_iff.2 hne
  constructor
  · rw [front, C14_index_partial hB h hl 0 hp, List.head_eq_getElem]
  · have hsz := (h.inv hB).size
    rw [back, C14_index_partial hB h hl (t.size - 1) (by omega), List.getLast_eq_getElem]
    simp [hsz]

/-- Searching the leaf of any index through positions (`region_for`, used by iterators and `for_each_chunk`) works for trees
of all heights. -/
theorem C14_region (hB : 2 ≤ c.B) {t : Tree T} {l : List T} (h : Reach c t l) (i : Nat) (hi : i < l.length) :
    ∃ xs first last, regionFor c t i = some (xs, first, last) ∧ first ≤ i ∧ i < last ∧
      xs = (l.take last).drop first ∧ last ≤ l.length := by
  obtain ⟨xs, f, h1, h2, h3, pre, post, rfl, h5⟩ := regionFor_spec (by omega) (h.inv hB) hi
  refine ⟨xs, f, f + xs.length, h1, h2, h3, ?_, by simp; omega⟩
  rw [List.take_append_of_le_length (by simp; omega), List.take_of_length_le (by simp; omega), List.drop_append, ← h5]
  simp

theorem C11_flex_at_partial (hB : 2 ≤ c.B) {t : Tree T} {l : List T} (h : Reach c t l) (hl : Fits c t) (i : Nat) :
    (getCheck c t i = some (.error ()) ↔ l.length ≤ i) ∧ ∀ hi : i < l.length, getCheck c t i = some (.ok l[i]) := by
  have := getCheck_spec (by omega) (h.inv hB) hl i
  rcases Nat.lt_or_ge i l.length with hi | hi
  · rw [List.getElem?_eq_getElem hi] at this
    refine ⟨?_, fun _ => this⟩
    rw [this]
    simpa using hi
  · rw [List.getElem?_eq_none hi] at this
    exact ⟨⟨fun _ => hi, fun _ => this⟩, fun h => absurd h (Nat.not_lt.2 hi)⟩

/-- Out of range indices throw whatever the tree. -/
theorem C11_flex_throws (hB : 2 ≤ c.B) {t : Tree T} {l : List T} (h : Reach c t l) (i : Nat) (hi : l.length ≤ i) :
    getCheck c t i = some (.error ()) := by
  rw [getCheck, if_pos (by rw [(h.inv hB).size]; exact hi)]

/-! ## C15 -/

/-- The rebalancing plan, for all slot counts of nodes that have at least one and at most `2^bits` slots (`bits` is `BL` when
the nodes are leaves, `B` otherwise): it terminates and never reads or writes outside the counts it was given (such
accesses are `none`), keeps the total, keeps every node non-empty and within its capacity, does not need more nodes than it
got, and ends with fewer than `optimal + 2` nodes. -/
theorem C15_plan (hB : 0 < c.B) (L : Nat) (counts : List Nat)
    (h : ∀ x ∈ counts, 1 ≤ x ∧ x ≤ 2 ^ (if L = 0 then c.BL else c.B)) :
    ∃ res, Plan.shuffle c (c.BL + c.B * L) counts = some res ∧ res.sum = counts.sum ∧
      (∀ x ∈ res, 1 ≤ x ∧ x ≤ 2 ^ (if L = 0 then c.BL else c.B)) ∧ res.length ≤ counts.length ∧
      res.length < (counts.sum - 1) / 2 ^ (if L = 0 then c.BL else c.B) + 1 + 2 := by
  obtain ⟨res, h1, h2, h3, h4, h5, -⟩ := Plan.shuffle_spec hB (L := L) (counts := counts) h
  refine ⟨res, h1, h3, h2, h5, ?_⟩
  rw [Nat.shiftRight_eq_div_pow] at h4
  exact h4

/-- nine nodes, some full, some short -/
example : Plan.shuffle ⟨2, 2, false⟩ 2 [4, 1, 4, 4, 2, 1, 1, 3, 4] = some [4, 4, 4, 4, 1, 3, 4] ∧
    Plan.shuffle ⟨2, 2, false⟩ 2 [1, 1, 1, 1, 1, 1, 1, 1, 1] = some [4, 3, 1, 1] := by decide +kernel

/-! ## C18 -/

/-- Chunks of a flexible vector, and of a range of it, concatenate to the elements, in order and until the function
returns false. -/
theorem C18_flex_chunks (hB : 2 ≤ c.B) {t : Tree T} {l : List T} (h : Reach c t l) :
    Visits l (fun fn s => forEachChunk c fn t s) ∧
    ∀ i j, i ≤ j → j ≤ l.length → Visits ((l.take j).drop i) (fun fn s => forEachChunkI c fn t i j s) :=
  ⟨forEachChunk_spec (by omega) (h.inv hB), fun _ _ hij hj => forEachChunkI_spec (by omega) (h.inv hB) hij hj⟩

/-- `accumulate`, `for_each`, `copy`, `all_of` of `algorithm.hpp` over ranges of a flexible vector are the standard
algorithms on the elements. -/
theorem C18_flex_algorithms (hB : 2 ≤ c.B) {t : Tree T} {l : List T} (h : Reach c t l) {i j : Nat} (hij : i ≤ j)
    (hj : j ≤ l.length) {σ : Type} (s : σ) (out : List T) (op : σ → T → σ) (fn : T → σ → σ) (p : T → σ → Bool × σ) :
    Algo.accumulate (fun fn s => forEachChunkI c fn t i j s) s op = some (((l.take j).drop i).foldl op s) ∧
    Algo.forEach (fun fn s => forEachChunkI c fn t i j s) fn s = some (((l.take j).drop i).foldl (fun s x => fn x s) s) ∧
    Algo.copy (fun fn s => forEachChunkI c fn t i j s) out = some (out ++ (l.take j).drop i) ∧
    Algo.allOf (fun fn s => forEachChunkI c fn t i j s) p s = some (Algo.stdAllOf p ((l.take j).drop i) s) := by
  have hv := (C18_flex_chunks hB h).2 i j hij hj
  exact ⟨Algo.accumulate_spec hv s op, Algo.forEach_spec hv fn s, Algo.copy_spec hv out, Algo.allOf_spec hv p s⟩

/-! ## C20 -/

theorem Inv.level {t : Tree T} {l : List T} (h : Inv c t l) {k : Nat} (hl : 2 ^ (c.BL + c.B * k) + 2 ^ c.BL < l.length) :
    ∃ pre tl L, l = pre ++ tl ∧ t.size = l.length ∧ tl.length ≤ 2 ^ c.BL ∧ tailOffset c t = some pre.length ∧ k ≤ L ∧
      t.shift = c.BL + c.B * L ∧ RootOK c L t.root pre := by
  obtain ⟨pre, tl, rfl, hsz, ht, htl, htl0, hroot⟩ := h
  have hoff := tailOffset_ok hsz htl htl0 hroot
  simp only [List.length_append] at hl
  obtain ⟨L, hs, hr⟩ := hroot.cases (by rintro rfl; rw [List.length_nil] at hl; have := Nat.two_pow_pos (c.BL + c.B * k); omega)
  have hlen := hr.wf.len.2
  rw [hr.els] at hlen
  refine ⟨pre, tl, L, rfl, hsz, htl, hoff, ?_, hs, hr⟩
  by_contra hcon
  have : cap c (L + 1) ≤ cap c k := Nat.pow_le_pow_right (by omega)
    (by have : c.B * (L + 1) ≤ c.B * k := Nat.mul_le_mul_left _ (by omega)
        omega)
  simp only [cap] at hlen this
  omega

/-- Without `IMMER_DESCENT_DEEP`, indexing a flexible vector with more than `2^(BL+6B)` elements outside its tail is
undefined: the `switch` in `visit_maybe_relaxed_descent` falls through to `IMMER_UNREACHABLE`.  Such a vector can be reached
with logarithmic memory by concatenating a vector with itself. -/
theorem C20_flex_too_deep (hB : 2 ≤ c.B) (hd : c.deep = false) {t : Tree T} {l : List T} (h : Reach c t l)
    (hl : 2 ^ (c.BL + c.B * 6) + 2 ^ c.BL < l.length) (i : Nat) (hi : i + 2 ^ c.BL < l.length) : get c t i = none := by
  obtain ⟨pre, tl, L, rfl, hsz, htl, hoff, hL, hs, hr⟩ := (h.inv hB).level hl
  simp only [List.length_append] at hi
  simp only [get, descend, hoff, Option.bind_eq_bind, Option.bind_some]
  rw [if_neg (by omega), visitMaybeRelaxedDescent, hs, descentLevels_deep (by omega) L hd hL]
  rfl

variable (c) in
/-- `v = v + v`, `n` times -/
def double : Nat → Tree T → Option (Tree T)
  | 0, t => some t
  | n + 1, t => (concat c t t).bind (double n)

theorem double_reach (hB : 2 ≤ c.B) : ∀ (n : Nat) {t : Tree T} {l : List T}, Reach c t l → t.shift + n * c.B < 32 →
    l.length * 2 ^ n ≤ 2 ^ 32 → ∃ r m, double c n t = some r ∧ Reach c r m ∧ m.length = l.length * 2 ^ n
  | 0, t, l, h, _, _ => ⟨t, l, rfl, h, by simp⟩
  | n + 1, t, l, h, hs, hl => by
    have hp : 1 ≤ 2 ^ n := Nat.two_pow_pos n
    have e : l.length * 2 ^ (n + 1) = (l.length + l.length) * 2 ^ n := by rw [Nat.pow_succ]; ring
    have hle : l.length * 1 ≤ l.length * 2 ^ (n + 1) := Nat.mul_le_mul_left _ (Nat.two_pow_pos _)
    rw [Nat.add_mul, Nat.one_mul] at hs
    obtain ⟨r, r1, r2, -, r3⟩ := C12_concat_partial hB h h ⟨by rw [(h.inv hB).size]; omega, by omega⟩
    obtain ⟨r', m, h1, h2, h3⟩ := double_reach hB n r2 (by simp only [max_self] at r3; omega)
      (by rw [List.length_append, ← e]; exact hl)
    exact ⟨r', m, by simp [double, r1, h1], h2, by rw [h3, List.length_append, e]⟩

/-- With `B = 2`, `BL = 1`, a one element vector doubled 14 times has 16384 elements and cannot be indexed at 0.  (The
property "every reachable tree of feasible size has at most six inner levels" fails.) -/
theorem C20_flex_too_deep_witness : ∃ (r : Tree Nat) (m : List Nat),
    (pushBack ⟨2, 1, false⟩ (empty ⟨2, 1, false⟩) 0).bind (double ⟨2, 1, false⟩ 14) = some r ∧
    Reach ⟨2, 1, false⟩ r m ∧ m.length = 16384 ∧ get ⟨2, 1, false⟩ r 0 = none := by
  obtain ⟨t, h1, h2, h3⟩ := pushBack_spec (c := ⟨2, 1, false⟩) (by decide) inv_empty 0
  have ht := Reach.push .empty h1
  obtain ⟨r, m, d1, d2, d3⟩ := double_reach (c := ⟨2, 1, false⟩) (by decide) 14 ht (by simp only [empty] at h3 ⊢; omega)
    (by decide +kernel)
  have hm : m.length = 16384 := by rw [d3]; decide +kernel
  exact ⟨r, m, by rw [h1]; exact d1, d2, hm, C20_flex_too_deep (by decide) rfl d2 (by rw [hm]; decide +kernel) 0
    (by rw [hm]; decide +kernel)⟩

/-! ## C21 -/

/-- Sizes computed by `drop` and `concat` are exact when the operand is `Small`.  Missing for the full claim: larger
operands; `C21_drop_undefined` shows that the claim fails for them. -/
theorem C21_sizes_partial (hB : 2 ≤ c.B) {t u : Tree T} {l m : List T} (ht : Reach c t l) (hu : Reach c u m)
    (hs : Small u) (n : Nat) :
    (∃ r, drop c u n = some r ∧ r.size = m.length - n) ∧ ∃ r, concat c t u = some r ∧ r.size = l.length + m.length := by
  obtain ⟨a, a1, a2, -⟩ := drop_spec (by omega : 0 < c.B) (hu.inv hB) hs n
  obtain ⟨b, b1, b2, -⟩ := concat_spec hB (ht.inv hB) (hu.inv hB) hs
  exact ⟨⟨a, a1, by rw [a2.size]; simp⟩, b, b1, by rw [b2.size]; simp⟩

/-- `drop` on a flexible vector that shares its nodes with a vector whose root has a `shift` of 32 or more is undefined for
every `0 < n` outside the tail: `offset_hint << p.shift()` (position.hpp 657) shifts a 32-bit value by its width or more. -/
theorem C21_drop_undefined (hB : 0 < c.B) {t : Tree T} {l : List T} (h : Vec.Reach c t l) (h32 : 32 ≤ t.shift)
    (n : Nat) (h0 : 0 < n) (hn : n + 2 ^ c.BL < l.length) : drop c (ofVector t) n = none := by
  obtain ⟨pre, tl, rfl, hsz, ht, hpre, hroot⟩ := h.inv hB
  obtain ⟨hdvd, htl, htl0⟩ := Vec.Inv.parts hpre
  simp only [List.length_append] at hn
  obtain ⟨L, hs, hr, he, hL⟩ := hroot.cases (by rintro rfl; rw [List.length_nil] at hn; omega)
  have hoff := tailOffset_ok hsz htl htl0 (Or.inr ⟨L, hs, hr.wf, he, hr.str, hr.lft (by rw [he]; exact hL)⟩)
  obtain ⟨cs, e, hc, -⟩ := hr.decomp
  have hsub : Pos.maybeRelaxedSub t.root t.shift pre.length = some (.regSub t.root t.shift pre.length) := by
    rw [hc]; rfl
  have hnone : ∀ idx off, Pos.towardsSubOh c (.regSub t.root t.shift pre.length) idx off = none := by
    intro idx off
    have : Pos.shl32 off t.shift = none := by rw [Pos.shl32, if_neg (by omega)]
    simp [Pos.towardsSubOh, Pos.towardsSubRegular, this]
  have hlev : levels c t.shift = L + 1 := by rw [hs]; exact levels_shift hB L
  have hsz' : t.size = pre.length + tl.length := by rw [hsz]; simp
  simp only [drop, ofVector, if_neg (show n ≠ 0 by omega), if_neg (show ¬ t.size ≤ n by omega), hoff,
    Option.bind_eq_bind, Option.bind_some, if_neg (show n ≠ pre.length by omega), if_neg (show ¬ pre.length < n by omega),
    hsub, hlev, sliceLeft, hnone, Option.bind_none, ite_self]
  cases Pos.subindex (.regSub t.root t.shift pre.length) n <;> simp

theorem specAll_replicate (n : Nat) (x : T) (l : List T) :
    VOp.specAll (List.replicate n (.push x)) l = some (l ++ List.replicate n x) := by
  induction n generalizing l with
  | zero => simp [VOp.specAll]
  | succ n ih => simp [List.replicate_succ, VOp.specAll, VOp.spec, ih]

/-- such vectors are reachable by pushing often enough -/
theorem C21_drop_undefined_reachable (hB : 0 < c.B) (x : T) :
    ∃ (t : Tree T) (l : List T), Vec.Reach c t l ∧ 32 ≤ t.shift ∧ 1 + 2 ^ c.BL < l.length ∧ drop c (ofVector t) 1 = none := by
  have hn : 2 ^ (c.BL + c.B * 32) + 2 ^ c.BL < (List.replicate (2 ^ (c.BL + c.B * 32) + 2 ^ c.BL + 1) x).length := by
    rw [List.length_replicate]; omega
  have hsp := specAll_replicate (2 ^ (c.BL + c.B * 32) + 2 ^ c.BL + 1) x []
  rw [List.nil_append] at hsp
  generalize List.replicate (2 ^ (c.BL + c.B * 32) + 2 ^ c.BL + 1) x = l at hn hsp
  obtain ⟨t, h1, -, -⟩ := Vec.C10_operations hB _ l hsp
  have hr : Vec.Reach c t l := ⟨_, hsp, h1⟩
  obtain ⟨pre, tl, L, -, -, -, -, h2, h3, -⟩ := (Inv.ofVector (hr.inv hB)).level hn
  have h32 : 32 ≤ t.shift := by
    rw [h3]
    have : 1 * 32 ≤ c.B * L := Nat.mul_le_mul hB h2
    omega
  have hl : 1 + 2 ^ c.BL < l.length := by
    have : 2 ^ 1 ≤ 2 ^ (c.BL + c.B * 32) := Nat.pow_le_pow_right (by omega) (by omega)
    omega
  exact ⟨t, l, hr, h32, hl, C21_drop_undefined hB hr h32 1 (by omega) hl⟩

end Flex

/-! ## C19 -/

namespace FlexIter

variable (c) in
def ops : IterOps (FlexIter T) T := ⟨incr, decr, advance, deref c⟩

theorem run_spec (hB : 0 < c.B) {t : Tree T} {l : List T} (ms : List Mv) (x : FlexIter T) (vs : List T) (q : Int)
    (hx : x.tree = t) (hok : OK c x l) (hs : specMv l ms x.i = some (vs, q)) :
    ∃ y, (ops c).run ms x = some (vs, y) ∧ 0 ≤ q ∧ (y.tree = t ∧ OK c y l ∧ y.i = q.toNat) := by
  refine IterOps.run_spec (ops c) l (fun x p => x.tree = t ∧ OK c x l ∧ x.i = p) ?_ ?_ ?_ ?_ ?_ ms x x.i vs q
    ⟨hx, hok, rfl⟩ hs
  · rintro x p ⟨-, h2, rfl⟩; exact h2.2.1
  · rintro x p ⟨h1, h2, rfl⟩ hp
    refine ⟨{ x with i := x.i + 1 }, ?_, h1, ⟨h2.1, hp, h2.2.2⟩, rfl⟩
    simp [ops, incr, h2.1.size, hp]
  · rintro x p ⟨h1, h2, rfl⟩ hp
    refine ⟨{ x with i := x.i - 1 }, ?_, h1, ⟨h2.1, (by have := h2.2.1; simp; omega), h2.2.2⟩, rfl⟩
    simp [ops, decr, hp]
  · rintro x p n ⟨h1, h2, rfl⟩ hp hq
    refine ⟨{ x with i := ((x.i : Int) + n).toNat }, ?_, h1, ⟨h2.1, (by simp; omega), h2.2.2⟩, rfl⟩
    simp only [ops, advance, h2.1.size, if_pos (And.intro hp hq)]
  · rintro x p ⟨h1, h2, rfl⟩ hp
    obtain ⟨y, e1, e2, e3, e4⟩ := deref_spec hB h2 hp
    exact ⟨y, e1, by rw [e2, h1], e4, e3⟩

/-- Any sequence of `++`, `--`, `+=`, `*` on an iterator from `begin()` that stays within the vector yields the
elements at the arithmetic positions, and ends at the arithmetic position; for trees of all heights. -/
theorem C19_flex_iterator (hB : 2 ≤ c.B) {t : Tree T} {l : List T} (h : Flex.Reach c t l) (ms : List Mv) (vs : List T)
    (q : Int) (hs : specMv l ms 0 = some (vs, q)) : ∃ y, (ops c).run ms (begin t) = some (vs, y) ∧ (y.i : Int) = q := by
  obtain ⟨y, h1, h2, -, -, h3⟩ := run_spec (by omega) ms (begin t) vs q rfl ⟨h.inv hB, Nat.zero_le _, trivial⟩ hs
  exact ⟨y, h1, by omega⟩

/-- likewise from `end()` -/
theorem C19_flex_iterator_end (hB : 2 ≤ c.B) {t : Tree T} {l : List T} (h : Flex.Reach c t l) (ms : List Mv) (vs : List T)
    (q : Int) (hs : specMv l ms l.length = some (vs, q)) : ∃ y, (ops c).run ms (end' t) = some (vs, y) ∧ (y.i : Int) = q := by
  have hsz := (h.inv hB).size
  obtain ⟨y, h1, h2, -, -, h3⟩ := run_spec (by omega) ms (end' t) vs q rfl
    ⟨h.inv hB, by simp only [end']; omega, trivial⟩ (by simp only [end']; rw [hsz]; exact hs)
  exact ⟨y, h1, by omega⟩

/-- comparison and distance are those of positions -/
theorem C19_flex_distance (x y : FlexIter T) :
    (equal x y = true ↔ x.i = y.i) ∧ distanceTo x y = (y.i : Int) - x.i := by
  constructor
  · simp [equal]
  · simp only [distanceTo]; split <;> omega

/-- backwards over the seam of the demo from its end, and forwards again -/
example : specMv Flex.demoList [.decr, .deref, .advance (-15), .deref, .advance 3, .deref, .incr, .deref]
    Flex.demoList.length = some ([18, 4, 100, 7], 21) := by decide +kernel

end FlexIter
end Rrb
