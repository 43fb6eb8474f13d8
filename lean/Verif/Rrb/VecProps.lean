import Verif.Rrb.VecEq
import Verif.Rrb.SeqSpec
import Verif.Rrb.Algo

/-!
# Properties of `immer::vector`

C10 sequence behaviour, C11 `at`, C16 equality, C18 chunked traversal, C19 iterators, C20 depth.
`SeqSpec.lean` says what is expected of sequences and iterators.
-/

namespace Rrb

variable {T : Type} {c : Cfg}

namespace Vec

variable (c) in
/-- the member functions of `immer::vector` -/
def step : VOp T → Tree T → Option (Tree T)
  | .push x, t => pushBack c t x
  | .set i x, t => assoc c t i x
  | .update i f, t => update c t i f
  | .take n, t => take c t n

variable (c) in
def steps : List (VOp T) → Tree T → Option (Tree T)
  | [], t => some t
  | o :: os, t => (step c o t).bind (steps os)

variable (c) in
/-- a program on vectors that respects the preconditions ends with tree `t` and should end with elements `l` -/
def Reach (t : Tree T) (l : List T) : Prop :=
  ∃ ops, VOp.specAll ops [] = some l ∧ steps c ops (empty c) = some t

theorem modify_eq {l : List T} {i : Nat} {f : T → T} (h : i < l.length) :
    l.modify i f = l.take i ++ f l[i] :: l.drop (i + 1) := by
  rw [List.modify_eq_take_cons_drop h]

theorem step_spec (hB : 0 < c.B) {t : Tree T} {l m : List T} (h : Inv c t l) (o : VOp T) (ho : o.spec l = some m) :
    ∃ t', step c o t = some t' ∧ Inv c t' m := by
  cases o with
  | push x =>
    simp only [VOp.spec, Option.some.injEq] at ho
    subst ho
    exact pushBack_spec hB h x
  | set i x =>
    simp only [VOp.spec] at ho
    split at ho
    · rename_i hi
      simp only [Option.some.injEq] at ho
      subst ho
      have := update_spec hB h hi (fun _ => x)
      rwa [modify_eq hi] at this
    · simp at ho
  | update i f =>
    simp only [VOp.spec] at ho
    rcases Nat.lt_or_ge i l.length with hi | hi
    · rw [List.getElem?_eq_getElem hi] at ho
      simp only [Option.map_some, Option.some.injEq] at ho
      subst ho
      have := update_spec hB h hi f
      rwa [modify_eq hi] at this
    · rw [List.getElem?_eq_none hi] at ho
      simp at ho
  | take n =>
    simp only [VOp.spec, Option.some.injEq] at ho
    subst ho
    exact take_spec hB h n

theorem steps_spec (hB : 0 < c.B) : ∀ (ops : List (VOp T)) {t : Tree T} {l m : List T}, Inv c t l →
    VOp.specAll ops l = some m → ∃ t', steps c ops t = some t' ∧ Inv c t' m
  | [], t, l, m, h, ho => by
    simp only [VOp.specAll, Option.some.injEq] at ho
    subst ho
    exact ⟨t, rfl, h⟩
  | o :: os, t, l, m, h, ho => by
    simp only [VOp.specAll, Option.bind_eq_some_iff] at ho
    obtain ⟨l', h1, h2⟩ := ho
    obtain ⟨t', e1, e2⟩ := step_spec hB h o h1
    obtain ⟨t'', e3, e4⟩ := steps_spec hB os e2 h2
    exact ⟨t'', by simp [steps, e1, e3], e4⟩

theorem Reach.inv (hB : 0 < c.B) {t : Tree T} {l : List T} (h : Reach c t l) : Inv c t l := by
  obtain ⟨ops, h1, h2⟩ := h
  obtain ⟨t', h3, h4⟩ := steps_spec hB ops inv_empty h1
  rw [h2] at h3
  cases h3
  exact h4

theorem Inv.size_eq {t : Tree T} {l : List T} (h : Inv c t l) : t.size = l.length := by
  obtain ⟨_, _, _, h, _⟩ := h; exact h

/-! ## C10 -/

/-- Every program on vectors that respects the preconditions of the list operations runs without undefined
behaviour (out of bounds node accesses are `none` in the model), has the expected size and visits the expected
elements. -/
theorem C10_operations (hB : 0 < c.B) (ops : List (VOp T)) (l : List T) (h : VOp.specAll ops [] = some l) :
    ∃ t, steps c ops (empty c) = some t ∧ t.size = l.length ∧ Algo.copy (fun fn s => forEachChunk c fn t s) [] = some l := by
  obtain ⟨t, h1, h2⟩ := steps_spec hB ops inv_empty h
  refine ⟨t, h1, h2.size_eq, ?_⟩
  have := Algo.copy_spec (v := fun fn s => forEachChunk c fn t s) (forEachChunk_spec hB h2) []
  simpa using this

/-- Indexing returns the expected elements as long as the size is at most `2^(BL+6B)`, and for all sizes with
`IMMER_DESCENT_DEEP`.  Missing for the full claim: larger sizes without `IMMER_DESCENT_DEEP`; `C20_vector_too_deep`
shows that indexing is then undefined. -/
theorem C10_index_partial (hB : 0 < c.B) {t : Tree T} {l : List T} (h : Reach c t l)
    (hl : c.deep = true ∨ l.length ≤ 2 ^ (c.BL + c.B * 6)) (i : Nat) (hi : i < l.length) : get c t i = some l[i] :=
  get_spec hB (h.inv hB) hl hi

/-- `front` and `back` -/
theorem C10_front_back_partial (hB : 0 < c.B) {t : Tree T} {l : List T} (h : Reach c t l)
    (hl : c.deep = true ∨ l.length ≤ 2 ^ (c.BL + c.B * 6)) (hne : l ≠ []) :
    front c t = some (l.head hne) ∧ back c t = some (l.getLast hne) := by
  refine ⟨?_, by rw [back_spec (h.inv hB) hne, List.getLast?_eq_some_getLast hne]⟩
  have := C10_index_partial hB h hl 0 (List.length_pos_iff.2 hne)
  rw [front, this, List.head_eq_getElem]

/-- with `B = 2`, `BL = 1`: 23 pushes (two inner levels), a set, an update and a take -/
def demoOps : List (VOp Nat) :=
  (List.range 23).map .push ++ [.set 5 50, .update 22 (· + 100), .take 21]

example : VOp.specAll demoOps [] = some ((List.range 21).set 5 50) := by decide +kernel

example : Reach ⟨2, 1, false⟩ ((steps ⟨2, 1, false⟩ demoOps (empty ⟨2, 1, false⟩)).getD (empty ⟨2, 1, false⟩))
    ((List.range 21).set 5 50) := by
  refine ⟨demoOps, by decide +kernel, ?_⟩
  obtain ⟨t, h, -⟩ := C10_operations (c := ⟨2, 1, false⟩) (by decide) demoOps ((List.range 21).set 5 50)
    (by decide +kernel)
  rw [h]; rfl

/-! ## C11 -/

/-- `at` throws exactly when the index is out of range (see `C10_index_partial` for the size limit) -/
theorem C11_vector_at_partial (hB : 0 < c.B) {t : Tree T} {l : List T} (h : Reach c t l)
    (hl : c.deep = true ∨ l.length ≤ 2 ^ (c.BL + c.B * 6)) (i : Nat) :
    (getCheck c t i = some (.error ()) ↔ l.length ≤ i) ∧
    ∀ hi : i < l.length, getCheck c t i = some (.ok l[i]) := by
  have := getCheck_spec hB (h.inv hB) hl i
  rcases Nat.lt_or_ge i l.length with hi | hi
  · rw [List.getElem?_eq_getElem hi] at this
    refine ⟨?_, fun _ => this⟩
    rw [this]
    simpa using hi
  · rw [List.getElem?_eq_none hi] at this
    exact ⟨⟨fun _ => hi, fun _ => this⟩, fun h => absurd h (Nat.not_lt.2 hi)⟩

/-- Out of range indices throw whatever the size. -/
theorem C11_vector_throws (hB : 0 < c.B) {t : Tree T} {l : List T} (h : Reach c t l) (i : Nat) (hi : l.length ≤ i) :
    getCheck c t i = some (.error ()) := by
  rw [getCheck, if_pos (by rw [(h.inv hB).size_eq]; exact hi)]

/-! ## C16 -/

/-- `==` on two vectors is equality of their element lists, for any sound pointer comparison `same` -/
theorem C16_vector_equality (hB : 0 < c.B) {same : Node T → Node T → Bool} {eq : T → T → Bool}
    (hsame : ∀ a b, same a b = true → a = b) (heq : ∀ x y, eq x y = true ↔ x = y)
    {t u : Tree T} {l m : List T} (ht : Reach c t l) (hu : Reach c u m) :
    ∃ b, equals c same eq t u = some b ∧ (b = true ↔ l = m) :=
  equals_spec hB hsame heq (ht.inv hB) (hu.inv hB)

/-! ## C18 -/

/-- Chunks of a vector, and of a range of it, concatenate to the elements, in order and until the function
returns false. -/
theorem C18_vector_chunks (hB : 0 < c.B) {t : Tree T} {l : List T} (h : Reach c t l) :
    Visits l (fun fn s => forEachChunk c fn t s) ∧
    ∀ i j, i ≤ j → j ≤ l.length → Visits ((l.take j).drop i) (fun fn s => forEachChunkI c fn t i j s) :=
  ⟨forEachChunk_spec hB (h.inv hB), fun i j hij hj => by
    obtain ⟨chs, h1, -, h2⟩ := forEachChunkI_spec hB (h.inv hB) hij hj
    exact ⟨chs, h1, h2⟩⟩

/-- `accumulate`, `for_each`, `copy`, `all_of` of `algorithm.hpp` over ranges of a vector are the standard
algorithms on the elements. -/
theorem C18_vector_algorithms (hB : 0 < c.B) {t : Tree T} {l : List T} (h : Reach c t l) {i j : Nat} (hij : i ≤ j)
    (hj : j ≤ l.length) {σ : Type} (s : σ) (out : List T) (op : σ → T → σ) (fn : T → σ → σ) (p : T → σ → Bool × σ) :
    Algo.accumulate (fun fn s => forEachChunkI c fn t i j s) s op = some (((l.take j).drop i).foldl op s) ∧
    Algo.forEach (fun fn s => forEachChunkI c fn t i j s) fn s = some (((l.take j).drop i).foldl (fun s x => fn x s) s) ∧
    Algo.copy (fun fn s => forEachChunkI c fn t i j s) out = some (out ++ (l.take j).drop i) ∧
    Algo.allOf (fun fn s => forEachChunkI c fn t i j s) p s = some (Algo.stdAllOf p ((l.take j).drop i) s) := by
  have hv := (C18_vector_chunks hB h).2 i j hij hj
  exact ⟨Algo.accumulate_spec hv s op, Algo.forEach_spec hv fn s, Algo.copy_spec hv out, Algo.allOf_spec hv p s⟩

/-- a range of the demo vector that starts inside one leaf and ends in the tail -/
example : Algo.copy (fun fn s => forEachChunkI ⟨2, 1, false⟩ fn
    ((steps ⟨2, 1, false⟩ demoOps (empty ⟨2, 1, false⟩)).getD (empty ⟨2, 1, false⟩)) 15 21 s) [] =
    some [15, 16, 17, 18, 19, 20] := by decide +kernel

/-! ## C20 -/

/-- The height of a vector is the smallest one that holds its elements: `L + 1` inner levels only if the root
holds more than the `2^(BL+B*L)` elements that fit in `L` levels. -/
theorem C20_vector_depth (hB : 0 < c.B) {t : Tree T} {l : List T} (h : Reach c t l) :
    ∃ L, t.shift = c.BL + c.B * L ∧ (L = 0 ∨ 2 ^ (c.BL + c.B * L) < l.length) := by
  obtain ⟨pre, tl, rfl, hsz, ht, hpre, hroot⟩ := h.inv hB
  rcases hroot with ⟨-, -, hs⟩ | ⟨L, hs, -, -, hL⟩
  · exact ⟨0, by simpa using hs, Or.inl rfl⟩
  · refine ⟨L, hs, hL.imp_right fun h => ?_⟩
    simp only [cap] at h
    simp
    omega

/-- Without `IMMER_DESCENT_DEEP`, indexing a vector with more than `2^(BL+6B)` elements outside its tail is
undefined: the `switch` in `visit_regular_descent` falls through to `IMMER_UNREACHABLE`. -/
theorem C20_vector_too_deep (hB : 0 < c.B) (hd : c.deep = false) {t : Tree T} {l : List T} (h : Reach c t l)
    (hl : 2 ^ (c.BL + c.B * 6) + 2 ^ c.BL < l.length) (i : Nat) (hi : i + 2 ^ c.BL < l.length) : get c t i = none := by
  obtain ⟨pre, tl, rfl, hsz, ht, hpre, hroot⟩ := h.inv hB
  obtain ⟨hdvd, htl, htl0⟩ := Inv.parts hpre
  have htoff : tailOffset c t.size = pre.length := by rw [hsz, hpre]
  simp only [List.length_append] at hl hi
  obtain ⟨L, hs, hr, he, hL⟩ := hroot.cases (by rintro rfl; simp at hi; omega)
  have hlen := hr.len.2.1
  rw [he] at hlen
  have h6 : 6 ≤ L := by
    by_contra hcon
    have : cap c (L + 1) ≤ cap c 6 := Nat.pow_le_pow_right (by omega)
      (by have : c.B * (L + 1) ≤ c.B * 6 := Nat.mul_le_mul_left _ (by omega)
          omega)
    simp only [cap] at hlen this
    omega
  simp only [get, descend, htoff]
  rw [if_neg (by omega), visitRegularDescent, hs, descentLevels_deep hB L hd h6]
  rfl

/-- with `B = 1`, `BL = 1` (accepted by the `vector` template) 131 pushes are enough -/
theorem C20_vector_too_deep_witness :
    (steps ⟨1, 1, false⟩ ((List.range 131).map VOp.push) (empty ⟨1, 1, false⟩)).map (get ⟨1, 1, false⟩ · 0) =
      some none := by decide +kernel

end Vec

/-! ## C19 -/

namespace VecIter

variable (c) in
def ops : IterOps (VecIter T) T := ⟨incr, decr, advance, deref c⟩

theorem run_spec (hB : 0 < c.B) {t : Tree T} {l : List T} (h : Vec.Inv c t l) (hl : Vec.Fits c l.length)
    (ms : List Mv) (x : VecIter T) (vs : List T) (q : Int) (hx : x.tree = t) (hok : OK c x l)
    (hs : specMv l ms x.i = some (vs, q)) :
    ∃ y, (ops c).run ms x = some (vs, y) ∧ 0 ≤ q ∧ (y.tree = t ∧ OK c y l ∧ y.i = q.toNat) := by
  refine IterOps.run_spec (ops c) l (fun x p => x.tree = t ∧ OK c x l ∧ x.i = p) ?_ ?_ ?_ ?_ ?_ ms x x.i vs q
    ⟨hx, hok, rfl⟩ hs
  · rintro x p ⟨-, h2, rfl⟩; exact h2.2.1
  · rintro x p ⟨h1, h2, rfl⟩ hp
    refine ⟨{ x with i := x.i + 1 }, ?_, h1, ⟨h2.1, hp, h2.2.2⟩, rfl⟩
    simp [ops, incr, h2.1.size_eq, hp]
  · rintro x p ⟨h1, h2, rfl⟩ hp
    refine ⟨{ x with i := x.i - 1 }, ?_, h1, ⟨h2.1, (by have := h2.2.1; simp; omega), h2.2.2⟩, rfl⟩
    simp [ops, decr, hp]
  · rintro x p n ⟨h1, h2, rfl⟩ hp hq
    refine ⟨{ x with i := ((x.i : Int) + n).toNat }, ?_, h1, ⟨h2.1, (by simp; omega), h2.2.2⟩, rfl⟩
    simp only [ops, advance, h2.1.size_eq, if_pos (And.intro hp hq)]
  · rintro x p ⟨h1, h2, rfl⟩ hp
    obtain ⟨y, e1, e2, e3, e4⟩ := deref_spec hB h2 hl hp
    exact ⟨y, e1, by rw [e2, h1], e4, e3⟩

/-- Any sequence of `++`, `--`, `+=`, `*` on an iterator from `begin()` that stays within the vector yields the
elements at the arithmetic positions, and ends at the arithmetic position. -/
theorem C19_vector_iterator_partial (hB : 0 < c.B) {t : Tree T} {l : List T} (h : Vec.Reach c t l)
    (hl : c.deep = true ∨ l.length ≤ 2 ^ (c.BL + c.B * 6)) (ms : List Mv) (vs : List T) (q : Int)
    (hs : specMv l ms 0 = some (vs, q)) :
    ∃ y, (ops c).run ms (begin t) = some (vs, y) ∧ (y.i : Int) = q := by
  obtain ⟨y, h1, h2, -, -, h3⟩ := run_spec hB (h.inv hB) hl ms (begin t) vs q rfl
    ⟨h.inv hB, Nat.zero_le _, trivial⟩ hs
  exact ⟨y, h1, by omega⟩

/-- comparison and distance are those of positions -/
theorem C19_vector_distance (x y : VecIter T) :
    (equal x y = true ↔ x.i = y.i) ∧ distanceTo x y = (y.i : Int) - x.i := by
  constructor
  · simp [equal]
  · simp only [distanceTo]; split <;> omega

/-- moves across leaves and into the tail and back, with a cached leaf in between -/
example : specMv ((List.range 21).set 5 50) [.deref, .advance 5, .deref, .advance 15, .deref, .decr, .deref, .advance (-16),
    .deref] 0 = some ([0, 50, 20, 19, 3], 3) := by decide +kernel

end VecIter
end Rrb
