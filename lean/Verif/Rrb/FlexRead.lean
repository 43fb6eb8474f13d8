import Verif.Rrb.FlexSpec
import Verif.Rrb.Algo

/-!
# Reading flexible vectors: indexing, regions, chunks and iterators
-/

namespace Rrb

variable {T : Type} {c : Cfg}

namespace Flex

variable (c) in
/-- the descent of `visit_maybe_relaxed_descent` copes with the height -/
def Fits (t : Tree T) : Prop := c.deep = true ∨ t.shift < c.BL + c.B * 6

theorem Fits.level {t : Tree T} (h : Fits c t) {L : Nat} (hs : t.shift = c.BL + c.B * L) : c.deep = true ∨ L < 6 := by
  refine h.imp_right fun h => ?_
  by_contra hcon
  have : c.B * 6 ≤ c.B * L := Nat.mul_le_mul_left _ (by omega)
  omega

theorem get_spec (hB : 0 < c.B) {t : Tree T} {l : List T} (h : Inv c t l) (hl : Fits c t) {i : Nat}
    (hi : i < l.length) : get c t i = some l[i] := by
  obtain ⟨pre, tl, rfl, hsz, ht, htl, htl0, hroot⟩ := h
  have hoff := tailOffset_ok hsz htl htl0 hroot
  simp only [List.length_append] at hi
  by_cases hp : pre.length ≤ i
  · simp only [get, descend, hoff, Option.bind_eq_bind, Option.bind_some, if_pos hp, getLeaf, ht, Node.leaf?]
    rw [Nat.and_two_pow_sub_one_eq_mod, Nat.mod_eq_of_lt (by omega), List.getElem_append_right hp,
      List.getElem?_eq_getElem (by omega)]
  · obtain ⟨L, hs, hr⟩ := hroot.cases (by rintro rfl; simp at hp)
    obtain ⟨m, hm⟩ := descentLevels_shift hB L (hl.level hs)
    obtain ⟨xs, idx, h1, h2⟩ := descendMaybe_spec (c := c) m (L + 1) hr.wf i (by rw [hr.els]; omega)
    rw [hr.els] at h2
    simp only [get, descend, hoff, Option.bind_eq_bind, Option.bind_some, if_neg hp, visitMaybeRelaxedDescent, hs, hm, h1,
      getLeaf, Node.leaf?]
    rw [← h2.get, List.getElem_append_left (by omega), List.getElem?_eq_getElem (by omega)]

theorem getCheck_spec (hB : 0 < c.B) {t : Tree T} {l : List T} (h : Inv c t l) (hl : Fits c t) (i : Nat) :
    getCheck c t i = some (match l[i]? with | some x => .ok x | none => .error ()) := by
  simp only [getCheck, h.size]
  by_cases hi : l.length ≤ i
  · rw [if_pos hi, List.getElem?_eq_none hi]
  · have hi' : i < l.length := by omega
    rw [if_neg hi, get_spec hB h hl hi', List.getElem?_eq_getElem hi']; rfl

theorem regionFor_spec (hB : 0 < c.B) {t : Tree T} {l : List T} (h : Inv c t l) {i : Nat} (hi : i < l.length) :
    ∃ xs f, regionFor c t i = some (xs, f, f + xs.length) ∧ f ≤ i ∧ i < f + xs.length ∧
      ∃ pre post, l = pre ++ xs ++ post ∧ pre.length = f := by
  obtain ⟨pre, tl, rfl, hsz, ht, htl, htl0, hroot⟩ := h
  have hoff := tailOffset_ok hsz htl htl0 hroot
  simp only [List.length_append] at hi
  by_cases hp : pre.length ≤ i
  · refine ⟨tl, pre.length, ?_, hp, hi, pre, [], by simp, rfl⟩
    simp only [regionFor, hoff, Option.bind_eq_bind, Option.bind_some, if_pos hp, ht, Node.leaf?, hsz,
      List.length_append]
  · obtain ⟨L, hs, hr⟩ := hroot.cases (by rintro rfl; simp at hp)
    have hlev : levels c t.shift = L + 1 := by rw [hs]; exact levels_shift hB L
    obtain ⟨p, p1, p2, p3, p4⟩ := RootOK.sub hr
    obtain ⟨xs, o, h1, a, b, h2, h3, h4⟩ := Rrb.regionFor_spec hB (L + 1) p2 i i IdxOK.of_eq (by omega)
    refine ⟨xs, i - o, ?_, by omega, by omega, a, b ++ tl, by rw [h2]; simp, by omega⟩
    simp only [regionFor, hoff, Option.bind_eq_bind, Option.bind_some, if_neg hp, hs, p1, levels_shift hB L, h1]

theorem forEachChunk_spec (hB : 0 < c.B) {t : Tree T} {l : List T} (h : Inv c t l) :
    Visits l (fun fn s => forEachChunk c fn t s) := by
  obtain ⟨pre, tl, rfl, hsz, ht, htl, htl0, hroot⟩ := h
  have hoff := tailOffset_ok hsz htl htl0 hroot
  have hts : t.size - pre.length = tl.length := by rw [hsz]; simp
  have h1 : Chunks pre (fun fn s => if pre.length ≠ 0 then
        (Pos.maybeRelaxedSub t.root t.shift pre.length).bind fun p => chunks c fn (levels c t.shift) p s
      else some (true, s)) := by
    rcases hroot with ⟨rfl, hr, hs⟩ | ⟨L, hs, hr⟩
    · exact ⟨[], rfl, by simp, by simp [runP]⟩
    · have hlev : levels c t.shift = L + 1 := by rw [hs]; exact levels_shift hB L
      obtain ⟨p, p1, p2, p3, p4⟩ := RootOK.sub hr
      have := chunks_spec hB (L + 1) p2
      have h0 := RootOK.ne hr
      have hne : pre ≠ [] := by rintro rfl; simp at h0
      simpa [hlev, hne, hs, p1, levels_shift hB L] using this
  obtain ⟨a, ha, -, hfn⟩ := h1
  refine ⟨a ++ [tl], by simp [ha], ?_⟩
  intro σ fn s
  have e1 := hfn fn s
  simp only at e1
  simp only [forEachChunk, hoff, hts, andP, Option.bind_eq_bind, Option.bind_some]
  rw [e1]
  simp only [Option.bind_some, runP_append, chunks, Pos.node, ht, Node.leaf?, Pos.count, slice_all rfl]
  split
  · simp only [runP]
    rcases hf : fn tl (runP fn a s).2 with ⟨b, s'⟩
    cases b <;> simp [slice_all rfl, hf]
  · rfl

theorem forEachChunkI_spec (hB : 0 < c.B) {t : Tree T} {l : List T} (h : Inv c t l) {i j : Nat} (hij : i ≤ j)
    (hj : j ≤ l.length) : Visits ((l.take j).drop i) (fun fn s => forEachChunkI c fn t i j s) := by
  obtain ⟨pre, tl, rfl, hsz, ht, htl, htl0, hroot⟩ := h
  have hoff := tailOffset_ok hsz htl htl0 hroot
  have hts : t.size - pre.length = tl.length := by rw [hsz]; simp
  simp only [List.length_append] at hj
  have h1 : Chunks ((pre.take j).drop i) (fun fn s => if i < pre.length then
      (Pos.maybeRelaxedSub t.root t.shift pre.length).bind fun p =>
      chunksI c fn (levels c t.shift) p i (if j < pre.length then j else pre.length) s
      else some (true, s)) := by
    by_cases hi : i < pre.length
    · obtain ⟨L, hs, hr⟩ := hroot.cases (by rintro rfl; simp at hi)
      have hlev : levels c t.shift = L + 1 := by rw [hs]; exact levels_shift hB L
      obtain ⟨p, p1, p2, p3, p4⟩ := RootOK.sub hr
      rw [← hs] at p1
      by_cases hij' : i < j
      · have hm : (if j < pre.length then j else pre.length) = min j pre.length := by
          split <;> omega
        have := chunksI_spec hB (L + 1) p2 (first := i) (last := min j pre.length)
          (i := i) (j := min j pre.length) IdxOK.of_eq IdxOK.of_eq (by omega) (by omega) (by omega)
        have e : pre.take (min j pre.length) = pre.take j := by
          rw [← List.take_take, List.take_of_length_le (l := pre) (le_refl _)]
        rw [e] at this
        simpa [hlev, hm, hi, p1] using this
      · have : i = j := by omega
        subst this
        refine ⟨[], by simp, by simp, ?_⟩
        intro σ fn s
        simp only [hi, if_true, hlev, p1, Option.bind_some, chunksI, lt_irrefl, if_false]; rfl
    · refine ⟨[], ?_, by simp, by simp [hi, runP]⟩
      rw [List.drop_of_length_le (by simp; omega)]; rfl
  have h2 : Chunks ((tl.take (j - pre.length)).drop (i - pre.length)) (fun fn s => if pre.length < j then
      chunksI c fn 0 (.leafSub t.tail tl.length) (if pre.length < i then i - pre.length else 0) (j - pre.length) s
      else some (true, s)) := by
    have hm : (if pre.length < i then i - pre.length else 0) = i - pre.length := by split <;> omega
    by_cases hj' : pre.length < j
    · by_cases hij' : i < j
      · have := chunksI_spec hB 0 (p := .leafSub t.tail tl.length) (l := tl) ⟨ht, rfl, by omega, htl⟩ 
          (first := i - pre.length) (last := j - pre.length)
          (i := i - pre.length) (j := j - pre.length) IdxOK.of_eq IdxOK.of_eq (by omega) (by omega) (by omega)
        simpa [hm, hj'] using this
      · have : i = j := by omega
        subst this
        refine ⟨[], by simp, by simp, ?_⟩
        intro σ fn s
        simp only [hj', if_true, chunksI, lt_irrefl, if_false, Pos.node, ht, Node.leaf?, Option.bind_eq_bind,
          Option.bind_some]; rfl
    · refine ⟨[], ?_, by simp, by simp [hj', runP]⟩
      rw [(by omega : j - pre.length = 0)]; simp
  obtain ⟨chs, e1, e2, e3⟩ := h1.and h2
  refine ⟨chs, ?_, ?_⟩
  · rw [e1, List.take_append, List.drop_append]
    congr 2
    simp
    omega
  · intro σ fn s
    rw [← e3 fn s]
    simp only [forEachChunkI, hoff, hts, Option.bind_eq_bind, Option.bind_some]

end Flex

/-! ### Iterators -/

namespace FlexIter

/-- the cached region, if any, is `l[f, e)` -/
def CacheOK (l : List T) : Option (List T × Nat × Nat) → Prop
  | none => True
  | some (xs, f, e) => ∃ pre post, l = pre ++ xs ++ post ∧ pre.length = f ∧ e = f + xs.length

variable (c) in
/-- iterator over a well formed flexible vector -/
def OK (x : FlexIter T) (l : List T) : Prop := Flex.Inv c x.tree l ∧ x.i ≤ l.length ∧ CacheOK l x.cache

/-- dereferencing yields the element at the iterator's position whatever was cached, and keeps the cache right -/
theorem deref_spec (hB : 0 < c.B) {x : FlexIter T} {l : List T} (h : OK c x l) (hi : x.i < l.length) :
    ∃ y, deref c x = some (l[x.i], y) ∧ y.tree = x.tree ∧ y.i = x.i ∧ OK c y l := by
  obtain ⟨hinv, -, hcache⟩ := h
  have key : ∃ xs f e, (match x.cache with
      | some (xs, f, e) => if x.i < f ∨ e ≤ x.i then Flex.regionFor c x.tree x.i else some (xs, f, e)
      | none => Flex.regionFor c x.tree x.i) = some (xs, f, e) ∧ f ≤ x.i ∧ x.i < e ∧ CacheOK l (some (xs, f, e)) := by
    obtain ⟨xs, f, h1, h2, h3, a, b, h4, h5⟩ := Flex.regionFor_spec hB hinv hi
    have hf : CacheOK l (some (xs, f, f + xs.length)) := ⟨a, b, h4, h5, rfl⟩
    match hc : x.cache with
    | none => exact ⟨xs, f, _, h1, h2, h3, hf⟩
    | some (ys, g, e) =>
      by_cases hb : x.i < g ∨ e ≤ x.i
      · simp only [if_pos hb]; exact ⟨xs, f, _, h1, h2, h3, hf⟩
      · simp only [if_neg hb]
        rw [hc] at hcache
        exact ⟨ys, g, e, rfl, by omega, by omega, hcache⟩
  obtain ⟨xs, f, e, k1, k2, k3, k4⟩ := key
  have hd : deref c x = (match x.cache with
      | some (xs, f, e) => if x.i < f ∨ e ≤ x.i then Flex.regionFor c x.tree x.i else some (xs, f, e)
      | none => Flex.regionFor c x.tree x.i).bind fun (xs, f, e) => xs[x.i - f]?.bind fun v =>
        some (v, { x with cache := some (xs, f, e) }) := by
    simp only [deref]
    match x.cache with
    | none => rfl
    | some (ys, g, e) =>
      by_cases hb : x.i < g ∨ e ≤ x.i
      · simp only [if_pos hb]; rfl
      · simp only [if_neg hb]; rfl
  have hv : xs[x.i - f]? = some l[x.i] := by
    obtain ⟨a, b, h1, h2, h3⟩ := k4
    rw [← List.getElem?_eq_getElem hi, h1, List.append_assoc, List.getElem?_append_right (by omega),
      List.getElem?_append_left (by omega), h2]
  rw [hd, k1]
  simp only [Option.bind_some, hv]
  exact ⟨_, rfl, rfl, rfl, hinv, le_of_lt hi, k4⟩

end FlexIter
end Rrb
