import Verif.Champ.Inv

/-!
# Correctness of the node-level operations (helper lemmas; property statements are in `Props`)
-/

namespace Champ

variable {K T : Type} {c : Cfg K T}

/-! ## the node helpers under the length invariant -/

section helpers
variable {w : Nat} {nm dm : BitVec w} {vs : List T} {cs : List (Node w T)}

theorem slice_some {α : Type} {xs : List α} {i n : Nat} (h : i + n ≤ xs.length) :
    slice xs i n = some ((xs.drop i).take n) := by simp [slice, h]

theorem slice_all {α : Type} {xs : List α} {n : Nat} (h : xs.length = n) :
    slice xs 0 n = some xs := by
  rw [slice_some (by omega)]; simp [← h]

theorem slice_pre {α : Type} {xs : List α} {n : Nat} (h : n ≤ xs.length) :
    slice xs 0 n = some (xs.take n) := by
  rw [slice_some (by omega)]; simp

theorem slice_post {α : Type} {xs : List α} {i n : Nat} (hn : i + n = xs.length) :
    slice xs i n = some (xs.drop i) := by
  rw [slice_some (by omega)]
  rw [List.take_of_length_le]
  simp; omega

theorem copyInnerReplace_eq (hc : cs.length = popcount nm) {off : Nat} (ho : off < popcount nm)
    (ch : Node w T) : copyInnerReplace nm dm vs cs off ch = some (.inner nm dm vs (cs.set off ch)) := by
  simp [copyInnerReplace, slice_all hc, setAt, hc, ho]

theorem copyInnerReplaceValue_eq (hv : vs.length = popcount dm) (hc : cs.length = popcount nm)
    {off : Nat} (ho : off < popcount dm) (v : T) :
    copyInnerReplaceValue nm dm vs cs off v = some (.inner nm dm (vs.set off v) cs) := by
  simp [copyInnerReplaceValue, slice_all hv, slice_all hc, setAt, hv, ho]

theorem copyInnerReplaceMerged_eq (hv : vs.length = popcount dm) (hc : cs.length = popcount nm)
    {i : Nat} (hi : i < w) (hd : dm.getLsbD i = true) (ch : Node w T) :
    copyInnerReplaceMerged nm dm vs cs (bitOf w i) (cnt dm i) ch =
      some (.inner (nm ||| bitOf w i) (dm &&& ~~~ bitOf w i)
        (vs.take (cnt dm i) ++ vs.drop (cnt dm i + 1))
        (cs.take (cnt nm i) ++ ch :: cs.drop (cnt nm i))) := by
  have h1 := cnt_lt_popcount hd
  have h2 := cnt_le_popcount (bm := nm) (Nat.le_of_lt hi)
  unfold copyInnerReplaceMerged
  rw [rank_eq_cnt nm hi]
  simp only []
  rw [slice_pre (by omega : cnt nm i ≤ cs.length),
    slice_post (xs := cs) (i := cnt nm i) (by omega)]
  by_cases hnv : popcount dm > 1
  · rw [slice_pre (by omega : cnt dm i ≤ vs.length),
      slice_post (xs := vs) (i := cnt dm i + 1) (by omega)]
    simp [hnv]
  · have h3 : popcount dm = 1 := by omega
    have h4 : cnt dm i = 0 := by omega
    have h5 : vs.drop 1 = [] := by apply List.drop_eq_nil_of_le; omega
    simp [h3, h4, h5]

theorem copyInnerReplaceInline_eq (hv : vs.length = popcount dm) (hc : cs.length = popcount nm)
    {i : Nat} (hi : i < w) (hn : nm.getLsbD i = true) (v : T) :
    copyInnerReplaceInline nm dm vs cs (bitOf w i) (cnt nm i) v =
      some (.inner (nm &&& ~~~ bitOf w i) (dm ||| bitOf w i)
        (vs.take (cnt dm i) ++ v :: vs.drop (cnt dm i))
        (cs.take (cnt nm i) ++ cs.drop (cnt nm i + 1))) := by
  have h1 := cnt_lt_popcount hn
  have h2 := cnt_le_popcount (bm := dm) (Nat.le_of_lt hi)
  unfold copyInnerReplaceInline
  rw [rank_eq_cnt dm hi]
  simp only []
  rw [slice_pre (by omega : cnt nm i ≤ cs.length),
    slice_post (xs := cs) (i := cnt nm i + 1) (by omega)]
  by_cases hnv : popcount dm > 0
  · rw [slice_pre (by omega : cnt dm i ≤ vs.length),
      slice_post (xs := vs) (i := cnt dm i) (by omega)]
    simp [hnv]
  · have h3 : popcount dm = 0 := by omega
    have h4 : vs = [] := List.eq_nil_of_length_eq_zero (by omega)
    simp [h3, h4]

theorem copyInnerRemoveValue_eq (hv : vs.length = popcount dm) (hc : cs.length = popcount nm)
    {i : Nat} (hd : dm.getLsbD i = true) :
    copyInnerRemoveValue nm dm vs cs (bitOf w i) (cnt dm i) =
      some (.inner nm (dm &&& ~~~ bitOf w i)
        (vs.take (cnt dm i) ++ vs.drop (cnt dm i + 1)) cs) := by
  have h1 := cnt_lt_popcount hd
  unfold copyInnerRemoveValue
  simp only []
  rw [slice_all hc]
  by_cases hnv : popcount dm > 1
  · rw [slice_pre (by omega : cnt dm i ≤ vs.length),
      slice_post (xs := vs) (i := cnt dm i + 1) (by omega)]
    simp [hnv]
  · have h3 : popcount dm = 1 := by omega
    have h4 : cnt dm i = 0 := by omega
    have h5 : vs.drop 1 = [] := by apply List.drop_eq_nil_of_le; omega
    simp [h3, h4, h5]

theorem copyInnerInsertValue_eq (hv : vs.length = popcount dm) (hc : cs.length = popcount nm)
    {i : Nat} (hi : i < w) (v : T) :
    copyInnerInsertValue nm dm vs cs (bitOf w i) v =
      some (.inner nm (dm ||| bitOf w i)
        (vs.take (cnt dm i) ++ v :: vs.drop (cnt dm i)) cs) := by
  have h2 := cnt_le_popcount (bm := dm) (Nat.le_of_lt hi)
  unfold copyInnerInsertValue
  rw [rank_eq_cnt dm hi]
  simp only []
  rw [slice_all hc]
  by_cases hnv : popcount dm > 0
  · rw [slice_pre (by omega : cnt dm i ≤ vs.length),
      slice_post (xs := vs) (i := cnt dm i) (by omega)]
    simp [hnv]
  · have h3 : popcount dm = 0 := by omega
    have h4 : vs = [] := List.eq_nil_of_length_eq_zero (by omega)
    simp [h3, h4]

theorem length_insert {α : Type} {xs : List α} {n : Nat} (h : n ≤ xs.length) (v : α) :
    (xs.take n ++ v :: xs.drop n).length = xs.length + 1 := by
  simp; omega

theorem length_erase {α : Type} {xs : List α} {n : Nat} (h : n < xs.length) :
    (xs.take n ++ xs.drop (n + 1)).length + 1 = xs.length := by
  simp; omega

theorem sget_single (i : Nat) (hi : i < w) {α : Type} (x : α) (j : Nat) :
    sget (bitOf w i) [x] j = if j = i then some x else none := by
  have h := sget_insert (bm := 0#w) (xs := ([] : List α)) (by simp [popcount]) hi (by simp) x j
  simpa [sget_zero] using h

theorem popcount_bitOf (i : Nat) (hi : i < w) : popcount (bitOf w i) = 1 := by
  have h := popcount_or (bm := 0#w) hi (by simp)
  simpa [popcount_zero] using h

theorem sget_pair (i1 i2 : Nat) (h1 : i1 < w) (h2 : i2 < w) (hne : i1 ≠ i2) {α : Type} (x1 x2 : α)
    (j : Nat) :
    sget (bitOf w i1 ||| bitOf w i2) (if i1 < i2 then [x1, x2] else [x2, x1]) j =
      if j = i2 then some x2 else if j = i1 then some x1 else none := by
  have hb : (bitOf w i1).getLsbD i2 = false := by
    rw [getLsbD_bitOf h1]; simpa using fun h => hne h.symm
  have h := sget_insert (bm := bitOf w i1) (xs := [x1]) (by simp [popcount_bitOf i1 h1]) h2 hb x2 j
  rw [sget_single i1 h1] at h
  rw [← h]
  have hc : cnt (bitOf w i1) i2 = if i1 < i2 then 1 else 0 := by
    have := cnt_or (bm := 0#w) h1 (by simp) i2
    have h0 : cnt (0#w) i2 = 0 := by simp [cnt]
    rw [h0] at this
    simpa using this
  rw [hc]
  by_cases hlt : i1 < i2 <;> simp [hlt]

theorem popcount_pair (i1 i2 : Nat) (h1 : i1 < w) (h2 : i2 < w) (hne : i1 ≠ i2) :
    popcount (bitOf w i1 ||| bitOf w i2) = 2 := by
  have hb : (bitOf w i1).getLsbD i2 = false := by
    rw [getLsbD_bitOf h1]; simpa using fun h => hne h.symm
  rw [popcount_or h2 hb, popcount_bitOf i1 h1]

end helpers

/-! ## make_merged -/

theorem WF_empty (d shift p : Nat) : WF c (d + 1) shift p emptyNode := by
  refine ⟨by simp, by simp [popcount], by simp [popcount], ?_, ?_⟩
  · intro i v h; rw [sget_zero] at h; cases h
  · intro i v h; rw [sget_zero] at h; cases h

theorem elems_empty (d : Nat) : elems c (d + 1) emptyNode = [] := rfl

theorem makeMerged_spec {d shift p : Nat} (hds : shift + d * c.B = c.maxDepth * c.B)
    {v1 v2 : T} {h1 h2 : BitVec 64} (e1 : h1 = c.hash (c.key v1)) (e2 : h2 = c.hash (c.key v2))
    (hp1 : h1.toNat % 2 ^ shift = p) (hp2 : h2.toNat % 2 ^ shift = p)
    (hne : c.eqv (c.key v1) (c.key v2) = false) :
    WF c d shift p (makeMerged c d shift v1 h1 v2 h2) ∧
      List.Perm (elems c d (makeMerged c d shift v1 h1 v2 h2)) [v1, v2] := by
  induction d generalizing shift p with
  | zero =>
    subst e1 e2
    simp only [makeMerged, makeCollision, WF, elems]
    refine ⟨⟨by simp, ?_, ?_⟩, List.Perm.refl _⟩
    · intro x hx
      simp at hx
      rcases hx with rfl | rfl
      · exact hp1
      · exact hp2
    · simp [hne]
  | succ d ih =>
    have hlt1 := idx_lt c h1 shift
    have hlt2 := idx_lt c h2 shift
    have hm1 := mod_idx c hp1
    have hm2 := mod_idx c hp2
    rw [makeMerged]
    have hi1 : (c.masked h1 shift >>> shift).toNat = c.idx h1 shift := rfl
    have hi2 : (c.masked h2 shift >>> shift).toNat = c.idx h2 shift := rfl
    rw [hi1, hi2]
    by_cases heq : c.masked h1 shift = c.masked h2 shift
    · rw [if_pos heq]
      have hidx := (masked_eq_iff c h1 h2 shift).mp heq
      have := ih (shift := shift + c.B) (p := p + c.idx h1 shift * 2 ^ shift)
        (by rw [Nat.add_mul] at hds; omega) hm1 (by rw [hm2, hidx])
      set m := makeMerged c d (shift + c.B) v1 h1 v2 h2
      have hle : 2 ≤ (elems c d m).length := by rw [this.2.length_eq]; simp
      constructor
      · refine ⟨by simp, by simp [popcount], by simp [popcount_bitOf _ hlt1], ?_, ?_⟩
        · intro i v h; rw [sget_zero] at h; cases h
        · intro i ch h
          rw [sget_single _ hlt1] at h
          by_cases hii : i = c.idx h1 shift
          · simp [hii] at h; subst h; subst hii; exact ⟨this.1, hle⟩
          · simp [hii] at h
      · simpa [makeInnerChild, elems] using this.2
    · rw [if_neg heq]
      have hidx : c.idx h1 shift ≠ c.idx h2 shift := fun h => heq ((masked_eq_iff c h1 h2 shift).mpr h)
      constructor
      · refine ⟨by simp, ?_, by simp [popcount], ?_, ?_⟩
        · rw [popcount_pair _ _ hlt1 hlt2 hidx]; split <;> rfl
        · intro i v h
          rw [sget_pair _ _ hlt1 hlt2 hidx] at h
          by_cases hii : i = c.idx h2 shift
          · simp [hii] at h; subst h; rw [hii, ← e2, hm2]
          · by_cases hii1 : i = c.idx h1 shift
            · simp [hii1, hidx] at h; subst h; rw [hii1, ← e1, hm1]
            · simp [hii, hii1] at h
        · intro i v h; rw [sget_zero] at h; cases h
      · simp only [makeInner2, elems, List.flatMap_nil, List.append_nil]
        split
        · exact List.Perm.refl _
        · exact List.Perm.swap _ _ _

/-! ## lookup -/

theorem find_split {k : K} {l : List T} (hc : c.Lawful)
    (hp : l.Pairwise (fun a b => c.eqv (c.key a) (c.key b) = false)) {x : T} (hx : x ∈ l)
    (hk : c.eqv (c.key x) k = true) : l.find? (fun x => c.eqv (c.key x) k) = some x := by
  induction l with
  | nil => cases hx
  | cons a l ih =>
    rw [List.find?_cons]
    rw [List.pairwise_cons] at hp
    rcases List.mem_cons.mp hx with rfl | hx
    · simp [hk]
    · have : c.eqv (c.key a) k = false := by
        by_contra hne
        have he : c.eqv (c.key a) k = true := by simpa using hne
        have h1 := hp.1 x hx
        rw [hc.trans _ _ _ he (hc.symm _ _ hk)] at h1; cases h1
      simp only [this]
      exact ih hp.2 hx

theorem find_perm {k : K} {l l' : List T} (hc : c.Lawful)
    (hp : l.Pairwise (fun a b => c.eqv (c.key a) (c.key b) = false)) (h : List.Perm l l') :
    l.find? (fun x => c.eqv (c.key x) k) = l'.find? (fun x => c.eqv (c.key x) k) := by
  have hsymm : ∀ {a b : T}, c.eqv (c.key a) (c.key b) = false → c.eqv (c.key b) (c.key a) = false := by
    intro a b hab
    by_contra hne
    have he : c.eqv (c.key b) (c.key a) = true := by simpa using hne
    rw [hc.symm _ _ he] at hab; cases hab
  cases hf : l'.find? (fun x => c.eqv (c.key x) k) with
  | none =>
    rw [List.find?_eq_none] at hf ⊢
    intro x hx; exact hf x (h.mem_iff.mp hx)
  | some x =>
    have hx := List.mem_of_find?_eq_some hf
    have hk : c.eqv (c.key x) k = true := by simpa using List.find?_some hf
    exact find_split hc hp (h.mem_iff.mpr hx) hk

theorem getLoop_spec (hc : c.Lawful) {d shift p : Nat} {n : c.N} (h : WF c d shift p n)
    (hp : p < 2 ^ shift) {k : K} (hk : (c.hash k).toNat % 2 ^ shift = p) :
    getLoop c d n (c.hash k >>> shift) k =
      some ((elems c d n).find? (fun x => c.eqv (c.key x) k)) := by
  induction d generalizing shift p n with
  | zero =>
    cases n with
    | inner => exact h.elim
    | collision vs => rfl
  | succ d ih =>
    cases n with
    | collision => exact h.elim
    | inner nm dm vs cs =>
      have hs := h.split hc hp hk
      have hpw := h.pairwise hc hp
      have hi := idx_lt c (c.hash k) shift
      rw [getLoop]
      simp only [shifted_idx]
      set i := c.idx (c.hash k) shift with hidef
      have hnone : (rest c d nm dm vs cs i).find? (fun x => c.eqv (c.key x) k) = none := by
        rw [List.find?_eq_none]; intro x hx; simpa using h.rest_ne hc hp hk hx
      rw [find_perm hc hpw hs.1, List.find?_append, hnone, Option.or_none]
      by_cases hn : nm.getLsbD i = true
      · rw [if_pos ((and_bitOf_ne_zero hi).mpr hn), rank_eq_cnt nm hi]
        have hd : dm.getLsbD i = false := by
          have := h.1 i; rw [hn] at this; simpa using this
        have hsome := sget_isSome h.2.2.1 i
        rw [hn, Option.isSome_iff_exists] at hsome
        obtain ⟨ch, hch⟩ := hsome
        rw [slot_child hd hch]
        rw [sget_of_bit hn] at hch
        rw [hch]
        simp only [Option.bind_eq_bind, Option.bind_some]
        have hch' : sget nm cs i = some ch := by rw [sget_of_bit hn, hch]
        rw [show (c.hash k >>> shift) >>> c.B = c.hash k >>> (shift + c.B) by
          rw [BitVec.shiftRight_add]]
        exact ih (h.2.2.2.2 i ch hch').1 (prefix_lt hp hi) (mod_idx c hk)
      · have hn' : nm.getLsbD i = false := by simpa using hn
        rw [if_neg (fun hx => hn ((and_bitOf_ne_zero hi).mp hx))]
        by_cases hd : dm.getLsbD i = true
        · rw [if_pos ((and_bitOf_ne_zero hi).mpr hd), rank_eq_cnt dm hi]
          have hsome := sget_isSome h.2.1 i
          rw [hd, Option.isSome_iff_exists] at hsome
          obtain ⟨v, hv⟩ := hsome
          rw [slot_data hn' hv]
          rw [sget_of_bit hd] at hv
          rw [hv]
          simp only [Option.bind_eq_bind, Option.bind_some]
          cases hev : c.eqv (c.key v) k <;> simp [hev]
        · have hd' : dm.getLsbD i = false := by simpa using hd
          rw [if_neg (fun hx => hd ((and_bitOf_ne_zero hi).mp hx)), slot_none hn' hd']
          rfl

/-! ## insertion -/

theorem findIdx?_split {k : K} {vs : List T} {pos : Nat}
    (h : vs.findIdx? (fun x => c.eqv (c.key x) k) = some pos) :
    ∃ x, vs[pos]? = some x ∧ c.eqv (c.key x) k = true ∧ pos < vs.length ∧
      vs = vs.take pos ++ x :: vs.drop (pos + 1) := by
  rw [List.findIdx?_eq_some_iff_getElem] at h
  obtain ⟨hlt, hx, _⟩ := h
  refine ⟨vs[pos], by simp [hlt], hx, hlt, ?_⟩
  rw [List.cons_getElem_drop_succ, List.take_append_drop]

/-- removing the (unique) element equal to `k` by position is filtering -/
theorem without_split (hc : c.Lawful) {k : K} {vs : List T} {pos : Nat} {x : T}
    (hp : vs.Pairwise (fun a b => c.eqv (c.key a) (c.key b) = false))
    (hx : c.eqv (c.key x) k = true) (hs : vs = vs.take pos ++ x :: vs.drop (pos + 1)) :
    without (c := c) k vs = vs.take pos ++ vs.drop (pos + 1) := by
  rw [hs, List.pairwise_append, List.pairwise_cons] at hp
  obtain ⟨_, ⟨h2, _⟩, h3⟩ := hp
  have e1 : ∀ y ∈ vs.take pos, c.eqv (c.key y) k = false := by
    intro y hy
    have := h3 y hy x (by simp)
    by_contra hne
    have he : c.eqv (c.key y) k = true := by simpa using hne
    rw [hc.trans _ _ _ he (hc.symm _ _ hx)] at this; cases this
  have e2 : ∀ y ∈ vs.drop (pos + 1), c.eqv (c.key y) k = false := by
    intro y hy
    have := h2 y hy
    by_contra hne
    have he : c.eqv (c.key y) k = true := by simpa using hne
    rw [hc.trans _ _ _ hx (hc.symm _ _ he)] at this; cases this
  conv_lhs => rw [hs]
  rw [without_append, without_of_ne e1]
  congr 1
  have : without (c := c) k (x :: vs.drop (pos + 1)) = without (c := c) k (vs.drop (pos + 1)) := by
    simp [without, hx]
  rw [this, without_of_ne e2]

theorem pairwise_cons_without (hc : c.Lawful) {v : T} {l : List T}
    (hp : l.Pairwise (fun a b => c.eqv (c.key a) (c.key b) = false)) :
    (v :: without (c := c) (c.key v) l).Pairwise (fun a b => c.eqv (c.key a) (c.key b) = false) := by
  rw [List.pairwise_cons]
  constructor
  · intro x hx
    have := (List.mem_filter.mp hx).2
    by_contra hne
    have he : c.eqv (c.key v) (c.key x) = true := by simpa using hne
    rw [hc.symm _ _ he] at this; simp at this
  · exact hp.sublist List.filter_sublist

theorem collision_split (hc : c.Lawful) {shift p : Nat} {vs : List T}
    (h : WF c 0 shift p (.collision vs)) (k : K) :
    (∃ pos x, vs.findIdx? (fun x => c.eqv (c.key x) k) = some pos ∧ vs[pos]? = some x ∧
      c.eqv (c.key x) k = true ∧ pos < vs.length ∧
      without (c := c) k vs = vs.take pos ++ vs.drop (pos + 1) ∧ hasKey (c := c) k vs = true) ∨
    (vs.findIdx? (fun x => c.eqv (c.key x) k) = none ∧ without (c := c) k vs = vs ∧
      hasKey (c := c) k vs = false) := by
  cases hf : vs.findIdx? (fun x => c.eqv (c.key x) k) with
  | some pos =>
    left
    obtain ⟨x, h1, h2, h3, h4⟩ := findIdx?_split hf
    refine ⟨pos, x, rfl, h1, h2, h3, without_split hc h.2.2 h2 h4, ?_⟩
    rw [hasKey, List.any_eq_true]
    exact ⟨x, List.mem_of_getElem? h1, h2⟩
  | none =>
    right
    rw [List.findIdx?_eq_none_iff] at hf
    exact ⟨rfl, without_of_ne hf, hasKey_of_ne hf⟩

theorem copyCollisionReplace_eq {w : Nat} {vs : List T} {pos : Nat} (h : pos < vs.length) (v : T) :
    (copyCollisionReplace vs pos v : Option (Node w T)) =
      some (.collision (v :: (vs.take pos ++ vs.drop (pos + 1)))) := by
  simp [copyCollisionReplace, slice_pre (Nat.le_of_lt h),
    slice_post (xs := vs) (i := pos + 1) (n := vs.length - (pos + 1)) (by omega)]

theorem copyCollisionRemove_eq {w : Nat} {vs : List T} {pos : Nat} (h : pos < vs.length) :
    (copyCollisionRemove vs pos : Option (Node w T)) =
      some (.collision (vs.take pos ++ vs.drop (pos + 1))) := by
  simp [copyCollisionRemove, slice_pre (Nat.le_of_lt h),
    slice_post (xs := vs) (i := pos + 1) (n := vs.length - (pos + 1)) (by omega)]

theorem doAdd_spec (hc : c.Lawful) {d shift p : Nat} (hds : shift + d * c.B = c.maxDepth * c.B)
    {n : c.N} (h : WF c d shift p n) (hp : p < 2 ^ shift) {v : T}
    (hk : (c.hash (c.key v)).toNat % 2 ^ shift = p) :
    ∃ r, doAdd c d n v (c.hash (c.key v)) shift =
        some (r, !hasKey (c := c) (c.key v) (elems c d n)) ∧
      WF c d shift p r ∧
      List.Perm (elems c d r) (v :: without (c := c) (c.key v) (elems c d n)) := by
  induction d generalizing shift p n with
  | zero =>
    cases n with
    | inner => exact h.elim
    | collision vs =>
      have hpw := pairwise_cons_without hc (v := v) h.2.2
      have hmem : ∀ x ∈ v :: without (c := c) (c.key v) vs, (c.hash (c.key x)).toNat % 2 ^ shift = p := by
        intro x hx
        rcases List.mem_cons.mp hx with rfl | hx
        · exact hk
        · exact h.2.1 x (List.mem_of_mem_filter hx)
      rw [doAdd]
      rcases collision_split hc h (c.key v) with ⟨pos, x, hf, hx, _, hlt, hw, hh⟩ | ⟨hf, hw, hh⟩
      · rw [hf]
        simp only [copyCollisionReplace_eq hlt]
        refine ⟨.collision (v :: without (c := c) (c.key v) vs), ?_, ⟨?_, hmem, hpw⟩, List.Perm.refl _⟩
        · rw [hw]; simp [elems, hh]
        · rw [hw]; have := h.1; simp; omega
      · rw [hf]
        refine ⟨.collision (v :: without (c := c) (c.key v) vs), ?_, ⟨?_, hmem, hpw⟩, List.Perm.refl _⟩
        · rw [hw]; simp [elems, hh, copyCollisionInsert]
        · rw [hw]; have := h.1; simp; omega
  | succ d ih =>
    cases n with
    | collision => exact h.elim
    | inner nm dm vs cs =>
      obtain ⟨hs1, hs2, hs3⟩ := h.split hc hp hk
      have hi := idx_lt c (c.hash (c.key v)) shift
      have hmi := mod_idx c hk
      rw [doAdd]
      simp only []
      set i := c.idx (c.hash (c.key v)) shift with hidef
      rw [rank_eq_cnt nm hi, rank_eq_cnt dm hi, hs3]
      have hwf := h
      obtain ⟨hdis, hv, hcs, hvals, hch⟩ := h
      by_cases hn : nm.getLsbD i = true
      · rw [if_pos ((and_bitOf_ne_zero hi).mpr hn)]
        have hd : dm.getLsbD i = false := by
          have := hdis i; rw [hn] at this; simpa using this
        have hsome := sget_isSome hcs i
        rw [hn, Option.isSome_iff_exists] at hsome
        obtain ⟨ch, hch'⟩ := hsome
        have hch'' : cs[cnt nm i]? = some ch := by rw [← sget_of_bit hn, hch']
        rw [slot_child hd hch'] at hs2 ⊢
        obtain ⟨r, hr1, hr2, hr3⟩ := ih (shift := shift + c.B) (p := p + i * 2 ^ shift)
          (by rw [Nat.add_mul] at hds; omega) (hch i ch hch').1 (prefix_lt hp hi) hmi
        have hset := sget_set hcs hn r
        have hlen : (cs.set (cnt nm i) r).length = popcount nm := by simp [hcs]
        have hrl : 2 ≤ (elems c d r).length := by
          have h1 := (hch i ch hch').2
          have hpw := (hch i ch hch').1.pairwise hc (prefix_lt hp hi)
          rw [hr3.length_eq, List.length_cons]
          -- at most one element is removed
          cases hhk : hasKey (c := c) (c.key v) (elems c d ch) with
          | false =>
            rw [without_of_ne (ne_of_hasKey hhk)]; omega
          | true =>
            rw [hasKey, List.any_eq_true] at hhk
            obtain ⟨x, hx, hxk⟩ := hhk
            obtain ⟨l1, l2, hl⟩ := List.append_of_mem hx
            have hsp : elems c d ch = (elems c d ch).take l1.length ++ x ::
                (elems c d ch).drop (l1.length + 1) := by
              rw [hl]; simp
            rw [without_split hc hpw hxk hsp]
            rw [hl] at h1 ⊢
            simp at h1 ⊢; omega
        refine ⟨.inner nm dm vs (cs.set (cnt nm i) r), ?_, ?_, ?_⟩
        · simp [hch'', hr1, copyInnerReplace_eq hcs (cnt_lt_popcount hn) r]
        · refine WF_update hwf (i := i) hv hlen (fun j _ => rfl) ?_ (hdis i) (hvals i) ?_
          · intro j hj; rw [hset]; simp [hj]
          · intro ch2 h2
            rw [hset] at h2; simp at h2; subst h2
            exact ⟨hr2, hrl⟩
        · refine (elems_update (nm := nm) (dm := dm) (vs := vs) (cs := cs) hi hv hlen
            (fun j _ => rfl) ?_).trans ?_
          · intro j hj; rw [hset]; simp [hj]
          · rw [slot_child (ch := r) hd (by rw [hset]; simp)]
            refine (hr3.append_right _).trans ?_
            rw [List.cons_append]
            exact hs2.symm.cons _
      · have hn' : nm.getLsbD i = false := by simpa using hn
        rw [if_neg (fun hx => hn ((and_bitOf_ne_zero hi).mp hx))]
        by_cases hd : dm.getLsbD i = true
        · rw [if_pos ((and_bitOf_ne_zero hi).mpr hd)]
          have hsome := sget_isSome hv i
          rw [hd, Option.isSome_iff_exists] at hsome
          obtain ⟨x, hx⟩ := hsome
          have hx' : vs[cnt dm i]? = some x := by rw [← sget_of_bit hd, hx]
          rw [slot_data hn' hx] at hs2 ⊢
          have hxh := hvals i x hx
          cases hev : c.eqv (c.key x) (c.key v) with
          | true =>
            have hset := sget_set hv hd v
            have hlen : (vs.set (cnt dm i) v).length = popcount dm := by simp [hv]
            refine ⟨.inner nm dm (vs.set (cnt dm i) v) cs, ?_, ?_, ?_⟩
            · simp [hx', hev, copyInnerReplaceValue_eq hv hcs (cnt_lt_popcount hd) v, hasKey]
            · refine WF_update hwf (i := i) hlen hcs ?_ (fun j _ => rfl) (hdis i) ?_ (hch i)
              · intro j hj; rw [hset]; simp [hj]
              · intro v2 h2
                rw [hset] at h2; simp at h2; subst h2; exact hmi
            · refine (elems_update (nm := nm) (dm := dm) (vs := vs) (cs := cs) hi hlen hcs
                ?_ (fun j _ => rfl)).trans ?_
              · intro j hj; rw [hset]; simp [hj]
              · rw [slot_data (v := v) hn' (by rw [hset]; simp)]
                have : without (c := c) (c.key v) [x] = [] := by simp [without, hev]
                rw [this] at hs2
                exact hs2.symm.cons _
          | false =>
            have hxp : (c.hash (c.key x)).toNat % 2 ^ (shift + c.B) = p + i * 2 ^ shift := hxh
            have hne : c.eqv (c.key v) (c.key x) = false := by
              by_contra hne
              have he : c.eqv (c.key v) (c.key x) = true := by simpa using hne
              rw [hc.symm _ _ he] at hev; cases hev
            obtain ⟨hm1, hm2⟩ := makeMerged_spec (d := d) (shift := shift + c.B)
              (p := p + i * 2 ^ shift) (by rw [Nat.add_mul] at hds; omega) rfl rfl hmi hxp hne
            set m := makeMerged c d (shift + c.B) v (c.hash (c.key v)) x (c.hash (c.key x))
            have hins := sget_insert hcs hi hn' m
            have hers := sget_erase hv hd
            have hlc : (cs.take (cnt nm i) ++ m :: cs.drop (cnt nm i)).length =
                popcount (nm ||| bitOf c.W i) := by
              rw [length_insert (by rw [hcs]; exact cnt_le_popcount (Nat.le_of_lt hi)),
                popcount_or hi hn', hcs]
            have hlv : (vs.take (cnt dm i) ++ vs.drop (cnt dm i + 1)).length =
                popcount (dm &&& ~~~ bitOf c.W i) := by
              have h1 := length_erase (xs := vs) (n := cnt dm i)
                (by rw [hv]; exact cnt_lt_popcount hd)
              have h2 := popcount_andNot hi hd
              omega
            have hdb : (dm &&& ~~~ bitOf c.W i).getLsbD i = false := by simp [getLsbD_andNot hi]
            refine ⟨.inner (nm ||| bitOf c.W i) (dm &&& ~~~ bitOf c.W i)
              (vs.take (cnt dm i) ++ vs.drop (cnt dm i + 1))
              (cs.take (cnt nm i) ++ m :: cs.drop (cnt nm i)), ?_, ?_, ?_⟩
            rotate_left
            · refine WF_update (i := i) hwf hlv hlc ?_ ?_ (by simp [hdb]) ?_ ?_
              · intro j hj; rw [hers]; simp [hj]
              · intro j hj; rw [hins]; simp [hj]
              · intro v2 h2; rw [hers] at h2; simp at h2
              · intro ch2 h2
                rw [hins] at h2; simp at h2; subst h2
                exact ⟨hm1, by rw [hm2.length_eq]; simp⟩
            · refine (elems_update (nm := nm) (dm := dm) (vs := vs) (cs := cs) hi hlv hlc ?_ ?_).trans ?_
              · intro j hj; rw [hers]; simp [hj]
              · intro j hj; rw [hins]; simp [hj]
              · rw [slot_child (ch := m) hdb (by rw [hins]; simp)]
                have : without (c := c) (c.key v) [x] = [x] := by simp [without, hev]
                rw [this] at hs2
                refine (hm2.append_right _).trans ?_
                simp only [List.cons_append, List.nil_append]
                exact hs2.symm.cons _
            · simp [hx', hev, copyInnerReplaceMerged_eq hv hcs hi hd, hasKey, m]
        · have hd' : dm.getLsbD i = false := by simpa using hd
          rw [if_neg (fun hx => hd ((and_bitOf_ne_zero hi).mp hx))]
          rw [slot_none hn' hd'] at hs2 ⊢
          have hins := sget_insert hv hi hd' v
          have hlv : (vs.take (cnt dm i) ++ v :: vs.drop (cnt dm i)).length =
              popcount (dm ||| bitOf c.W i) := by
            rw [length_insert (by rw [hv]; exact cnt_le_popcount (Nat.le_of_lt hi)),
              popcount_or hi hd', hv]
          refine ⟨.inner nm (dm ||| bitOf c.W i)
            (vs.take (cnt dm i) ++ v :: vs.drop (cnt dm i)) cs, ?_, ?_, ?_⟩
          rotate_left
          · refine WF_update (i := i) hwf hlv hcs ?_ (fun j _ => rfl) (by simp [hn']) ?_ (hch i)
            · intro j hj; rw [hins]; simp [hj]
            · intro v2 h2; rw [hins] at h2; simp at h2; subst h2; exact hmi
          · refine (elems_update (nm := nm) (dm := dm) (vs := vs) (cs := cs) hi hlv hcs ?_
              (fun j _ => rfl)).trans ?_
            · intro j hj; rw [hins]; simp [hj]
            · rw [slot_data (v := v) hn' (by rw [hins]; simp)]
              have : without (c := c) (c.key v) [] = [] := rfl
              rw [this] at hs2
              exact hs2.symm.cons v
          · simp [copyInnerInsertValue_eq hv hcs hi, hasKey]

/-! ## update -/

theorem eqv_congr_right (hc : c.Lawful) {a k k' : K} (h : c.eqv k k' = true) :
    c.eqv a k = c.eqv a k' := by
  rw [Bool.eq_iff_iff]
  constructor
  · intro h1; exact hc.trans _ _ _ h1 h
  · intro h1; exact hc.trans _ _ _ h1 (hc.symm _ _ h)

theorem find_of_hasKey {k : K} {l : List T} :
    (l.find? (fun x => c.eqv (c.key x) k)).isSome = hasKey (c := c) k l := by
  rw [hasKey, Bool.eq_iff_iff, List.find?_isSome, List.any_eq_true]

theorem find_slot (hc : c.Lawful) {d shift p : Nat} {nm dm : BitVec c.W} {vs : List T}
    {cs : List c.N} (h : WF c (d + 1) shift p (.inner nm dm vs cs)) (hp : p < 2 ^ shift) {k : K}
    (hk : (c.hash k).toNat % 2 ^ shift = p) :
    (elems c (d + 1) (.inner nm dm vs cs)).find? (fun x => c.eqv (c.key x) k) =
      (slot c d nm dm vs cs (c.idx (c.hash k) shift)).find? (fun x => c.eqv (c.key x) k) := by
  have hnone : (rest c d nm dm vs cs (c.idx (c.hash k) shift)).find?
      (fun x => c.eqv (c.key x) k) = none := by
    rw [List.find?_eq_none]; intro x hx; simpa using h.rest_ne hc hp hk hx
  rw [find_perm hc (h.pairwise hc hp) (h.split hc hp hk).1, List.find?_append, hnone, Option.or_none]

variable {P σ : Type}

theorem doUpdate_eq (hc : c.Lawful) (u : Upd K T P σ) {k : K}
    (hu : ∀ y, c.eqv (c.key (u.combine k y)) k = true)
    {d shift p : Nat} {n : c.N} (h : WF c d shift p n) (hp : p < 2 ^ shift)
    (hk : (c.hash k).toNat % 2 ^ shift = p) (s : σ) :
    doUpdate c u d n k (c.hash k) shift s =
      (doAdd c d n
        (u.combine k (u.fn (((elems c d n).find? (fun x => c.eqv (c.key x) k)).elim
          u.dflt u.project) s).1) (c.hash k) shift).map
        (fun r => (r, (u.fn (((elems c d n).find? (fun x => c.eqv (c.key x) k)).elim
          u.dflt u.project) s).2)) := by
  induction d generalizing shift p n with
  | zero =>
    cases n with
    | inner => exact h.elim
    | collision vs =>
      rw [doUpdate, doAdd]
      simp only [eqv_congr_right hc (hu _), elems]
      rcases collision_split hc h k with ⟨pos, x, hf, hx, hxk, hlt, hw, hh⟩ | ⟨hf, hw, hh⟩
      · rw [find_split hc h.2.2 (List.mem_of_getElem? hx) hxk]
        simp [hf, hx, copyCollisionReplace_eq hlt]
      · have : vs.find? (fun x => c.eqv (c.key x) k) = none := by
          rw [← Option.not_isSome_iff_eq_none, find_of_hasKey, hh]; simp
        simp [hf, this]
  | succ d ih =>
    cases n with
    | collision => exact h.elim
    | inner nm dm vs cs =>
      rw [find_slot hc h hp hk]
      have hi := idx_lt c (c.hash k) shift
      rw [doUpdate, doAdd]
      simp only []
      set i := c.idx (c.hash k) shift with hidef
      rw [rank_eq_cnt nm hi, rank_eq_cnt dm hi]
      obtain ⟨hdis, hv, hcs, hvals, hch⟩ := h
      by_cases hn : nm.getLsbD i = true
      · rw [if_pos ((and_bitOf_ne_zero hi).mpr hn), if_pos ((and_bitOf_ne_zero hi).mpr hn)]
        have hd : dm.getLsbD i = false := by
          have := hdis i; rw [hn] at this; simpa using this
        have hsome := sget_isSome hcs i
        rw [hn, Option.isSome_iff_exists] at hsome
        obtain ⟨ch, hch'⟩ := hsome
        have hch'' : cs[cnt nm i]? = some ch := by rw [← sget_of_bit hn, hch']
        rw [slot_child hd hch']
        simp only [hch'', Option.bind_eq_bind, Option.bind_some]
        rw [ih (hch i ch hch').1 (prefix_lt hp hi) (mod_idx c hk)]
        cases doAdd c d ch _ (c.hash k) (shift + c.B) with
        | none => rfl
        | some r =>
          simp only [Option.map_some, Option.bind_some]
          cases copyInnerReplace nm dm vs cs (cnt nm i) r.1 <;> rfl
      · have hn' : nm.getLsbD i = false := by simpa using hn
        rw [if_neg (fun hx => hn ((and_bitOf_ne_zero hi).mp hx)),
          if_neg (fun hx => hn ((and_bitOf_ne_zero hi).mp hx))]
        by_cases hd : dm.getLsbD i = true
        · rw [if_pos ((and_bitOf_ne_zero hi).mpr hd), if_pos ((and_bitOf_ne_zero hi).mpr hd)]
          have hsome := sget_isSome hv i
          rw [hd, Option.isSome_iff_exists] at hsome
          obtain ⟨x, hx⟩ := hsome
          have hx' : vs[cnt dm i]? = some x := by rw [← sget_of_bit hd, hx]
          rw [slot_data hn' hx]
          simp only [hx', Option.bind_eq_bind, Option.bind_some, eqv_congr_right hc (hu _)]
          cases hev : c.eqv (c.key x) k with
          | true =>
            simp only [List.find?_cons, hev, if_true, Option.elim]
            cases copyInnerReplaceValue nm dm vs cs (cnt dm i) _ <;> rfl
          | false =>
            simp only [List.find?_cons, List.find?_nil, hev, Option.elim, Bool.false_eq_true, if_false]
            cases copyInnerReplaceMerged nm dm vs cs (bitOf c.W i) (cnt dm i) _ <;> rfl
        · have hd' : dm.getLsbD i = false := by simpa using hd
          rw [if_neg (fun hx => hd ((and_bitOf_ne_zero hi).mp hx)),
            if_neg (fun hx => hd ((and_bitOf_ne_zero hi).mp hx)), slot_none hn' hd']
          simp only [List.find?_nil, Option.elim, Option.bind_eq_bind]
          cases copyInnerInsertValue nm dm vs cs (bitOf c.W i) _ <;> rfl

theorem doUpdateIfExists_eq (hc : c.Lawful) (u : Upd K T P σ) {k : K}
    (hu : ∀ y, c.eqv (c.key (u.combine k y)) k = true)
    {d shift p : Nat} {n : c.N} (h : WF c d shift p n) (hp : p < 2 ^ shift)
    (hk : (c.hash k).toNat % 2 ^ shift = p) (s : σ) :
    doUpdateIfExists c u d n k (c.hash k) shift s =
      match (elems c d n).find? (fun x => c.eqv (c.key x) k) with
      | none => some (none, s)
      | some x => (doAdd c d n (u.combine k (u.fn (u.project x) s).1) (c.hash k) shift).map
          (fun r => (some r.1, (u.fn (u.project x) s).2)) := by
  induction d generalizing shift p n with
  | zero =>
    cases n with
    | inner => exact h.elim
    | collision vs =>
      rw [doUpdateIfExists]
      simp only [doAdd, eqv_congr_right hc (hu _), elems]
      rcases collision_split hc h k with ⟨pos, x, hf, hx, hxk, hlt, hw, hh⟩ | ⟨hf, hw, hh⟩
      · rw [find_split hc h.2.2 (List.mem_of_getElem? hx) hxk]
        simp [hf, hx, copyCollisionReplace_eq hlt]
      · have : vs.find? (fun x => c.eqv (c.key x) k) = none := by
          rw [← Option.not_isSome_iff_eq_none, find_of_hasKey, hh]; simp
        simp [hf, this]
  | succ d ih =>
    cases n with
    | collision => exact h.elim
    | inner nm dm vs cs =>
      rw [find_slot hc h hp hk]
      have hi := idx_lt c (c.hash k) shift
      rw [doUpdateIfExists]
      simp only [doAdd]
      set i := c.idx (c.hash k) shift with hidef
      rw [rank_eq_cnt nm hi, rank_eq_cnt dm hi]
      obtain ⟨hdis, hv, hcs, hvals, hch⟩ := h
      by_cases hn : nm.getLsbD i = true
      · have hd : dm.getLsbD i = false := by
          have := hdis i; rw [hn] at this; simpa using this
        have hsome := sget_isSome hcs i
        rw [hn, Option.isSome_iff_exists] at hsome
        obtain ⟨ch, hch'⟩ := hsome
        have hch'' : cs[cnt nm i]? = some ch := by rw [← sget_of_bit hn, hch']
        rw [slot_child hd hch']
        simp only [if_pos ((and_bitOf_ne_zero hi).mpr hn), hch'', Option.bind_eq_bind, Option.bind_some]
        rw [ih (hch i ch hch').1 (prefix_lt hp hi) (mod_idx c hk)]
        cases (elems c d ch).find? (fun x => c.eqv (c.key x) k) with
        | none => rfl
        | some x =>
          simp only []
          cases doAdd c d ch _ (c.hash k) (shift + c.B) with
          | none => rfl
          | some r =>
            simp only [Option.map_some, Option.bind_some]
            cases copyInnerReplace nm dm vs cs (cnt nm i) r.1 <;> rfl
      · have hn' : nm.getLsbD i = false := by simpa using hn
        simp only [if_neg (fun hx => hn ((and_bitOf_ne_zero hi).mp hx))]
        by_cases hd : dm.getLsbD i = true
        · have hsome := sget_isSome hv i
          rw [hd, Option.isSome_iff_exists] at hsome
          obtain ⟨x, hx⟩ := hsome
          have hx' : vs[cnt dm i]? = some x := by rw [← sget_of_bit hd, hx]
          rw [slot_data hn' hx]
          simp only [if_pos ((and_bitOf_ne_zero hi).mpr hd), hx', Option.bind_eq_bind,
            Option.bind_some, eqv_congr_right hc (hu _)]
          cases hev : c.eqv (c.key x) k with
          | true =>
            simp only [List.find?_cons, hev, if_true]
            cases copyInnerReplaceValue nm dm vs cs (cnt dm i) _ <;> rfl
          | false =>
            simp [List.find?_cons, hev]
        · have hd' : dm.getLsbD i = false := by simpa using hd
          simp only [if_neg (fun hx => hd ((and_bitOf_ne_zero hi).mp hx)), slot_none hn' hd',
            List.find?_nil]

/-! ## erase -/

theorem length_without (hc : c.Lawful) {k : K} {l : List T}
    (hp : l.Pairwise (fun a b => c.eqv (c.key a) (c.key b) = false)) :
    (without (c := c) k l).length = l.length - (if hasKey (c := c) k l then 1 else 0) := by
  cases hhk : hasKey (c := c) k l with
  | false => rw [without_of_ne (ne_of_hasKey hhk)]; simp
  | true =>
    rw [hasKey, List.any_eq_true] at hhk
    obtain ⟨x, hx, hxk⟩ := hhk
    obtain ⟨l1, l2, hl⟩ := List.append_of_mem hx
    have hsp : l = l.take l1.length ++ x :: l.drop (l1.length + 1) := by
      rw [hl]; simp
    rw [without_split hc hp hxk hsp, hl]
    simp

theorem popcount_ge_two {w : Nat} {bm : BitVec w} {i : Nat} (h : bm.getLsbD i = true)
    (h2 : popcount bm ≠ 1) : ∃ j, j ≠ i ∧ bm.getLsbD j = true := by
  by_contra hne
  push Not at hne
  have hi := lt_of_getLsbD h
  apply h2
  have h3 := popcount_andNot hi h
  have : bm &&& ~~~ bitOf w i = 0#w := by
    apply BitVec.eq_of_getLsbD_eq
    intro j hj
    rw [getLsbD_andNot hi]
    by_cases hji : j = i
    · simp [hji]
    · have := hne j hji
      simp [this]
  rw [this, popcount_zero] at h3
  omega

theorem only_bit {w : Nat} {bm : BitVec w} {i j : Nat} (h : bm.getLsbD i = true)
    (h1 : popcount bm = 1) (hj : bm.getLsbD j = true) : j = i := by
  have hi := lt_of_getLsbD h
  have h3 := popcount_andNot hi h
  have h4 : popcount (bm &&& ~~~ bitOf w i) = 0 := by omega
  have h5 := popcount_eq_zero h4
  by_contra hne
  have : (bm &&& ~~~ bitOf w i).getLsbD j = true := by
    rw [getLsbD_andNot hi]; simp [hj, hne]
  rw [h5] at this; simp at this

theorem rest_ne_nil_of_child {d shift p : Nat} {nm dm : BitVec c.W} {vs : List T} {cs : List c.N}
    (h : WF c (d + 1) shift p (.inner nm dm vs cs)) {i j : Nat} (hij : j ≠ i)
    (hj : nm.getLsbD j = true) : 2 ≤ (rest c d nm dm vs cs i).length := by
  obtain ⟨hdis, hv, hcs, hvals, hch⟩ := h
  have hd : dm.getLsbD j = false := by
    have := hdis j; rw [hj] at this; simpa using this
  have hsome := sget_isSome hcs j
  rw [hj, Option.isSome_iff_exists] at hsome
  obtain ⟨ch, hch'⟩ := hsome
  have h2 := (hch j ch hch').2
  rw [← slot_child (d := d) (vs := vs) hd hch'] at h2
  refine Nat.le_trans h2 ?_
  have hmem : j ∈ (List.range c.W).filter (fun j => decide (j ≠ i)) := by
    simp [lt_of_getLsbD hj, hij]
  obtain ⟨l1, l2, hl⟩ := List.append_of_mem hmem
  rw [rest, hl]
  simp; omega

theorem rest_ne_nil_of_data {d : Nat} {nm dm : BitVec c.W} {vs : List T} {cs : List c.N}
    (hv : vs.length = popcount dm) {i j : Nat} (hij : j ≠ i)
    (hj : dm.getLsbD j = true) : 1 ≤ (rest c d nm dm vs cs i).length := by
  have hsome := sget_isSome hv j
  rw [hj, Option.isSome_iff_exists] at hsome
  obtain ⟨x, hx⟩ := hsome
  have : x ∈ rest c d nm dm vs cs i :=
    mem_rest.mpr ⟨j, lt_of_getLsbD hj, hij, by simp [slot, hx]⟩
  exact List.length_pos_of_mem this

/-- the outcome of `doSub` -/
def SubSpec (c : Cfg K T) (d shift p : Nat) (k : K) (l : List T) : SubResult c.N T → Prop
  | .nothing => hasKey (c := c) k l = false
  | .singleton x => hasKey (c := c) k l = true ∧ 0 < shift ∧ List.Perm (without (c := c) k l) [x]
  | .tree r => hasKey (c := c) k l = true ∧ WF c d shift p r ∧
      List.Perm (elems c d r) (without (c := c) k l) ∧ (0 < shift → 2 ≤ (elems c d r).length)

theorem doSub_spec (hc : c.Lawful) {d shift p : Nat} (hds : shift + d * c.B = c.maxDepth * c.B)
    {n : c.N} (h : WF c d shift p n) (hp : p < 2 ^ shift) {k : K}
    (hk : (c.hash k).toNat % 2 ^ shift = p) (h2 : 0 < shift → 2 ≤ (elems c d n).length) :
    ∃ r, doSub c d n k (c.hash k) shift = some r ∧ SubSpec c d shift p k (elems c d n) r := by
  induction d generalizing shift p n with
  | zero =>
    cases n with
    | inner => exact h.elim
    | collision vs =>
      have hmax := maxShift_ge c hc.B_pos
      rw [doSub]
      rcases collision_split hc h k with ⟨pos, x, hf, hx, hxk, hlt, hw, hh⟩ | ⟨hf, hw, hh⟩
      · simp only [hf]
        have hlw := length_without hc (k := k) h.2.2
        rw [hh] at hlw
        by_cases hl : vs.length > 2
        · refine ⟨.tree (.collision (without (c := c) k vs)), ?_, hh, ⟨?_, ?_, ?_⟩, List.Perm.refl _, ?_⟩
          · simp [hl, copyCollisionRemove_eq hlt, hw]
          · rw [hlw]; simp; omega
          · intro x hx; exact h.2.1 x (List.mem_of_mem_filter hx)
          · exact h.2.2.sublist List.filter_sublist
          · intro _; rw [elems, hlw]; simp; omega
        · have h22 : vs.length = 2 := by have := h.1; omega
          obtain ⟨a, b, rfl⟩ : ∃ a b, vs = [a, b] := by
            match vs, h22 with
            | [a, b], _ => exact ⟨a, b, rfl⟩
          have hpos : 0 < shift := by omega
          have : pos = 0 ∨ pos = 1 := by simp at hlt; omega
          rcases this with rfl | rfl
          · refine ⟨.singleton b, by simp, hh, hpos, ?_⟩
            rw [elems, hw]; simp
          · refine ⟨.singleton a, by simp, hh, hpos, ?_⟩
            rw [elems, hw]; simp
      · exact ⟨.nothing, by simp [hf], hh⟩
  | succ d ih =>
    cases n with
    | collision => exact h.elim
    | inner nm dm vs cs =>
      obtain ⟨hs1, hs2, hs3⟩ := h.split hc hp hk
      have hi := idx_lt c (c.hash k) shift
      have hmi := mod_idx c hk
      rw [doSub]
      simp only []
      set i := c.idx (c.hash k) shift with hidef
      rw [rank_eq_cnt nm hi, rank_eq_cnt dm hi]
      have hwf := h
      obtain ⟨hdis, hv, hcs, hvals, hch⟩ := h
      by_cases hn : nm.getLsbD i = true
      · rw [if_pos ((and_bitOf_ne_zero hi).mpr hn)]
        have hd : dm.getLsbD i = false := by
          have := hdis i; rw [hn] at this; simpa using this
        have hsome := sget_isSome hcs i
        rw [hn, Option.isSome_iff_exists] at hsome
        obtain ⟨ch, hch'⟩ := hsome
        have hch'' : cs[cnt nm i]? = some ch := by rw [← sget_of_bit hn, hch']
        rw [slot_child hd hch'] at hs1 hs2 hs3
        have hBpos := hc.B_pos
        obtain ⟨r, hr1, hr2⟩ := ih (shift := shift + c.B) (p := p + i * 2 ^ shift)
          (by rw [Nat.add_mul] at hds; omega) (hch i ch hch').1 (prefix_lt hp hi) hmi
          (fun _ => (hch i ch hch').2)
        simp only [hch'', hr1, Option.bind_eq_bind, Option.bind_some]
        cases r with
        | nothing =>
          refine ⟨.nothing, rfl, ?_⟩
          simp only [SubSpec] at hr2 ⊢
          rw [hs3]; exact hr2
        | singleton x =>
          obtain ⟨hh, _, hw⟩ := hr2
          have hxh : (c.hash (c.key x)).toNat % 2 ^ (shift + c.B) = p + i * 2 ^ shift := by
            apply (hch i ch hch').1.hash_mem (prefix_lt hp hi)
            exact List.mem_of_mem_filter (hw.mem_iff.mpr (List.mem_singleton.mpr rfl))
          by_cases hcond : dm = 0#c.W ∧ popcount nm = 1 ∧ shift > 0
          · simp only [if_pos hcond]
            refine ⟨.singleton x, rfl, by rw [hs3]; exact hh, hcond.2.2, ?_⟩
            refine hs2.trans ?_
            have hrest : rest c d nm dm vs cs i = [] := by
              rw [List.eq_nil_iff_forall_not_mem]
              intro y hy
              obtain ⟨j, _, hji, hy⟩ := mem_rest.mp hy
              rw [slot_none] at hy
              · cases hy
              · by_contra hb
                exact hji (only_bit hn hcond.2.1 (by simpa using hb))
              · rw [hcond.1]; simp
            rw [hrest, List.append_nil]
            exact hw
          · simp only [if_neg hcond]
            have hins := sget_insert hv hi hd x
            have hers := sget_erase hcs hn
            have hlv : (vs.take (cnt dm i) ++ x :: vs.drop (cnt dm i)).length =
                popcount (dm ||| bitOf c.W i) := by
              rw [length_insert (by rw [hv]; exact cnt_le_popcount (Nat.le_of_lt hi)),
                popcount_or hi hd, hv]
            have hlc : (cs.take (cnt nm i) ++ cs.drop (cnt nm i + 1)).length =
                popcount (nm &&& ~~~ bitOf c.W i) := by
              have h1 := length_erase (xs := cs) (n := cnt nm i)
                (by rw [hcs]; exact cnt_lt_popcount hn)
              have h2 := popcount_andNot hi hn
              omega
            have hnb : (nm &&& ~~~ bitOf c.W i).getLsbD i = false := by simp [getLsbD_andNot hi]
            have hperm : List.Perm (elems c (d + 1) (.inner (nm &&& ~~~ bitOf c.W i)
                (dm ||| bitOf c.W i) (vs.take (cnt dm i) ++ x :: vs.drop (cnt dm i))
                (cs.take (cnt nm i) ++ cs.drop (cnt nm i + 1)))) (x :: rest c d nm dm vs cs i) := by
              refine (elems_update (nm := nm) (dm := dm) (vs := vs) (cs := cs) hi hlv hlc ?_ ?_).trans ?_
              · intro j hj; rw [hins]; simp [hj]
              · intro j hj; rw [hers]; simp [hj]
              · rw [slot_data (v := x) hnb (by rw [hins]; simp)]
                exact List.Perm.refl _
            refine ⟨.tree (.inner (nm &&& ~~~ bitOf c.W i) (dm ||| bitOf c.W i)
              (vs.take (cnt dm i) ++ x :: vs.drop (cnt dm i))
              (cs.take (cnt nm i) ++ cs.drop (cnt nm i + 1))), ?_, ?_, ?_, ?_, ?_⟩
            · simp [copyInnerReplaceInline_eq hv hcs hi hn x]
            · rw [hs3]; exact hh
            · refine WF_update (i := i) hwf hlv hlc ?_ ?_ (by simp [hnb]) ?_ ?_
              · intro j hj; rw [hins]; simp [hj]
              · intro j hj; rw [hers]; simp [hj]
              · intro v2 h2; rw [hins] at h2; simp at h2; subst h2; exact hxh
              · intro ch2 h2; rw [hers] at h2; simp at h2
            · refine hperm.trans ?_
              exact ((hw.append_right _).symm.trans hs2.symm)
            · intro hpos
              rw [hperm.length_eq, List.length_cons]
              have : 1 ≤ (rest c d nm dm vs cs i).length := by
                by_cases hdm : dm = 0#c.W
                · have h1 : popcount nm ≠ 1 := fun h1 => hcond ⟨hdm, h1, hpos⟩
                  obtain ⟨j, hji, hj⟩ := popcount_ge_two hn h1
                  have := rest_ne_nil_of_child hwf hji hj
                  omega
                · have : ∃ j, dm.getLsbD j = true := by
                    by_contra hne
                    push Not at hne
                    apply hdm
                    apply BitVec.eq_of_getLsbD_eq
                    intro j _
                    have := hne j
                    simpa using this
                  obtain ⟨j, hj⟩ := this
                  refine rest_ne_nil_of_data hv ?_ hj
                  rintro rfl; rw [hd] at hj; cases hj
              omega
        | tree r =>
          obtain ⟨hh, hr2, hr3, hr4⟩ := hr2
          have hset := sget_set hcs hn r
          have hlen : (cs.set (cnt nm i) r).length = popcount nm := by simp [hcs]
          have hrl : 2 ≤ (elems c d r).length := hr4 (by omega)
          have hperm : List.Perm (elems c (d + 1) (.inner nm dm vs (cs.set (cnt nm i) r)))
              (elems c d r ++ rest c d nm dm vs cs i) := by
            refine (elems_update (nm := nm) (dm := dm) (vs := vs) (cs := cs) hi hv hlen
              (fun j _ => rfl) ?_).trans ?_
            · intro j hj; rw [hset]; simp [hj]
            · rw [slot_child (ch := r) hd (by rw [hset]; simp)]
          refine ⟨.tree (.inner nm dm vs (cs.set (cnt nm i) r)), ?_, ?_, ?_, ?_, ?_⟩
          · simp [copyInnerReplace_eq hcs (cnt_lt_popcount hn) r]
          · rw [hs3]; exact hh
          · refine WF_update hwf (i := i) hv hlen (fun j _ => rfl) ?_ (hdis i) (hvals i) ?_
            · intro j hj; rw [hset]; simp [hj]
            · intro ch2 h2
              rw [hset] at h2; simp at h2; subst h2
              exact ⟨hr2, hrl⟩
          · exact hperm.trans ((hr3.append_right _).trans hs2.symm)
          · intro _
            rw [hperm.length_eq, List.length_append]; omega
      · have hn' : nm.getLsbD i = false := by simpa using hn
        rw [if_neg (fun hx => hn ((and_bitOf_ne_zero hi).mp hx))]
        by_cases hd : dm.getLsbD i = true
        · rw [if_pos ((and_bitOf_ne_zero hi).mpr hd)]
          have hsome := sget_isSome hv i
          rw [hd, Option.isSome_iff_exists] at hsome
          obtain ⟨x, hx⟩ := hsome
          have hx' : vs[cnt dm i]? = some x := by rw [← sget_of_bit hd, hx]
          rw [slot_data hn' hx] at hs1 hs2 hs3
          simp only [hx', Option.bind_eq_bind, Option.bind_some]
          cases hev : c.eqv (c.key x) k with
          | false =>
            refine ⟨.nothing, by simp, ?_⟩
            simp only [SubSpec]
            rw [hs3]; simp [hasKey, hev]
          | true =>
            have hh : hasKey (c := c) k (elems c (d + 1) (.inner nm dm vs cs)) = true := by
              rw [hs3]; simp [hasKey, hev]
            have hw : without (c := c) k [x] = [] := by simp [without, hev]
            rw [hw, List.nil_append] at hs2
            have hers := sget_erase hv hd
            have hlv : (vs.take (cnt dm i) ++ vs.drop (cnt dm i + 1)).length =
                popcount (dm &&& ~~~ bitOf c.W i) := by
              have h1 := length_erase (xs := vs) (n := cnt dm i)
                (by rw [hv]; exact cnt_lt_popcount hd)
              have h2 := popcount_andNot hi hd
              omega
            have hdb : (dm &&& ~~~ bitOf c.W i).getLsbD i = false := by simp [getLsbD_andNot hi]
            have hperm : List.Perm (elems c (d + 1) (.inner nm (dm &&& ~~~ bitOf c.W i)
                (vs.take (cnt dm i) ++ vs.drop (cnt dm i + 1)) cs)) (rest c d nm dm vs cs i) := by
              refine (elems_update (nm := nm) (dm := dm) (vs := vs) (cs := cs) hi hlv hcs ?_
                (fun j _ => rfl)).trans ?_
              · intro j hj; rw [hers]; simp [hj]
              · rw [slot_none hn' hdb]; exact List.Perm.refl _
            have hwf' : WF c (d + 1) shift p (.inner nm (dm &&& ~~~ bitOf c.W i)
                (vs.take (cnt dm i) ++ vs.drop (cnt dm i + 1)) cs) := by
              refine WF_update (i := i) hwf hlv hcs ?_ (fun j _ => rfl) (by simp [hn']) ?_ (hch i)
              · intro j hj; rw [hers]; simp [hj]
              · intro v2 h2; rw [hers] at h2; simp at h2
            have hlen : (elems c (d + 1) (.inner nm dm vs cs)).length =
                1 + (rest c d nm dm vs cs i).length := by
              rw [hs1.length_eq]; simp; omega
            by_cases hcond : nm ≠ 0#c.W ∨ popcount dm > 2
            · simp only [if_pos hcond, if_true]
              refine ⟨.tree _, by simp [copyInnerRemoveValue_eq hv hcs hd], hh, hwf',
                hperm.trans hs2.symm, ?_⟩
              intro hpos
              rw [hperm.length_eq]
              rcases hcond with hnm | hnv
              · have : ∃ j, nm.getLsbD j = true := by
                  by_contra hne
                  push Not at hne
                  apply hnm
                  apply BitVec.eq_of_getLsbD_eq
                  intro j _
                  have := hne j
                  simpa using this
                obtain ⟨j, hj⟩ := this
                exact rest_ne_nil_of_child hwf (by rintro rfl; exact hn hj) hj
              · have h3 : (elems c (d + 1) (.inner nm dm vs cs)).length ≥ vs.length := by
                  rw [elems]; simp
                omega
            · push Not at hcond
              obtain ⟨rfl, hnv⟩ := hcond
              have hcs0 : cs = [] := by
                rw [popcount_zero] at hcs; exact List.eq_nil_of_length_eq_zero hcs
              subst hcs0
              have hp1 := popcount_pos_of_bit hd
              have hlt := cnt_lt_popcount hd
              simp only [if_neg (show ¬ ((0#c.W) ≠ 0#c.W ∨ popcount dm > 2) by simp; omega), if_true]
              by_cases hnv2 : popcount dm = 2
              · rw [hnv2] at hv hlt
                obtain ⟨a, b, rfl⟩ : ∃ a b, vs = [a, b] := by
                  match vs, hv with
                  | [a, b], _ => exact ⟨a, b, rfl⟩
                have key : ∃ y, [a, b][if cnt dm i = 0 then 1 else 0]? = some y ∧
                    [a, b].take (cnt dm i) ++ [a, b].drop (cnt dm i + 1) = [y] := by
                  have : cnt dm i = 0 ∨ cnt dm i = 1 := by omega
                  rcases this with h | h <;> simp [h]
                obtain ⟨y, hy1, hy2⟩ := key
                rw [hy2] at hperm hwf'
                simp only [hnv2, if_true, hy1, Option.bind_some]
                by_cases hpos : shift > 0
                · simp only [hpos, if_true]
                  refine ⟨.singleton y, rfl, hh, hpos, hs2.trans ?_⟩
                  refine hperm.symm.trans ?_
                  simp [elems]
                · simp only [hpos, if_false]
                  exact ⟨.tree _, rfl, hh, hwf', hperm.trans hs2.symm, fun h => absurd h hpos⟩
              · simp only [hnv2, if_false]
                have h1 : popcount dm = 1 := by omega
                have hrest : rest c d (0#c.W) dm vs [] i = [] := by
                  rw [List.eq_nil_iff_forall_not_mem]
                  intro y hy
                  obtain ⟨j, _, hji, hy⟩ := mem_rest.mp hy
                  rw [slot_none (by simp)] at hy
                  · cases hy
                  · by_contra hb
                    exact hji (only_bit hd h1 (by simpa using hb))
                rw [hrest] at hs2 hlen
                refine ⟨.tree emptyNode, rfl, hh, WF_empty _ _ _, ?_, ?_⟩
                · rw [elems_empty]; exact hs2.symm
                · intro hpos; have := h2 hpos; simp at hlen; omega
        · have hd' : dm.getLsbD i = false := by simpa using hd
          rw [if_neg (fun hx => hd ((and_bitOf_ne_zero hi).mp hx))]
          rw [slot_none hn' hd'] at hs3
          exact ⟨.nothing, rfl, hs3⟩

end Champ
