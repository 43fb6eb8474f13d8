import Mathlib.Data.List.Basic
import Mathlib.Data.List.Perm.Basic

/-!
# Bitmaps and sparse arrays

`detail/hamts/node.hpp` stores the values and children of an inner node in compressed arrays:
slot `i` of the node (0 ≤ i < 2^B) is present iff bit `i` of the bitmap is set, and then it is
found at array position `popcount(bitmap & (bit - 1))`.
-/

namespace Champ

variable {w : Nat} {α : Type _}

/-- `popcount` (bits.hpp 86-126), specification level: the number of one bits.  The portable
`popcount_fallback` implementation is proved equal to this in `Verif/Champ/Popcount.lean`. -/
def popcount (x : BitVec w) : Nat := (List.range w).countP (fun i => x.getLsbD i)

/-- `bitmap_t{1u} << idx` (champ.hpp 582-583 and all other users). -/
def bitOf (w : Nat) (idx : Nat) : BitVec w := 1#w <<< idx

/-- `data_count(bit)` / `children_count(bit)` (node.hpp 159-163, 171-175). -/
def rank (bm bit : BitVec w) : Nat := popcount (bm &&& (bit - 1#w))

/-- number of set bits strictly below position `i` (proof helper) -/
def cnt (bm : BitVec w) (i : Nat) : Nat := (List.range i).countP (fun j => bm.getLsbD j)

/-- content of slot `i` of a compressed array (proof helper) -/
def sget (bm : BitVec w) (xs : List α) (i : Nat) : Option α :=
  if bm.getLsbD i then xs[cnt bm i]? else none

theorem bitOf_eq (idx : Nat) : bitOf w idx = BitVec.twoPow w idx := by
  simp [bitOf, BitVec.twoPow_eq]

theorem getLsbD_bitOf {idx j : Nat} (h : idx < w) :
    (bitOf w idx).getLsbD j = decide (j = idx) := by
  rw [bitOf_eq, BitVec.getLsbD_twoPow]
  by_cases hj : j = idx
  · simp [hj, h]
  · have : ¬ idx = j := fun h => hj h.symm
    simp [hj, this]

theorem and_bitOf_ne_zero {bm : BitVec w} {idx : Nat} (h : idx < w) :
    (bm &&& bitOf w idx ≠ 0#w) ↔ bm.getLsbD idx = true := by
  constructor
  · intro hne
    by_contra hb
    apply hne
    apply BitVec.eq_of_getLsbD_eq
    intro i hi
    rw [BitVec.getLsbD_and, getLsbD_bitOf h]
    by_cases hie : i = idx
    · subst hie; simp [hb]
    · simp [hie]
  · intro hb heq
    have := congrArg (fun x => x.getLsbD idx) heq
    simp [getLsbD_bitOf h, hb] at this

theorem getLsbD_bitOf_sub_one {idx j : Nat} (h : idx < w) :
    (bitOf w idx - 1#w).getLsbD j = decide (j < idx) := by
  have h1 : (bitOf w idx - 1#w).toNat = 2 ^ idx - 1 := by
    have hp : 2 ^ idx < 2 ^ w := Nat.pow_lt_pow_right (by omega) h
    have hp0 : 0 < 2 ^ idx := Nat.two_pow_pos _
    have hw : 1 < 2 ^ w := by omega
    have ht : (bitOf w idx).toNat = 2 ^ idx := by
      rw [bitOf_eq, BitVec.toNat_twoPow, Nat.mod_eq_of_lt hp]
    rw [BitVec.toNat_sub, ht, BitVec.toNat_ofNat, Nat.mod_eq_of_lt hw]
    rw [show 2 ^ w - 1 + 2 ^ idx = 2 ^ idx - 1 + 2 ^ w by omega, Nat.add_mod_right,
      Nat.mod_eq_of_lt (by omega)]
  rw [BitVec.getLsbD, h1, Nat.testBit_two_pow_sub_one]

theorem cnt_succ (bm : BitVec w) (i : Nat) :
    cnt bm (i + 1) = cnt bm i + (if bm.getLsbD i then 1 else 0) := by
  simp [cnt, List.range_succ, List.countP_append, List.countP_cons]

theorem cnt_zero (bm : BitVec w) : cnt bm 0 = 0 := rfl

theorem popcount_eq_cnt (bm : BitVec w) : popcount bm = cnt bm w := rfl

theorem cnt_mono (bm : BitVec w) {i j : Nat} (h : i ≤ j) : cnt bm i ≤ cnt bm j := by
  induction h with
  | refl => exact Nat.le_refl _
  | step _ ih => rw [cnt_succ]; omega

theorem cnt_lt (bm : BitVec w) {i j : Nat} (h : i < j) (hb : bm.getLsbD i = true) :
    cnt bm i < cnt bm j := by
  have h1 : cnt bm (i + 1) ≤ cnt bm j := cnt_mono bm h
  rw [cnt_succ, hb] at h1
  simp at h1; omega

theorem cnt_inj (bm : BitVec w) {i j : Nat} (hi : bm.getLsbD i = true) (hj : bm.getLsbD j = true)
    (h : cnt bm i = cnt bm j) : i = j := by
  rcases Nat.lt_trichotomy i j with hlt | heq | hgt
  · have := cnt_lt bm hlt hi; omega
  · exact heq
  · have := cnt_lt bm hgt hj; omega

theorem cnt_congr {a b : BitVec w} {n : Nat}
    (h : ∀ i, i < n → a.getLsbD i = b.getLsbD i) : cnt a n = cnt b n := by
  induction n with
  | zero => rfl
  | succ n ih =>
    rw [cnt_succ, cnt_succ, ih (fun i hi => h i (by omega)), h n (by omega)]

theorem cnt_stable (bm : BitVec w) {n : Nat} (h : w ≤ n) : cnt bm n = cnt bm w := by
  induction h with
  | refl => rfl
  | step hle ih =>
    rw [cnt_succ, ih, BitVec.getLsbD_of_ge _ _ hle]; simp

theorem rank_eq_cnt (bm : BitVec w) {idx : Nat} (h : idx < w) :
    rank bm (bitOf w idx) = cnt bm idx := by
  have key : ∀ n, cnt (bm &&& (bitOf w idx - 1#w)) n = cnt bm (min n idx) := by
    intro n
    induction n with
    | zero => simp [cnt]
    | succ n ih =>
      rw [cnt_succ, ih, BitVec.getLsbD_and, getLsbD_bitOf_sub_one h]
      by_cases hn : n < idx
      · have h1 : min n idx = n := by omega
        have h2 : min (n+1) idx = n + 1 := by omega
        rw [h1, h2, cnt_succ]; simp [hn]
      · have h1 : min n idx = idx := by omega
        have h2 : min (n+1) idx = idx := by omega
        rw [h1, h2]; simp [hn]
  rw [rank, popcount_eq_cnt, key, Nat.min_eq_right (Nat.le_of_lt h)]

theorem lt_of_getLsbD {bm : BitVec w} {i : Nat} (h : bm.getLsbD i = true) : i < w :=
  BitVec.lt_of_getLsbD h

theorem cnt_lt_popcount {bm : BitVec w} {i : Nat} (h : bm.getLsbD i = true) :
    cnt bm i < popcount bm := cnt_lt bm (lt_of_getLsbD h) h

theorem cnt_le_popcount {bm : BitVec w} {i : Nat} (h : i ≤ w) :
    cnt bm i ≤ popcount bm := cnt_mono bm h

theorem popcount_pos_of_bit {bm : BitVec w} {i : Nat} (h : bm.getLsbD i = true) :
    0 < popcount bm := by
  have := cnt_lt_popcount h; omega

theorem popcount_zero : popcount (0#w) = 0 := by
  simp [popcount]

theorem popcount_eq_zero {bm : BitVec w} (h : popcount bm = 0) : bm = 0#w := by
  apply BitVec.eq_of_getLsbD_eq
  intro i hi
  by_contra hne
  have : bm.getLsbD i = true := by simpa using hne
  have := popcount_pos_of_bit this
  omega

/-! ### sparse array lemmas -/

theorem sget_none_of_bit {bm : BitVec w} {xs : List α} {i : Nat} (h : bm.getLsbD i = false) :
    sget bm xs i = none := by simp [sget, h]

theorem sget_of_bit {bm : BitVec w} {xs : List α} {i : Nat} (h : bm.getLsbD i = true) :
    sget bm xs i = xs[cnt bm i]? := by simp [sget, h]

theorem sget_isSome {bm : BitVec w} {xs : List α} (hl : xs.length = popcount bm) (i : Nat) :
    (sget bm xs i).isSome = bm.getLsbD i := by
  by_cases h : bm.getLsbD i = true
  · rw [sget_of_bit h, h]
    have := cnt_lt_popcount h
    rw [← hl] at this
    simp [this]
  · have h' : bm.getLsbD i = false := by simpa using h
    rw [sget_none_of_bit h', h']; rfl

theorem sget_bit {bm : BitVec w} {xs : List α} {i : Nat} {x : α} (h : sget bm xs i = some x) :
    bm.getLsbD i = true := by
  by_contra hb
  have h' : bm.getLsbD i = false := by simpa using hb
  rw [sget_none_of_bit h'] at h; cases h

theorem sget_lt {bm : BitVec w} {xs : List α} {i : Nat} {x : α} (h : sget bm xs i = some x) :
    i < w := lt_of_getLsbD (sget_bit h)

theorem sget_zero {xs : List α} {i : Nat} : sget (0#w) xs i = none := by
  simp [sget]

/-- replacing the element of a present slot -/
theorem sget_set {bm : BitVec w} {xs : List α} {i : Nat} (hl : xs.length = popcount bm)
    (h : bm.getLsbD i = true) (v : α) (j : Nat) :
    sget bm (xs.set (cnt bm i) v) j = if j = i then some v else sget bm xs j := by
  have hlt := cnt_lt_popcount h
  rw [← hl] at hlt
  by_cases hj : bm.getLsbD j = true
  · rw [sget_of_bit hj, sget_of_bit hj, List.getElem?_set]
    by_cases hji : j = i
    · subst hji; simp [hlt]
    · have : cnt bm i ≠ cnt bm j := fun hc => hji (cnt_inj bm hj h hc.symm)
      simp [hji, this]
  · have hj' : bm.getLsbD j = false := by simpa using hj
    have hji : j ≠ i := by rintro rfl; exact hj h
    simp [sget_none_of_bit hj', hji]

theorem cnt_or {bm : BitVec w} {i : Nat} (hi : i < w) (h : bm.getLsbD i = false) (j : Nat) :
    cnt (bm ||| bitOf w i) j = cnt bm j + (if i < j then 1 else 0) := by
  induction j with
  | zero => simp [cnt]
  | succ j ih =>
    rw [cnt_succ, cnt_succ, ih, BitVec.getLsbD_or, getLsbD_bitOf hi]
    by_cases hj : j = i
    · subst hj; simp [h]
    · by_cases hb : bm.getLsbD j = true
      · by_cases hlt : i < j
        · have : i < j + 1 := by omega
          simp [hj, hb, hlt, this]
        · have : ¬ i < j + 1 := by omega
          simp [hj, hb, hlt, this]
      · have hb' : bm.getLsbD j = false := by simpa using hb
        by_cases hlt : i < j
        · have : i < j + 1 := by omega
          simp [hj, hb', hlt, this]
        · have : ¬ i < j + 1 := by omega
          simp [hj, hb', hlt, this]

theorem popcount_or {bm : BitVec w} {i : Nat} (hi : i < w) (h : bm.getLsbD i = false) :
    popcount (bm ||| bitOf w i) = popcount bm + 1 := by
  rw [popcount_eq_cnt, cnt_or hi h, popcount_eq_cnt]; simp [hi]

/-- inserting an element for a previously absent slot -/
theorem sget_insert {bm : BitVec w} {xs : List α} {i : Nat} (hl : xs.length = popcount bm)
    (hi : i < w) (h : bm.getLsbD i = false) (v : α) (j : Nat) :
    sget (bm ||| bitOf w i) (xs.take (cnt bm i) ++ v :: xs.drop (cnt bm i)) j =
      if j = i then some v else sget bm xs j := by
  have hle := cnt_le_popcount (bm := bm) (Nat.le_of_lt hi)
  rw [← hl] at hle
  have htl : (xs.take (cnt bm i)).length = cnt bm i := by simp [hle]
  by_cases hji : j = i
  · subst hji
    have hb : (bm ||| bitOf w j).getLsbD j = true := by simp [getLsbD_bitOf hi]
    rw [sget_of_bit hb, cnt_or hi h]
    simp only [Nat.lt_irrefl, if_false, Nat.add_zero, if_true]
    rw [List.getElem?_append_right (by omega), htl]; simp
  · simp only [hji, if_false]
    by_cases hb : bm.getLsbD j = true
    · have hb2 : (bm ||| bitOf w i).getLsbD j = true := by simp [hb]
      rw [sget_of_bit hb2, sget_of_bit hb, cnt_or hi h]
      by_cases hlt : i < j
      · simp only [hlt, if_true]
        have hc : cnt bm i ≤ cnt bm j := cnt_mono bm (Nat.le_of_lt hlt)
        rw [List.getElem?_append_right (by omega), htl,
          show cnt bm j + 1 - cnt bm i = (cnt bm j - cnt bm i) + 1 by omega,
          List.getElem?_cons_succ, List.getElem?_drop]
        congr 1; omega
      · simp only [hlt, if_false, Nat.add_zero]
        have hc : cnt bm j < cnt bm i := cnt_lt bm (by omega) hb
        rw [List.getElem?_append_left (by omega), List.getElem?_take]
        simp [hc]
    · have hb' : bm.getLsbD j = false := by simpa using hb
      have hb2 : (bm ||| bitOf w i).getLsbD j = false := by
        simp [hb', getLsbD_bitOf hi, hji]
      rw [sget_none_of_bit hb', sget_none_of_bit hb2]

theorem getLsbD_andNot {bm : BitVec w} {i j : Nat} (hi : i < w) :
    (bm &&& ~~~ bitOf w i).getLsbD j = (bm.getLsbD j && decide (j ≠ i)) := by
  rw [BitVec.getLsbD_and, BitVec.getLsbD_not, getLsbD_bitOf hi]
  by_cases hb : bm.getLsbD j = true
  · have := lt_of_getLsbD hb
    simp [this]
  · have hb' : bm.getLsbD j = false := by simpa using hb
    simp [hb']

theorem cnt_andNot {bm : BitVec w} {i : Nat} (hi : i < w) (h : bm.getLsbD i = true) (j : Nat) :
    cnt (bm &&& ~~~ bitOf w i) j + (if i < j then 1 else 0) = cnt bm j := by
  induction j with
  | zero => simp [cnt]
  | succ j ih =>
    rw [cnt_succ, cnt_succ, ← ih, getLsbD_andNot hi]
    by_cases hj : j = i
    · subst hj; simp [h]
    · by_cases hlt : i < j
      · have : i < j + 1 := by omega
        simp [hj, hlt, this]; omega
      · have : ¬ i < j + 1 := by omega
        simp [hj, hlt, this]

theorem popcount_andNot {bm : BitVec w} {i : Nat} (hi : i < w) (h : bm.getLsbD i = true) :
    popcount (bm &&& ~~~ bitOf w i) + 1 = popcount bm := by
  have := cnt_andNot hi h w
  simpa [popcount_eq_cnt, hi] using this

/-- removing the element of a present slot -/
theorem sget_erase {bm : BitVec w} {xs : List α} {i : Nat} (hl : xs.length = popcount bm)
    (h : bm.getLsbD i = true) (j : Nat) :
    sget (bm &&& ~~~ bitOf w i) (xs.take (cnt bm i) ++ xs.drop (cnt bm i + 1)) j =
      if j = i then none else sget bm xs j := by
  have hi := lt_of_getLsbD h
  have hlt' := cnt_lt_popcount h
  rw [← hl] at hlt'
  have htl : (xs.take (cnt bm i)).length = cnt bm i := by simp; omega
  by_cases hji : j = i
  · subst hji
    rw [sget_none_of_bit (by simp [getLsbD_andNot hi])]; simp
  · simp only [hji, if_false]
    by_cases hb : bm.getLsbD j = true
    · have hb2 : (bm &&& ~~~ bitOf w i).getLsbD j = true := by simp [getLsbD_andNot hi, hb, hji]
      rw [sget_of_bit hb2, sget_of_bit hb]
      have hc := cnt_andNot hi h j
      by_cases hlt : i < j
      · simp only [hlt, if_true] at hc
        have hc' : cnt bm i < cnt bm j := cnt_lt bm hlt h
        rw [List.getElem?_append_right (by omega), htl, List.getElem?_drop]
        congr 1; omega
      · simp only [hlt, if_false, Nat.add_zero] at hc
        have hc' : cnt bm j < cnt bm i := cnt_lt bm (by omega) hb
        rw [List.getElem?_append_left (by omega), List.getElem?_take, hc]
        simp [hc']
    · have hb' : bm.getLsbD j = false := by simpa using hb
      have hb2 : (bm &&& ~~~ bitOf w i).getLsbD j = false := by
        simp [getLsbD_andNot hi, hb']
      rw [sget_none_of_bit hb', sget_none_of_bit hb2]

/-- the compressed array lists the slots in increasing order -/
theorem filterMap_sget {bm : BitVec w} {xs : List α} (n : Nat) (hl : cnt bm n ≤ xs.length) :
    (List.range n).filterMap (sget bm xs) = xs.take (cnt bm n) := by
  induction n with
  | zero => simp [cnt]
  | succ n ih =>
    have hle : cnt bm n ≤ cnt bm (n+1) := cnt_mono bm (by omega)
    rw [List.range_succ, List.filterMap_append, ih (by omega), cnt_succ]
    by_cases hb : bm.getLsbD n = true
    · rw [cnt_succ, hb] at hl
      simp only [if_true] at hl
      have hlt : cnt bm n < xs.length := by omega
      simp only [List.filterMap_cons, List.filterMap_nil, sget_of_bit hb, hb, if_true,
        List.getElem?_eq_getElem hlt]
      rw [List.take_add_one, List.getElem?_eq_getElem hlt]; rfl
    · have hb' : bm.getLsbD n = false := by simpa using hb
      simp [sget_none_of_bit hb', hb']

theorem filterMap_sget_all {bm : BitVec w} {xs : List α} (hl : xs.length = popcount bm) :
    (List.range w).filterMap (sget bm xs) = xs := by
  rw [filterMap_sget w (by rw [hl]; exact Nat.le_refl _)]
  rw [← popcount_eq_cnt, ← hl, List.take_length]

theorem mem_iff_sget {bm : BitVec w} {xs : List α} (hl : xs.length = popcount bm) (x : α) :
    x ∈ xs ↔ ∃ i, sget bm xs i = some x := by
  constructor
  · intro h
    rw [← filterMap_sget_all hl, List.mem_filterMap] at h
    obtain ⟨i, _, hi⟩ := h
    exact ⟨i, hi⟩
  · rintro ⟨i, hi⟩
    rw [← filterMap_sget_all hl, List.mem_filterMap]
    exact ⟨i, List.mem_range.mpr (sget_lt hi), hi⟩

/-- if bit `i` is the only one, the array is a singleton holding slot `i` -/
theorem eq_of_sget_eq {bm : BitVec w} {xs ys : List α} (hx : xs.length = popcount bm)
    (hy : ys.length = popcount bm) (h : ∀ i, i < w → sget bm xs i = sget bm ys i) : xs = ys := by
  rw [← filterMap_sget_all hx, ← filterMap_sget_all hy]
  apply List.filterMap_congr
  intro i hi
  exact h i (List.mem_range.mp hi)

end Champ
