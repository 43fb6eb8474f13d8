import Verif.Champ.Model
import Mathlib.Data.List.Perm.Lattice
import Mathlib.Data.List.Pairwise
import Mathlib.Data.List.Flatten
import Mathlib.Data.List.Range

/-!
# The trie invariant and helper lemmas (no property statements here)
-/

namespace Champ

variable {K T : Type} (c : Cfg K T)

/-! ## hash slices -/

theorem idx_eq (h : BitVec 64) (s : Nat) : c.idx h s = h.toNat / 2 ^ s % 2 ^ c.B := by
  apply Nat.eq_of_testBit_eq
  intro i
  rw [Nat.testBit_mod_two_pow, Nat.testBit_div_two_pow]
  have h1 : (c.idx h s).testBit i = (c.masked h s >>> s).getLsbD i := rfl
  have h2 : h.toNat.testBit (i + s) = h.getLsbD (i + s) := rfl
  rw [h1, h2, BitVec.getLsbD_ushiftRight, Cfg.masked, BitVec.getLsbD_and, BitVec.getLsbD_shiftLeft,
    Cfg.mask, BitVec.getLsbD_ofNat, Nat.testBit_two_pow_sub_one, Nat.add_comm s i]
  by_cases hlt : i + s < 64
  · by_cases hb : i < c.B
    · have : i < 64 := by omega
      simp [hlt, hb, this]
    · simp [hb]
  · rw [BitVec.getLsbD_of_ge _ _ (by omega)]; simp

theorem idx_lt (h : BitVec 64) (s : Nat) : c.idx h s < c.W := by
  rw [idx_eq]; exact Nat.mod_lt _ (Nat.two_pow_pos _)

theorem masked_eq_iff (h1 h2 : BitVec 64) (s : Nat) :
    c.masked h1 s = c.masked h2 s ↔ c.idx h1 s = c.idx h2 s := by
  constructor
  · intro h; simp [Cfg.idx, h]
  · intro h
    have h' : c.masked h1 s >>> s = c.masked h2 s >>> s := BitVec.eq_of_toNat_eq h
    apply BitVec.eq_of_getLsbD_eq
    intro i hi
    by_cases his : i < s
    · simp [Cfg.masked, his]
    · have := congrArg (fun x => x.getLsbD (i - s)) h'
      simp only [BitVec.getLsbD_ushiftRight] at this
      rwa [show s + (i - s) = i by omega] at this

theorem shifted_idx (h : BitVec 64) (s : Nat) : ((h >>> s) &&& c.mask).toNat = c.idx h s := by
  rw [idx_eq]
  apply Nat.eq_of_testBit_eq
  intro i
  rw [Nat.testBit_mod_two_pow, Nat.testBit_div_two_pow]
  have h1 : ((h >>> s) &&& c.mask).toNat.testBit i = ((h >>> s) &&& c.mask).getLsbD i := rfl
  have h2 : h.toNat.testBit (i + s) = h.getLsbD (i + s) := rfl
  rw [h1, h2, BitVec.getLsbD_and, BitVec.getLsbD_ushiftRight, Cfg.mask, BitVec.getLsbD_ofNat,
    Nat.testBit_two_pow_sub_one, Nat.add_comm s i]
  by_cases hlt : i + s < 64
  · have : i < 64 := by omega
    simp [this, Bool.and_comm]
  · rw [BitVec.getLsbD_of_ge _ _ (by omega)]; simp

theorem mod_step (h p s : Nat) (B : Nat) (hp : h % 2 ^ s = p) :
    h % 2 ^ (s + B) = p + (h / 2 ^ s % 2 ^ B) * 2 ^ s := by
  rw [Nat.pow_add, Nat.mod_mul, hp, Nat.mul_comm]

theorem mod_idx {h : BitVec 64} {p s : Nat} (hp : h.toNat % 2 ^ s = p) :
    h.toNat % 2 ^ (s + c.B) = p + c.idx h s * 2 ^ s := by
  rw [idx_eq]; exact mod_step _ _ _ _ hp

theorem slot_inj {p s i j : Nat} (h : p + i * 2 ^ s = p + j * 2 ^ s) : i = j := by
  have h1 : i * 2 ^ s = j * 2 ^ s := by omega
  exact Nat.eq_of_mul_eq_mul_right (Nat.two_pow_pos _) h1

theorem mod_of_mod_add {h s B q : Nat} (hq : h % 2 ^ (s + B) = q) : h % 2 ^ s = q % 2 ^ s := by
  rw [← hq, Nat.pow_add, Nat.mod_mul_right_mod]

theorem maxShift_ge (hB : 0 < c.B) : 64 ≤ c.maxDepth * c.B := by
  unfold Cfg.maxDepth
  have h1 := Nat.div_add_mod (64 + c.B - 1) c.B
  have h2 := Nat.mod_lt (64 + c.B - 1) hB
  rw [Nat.mul_comm c.B] at h1
  omega

theorem hash_mod_ge {h : BitVec 64} {s : Nat} (hs : 64 ≤ s) : h.toNat % 2 ^ s = h.toNat := by
  apply Nat.mod_eq_of_lt
  exact Nat.lt_of_lt_of_le h.isLt (Nat.pow_le_pow_right (by omega) hs)

/-! ## elements and invariant -/

/-- the elements below a node, in traversal order -/
def elems : (d : Nat) → c.N → List T
  | 0, .collision vs => vs
  | 0, .inner .. => []
  | _ + 1, .collision _ => []
  | d + 1, .inner _ _ vs cs => vs ++ cs.flatMap (elems d)

/-- The trie invariant for a node `d` levels above the collision level, reached through a path whose
concatenated index bits are `p` (the low `shift` bits of the hash of everything below). -/
def WF : (d shift p : Nat) → c.N → Prop
  | 0, shift, p, .collision vs =>
    2 ≤ vs.length ∧ (∀ x ∈ vs, (c.hash (c.key x)).toNat % 2 ^ shift = p) ∧
      vs.Pairwise (fun a b => c.eqv (c.key a) (c.key b) = false)
  | 0, _, _, .inner .. => False
  | _ + 1, _, _, .collision _ => False
  | d + 1, shift, p, .inner nm dm vs cs =>
    (∀ i, (nm.getLsbD i && dm.getLsbD i) = false) ∧ vs.length = popcount dm ∧ cs.length = popcount nm ∧
    (∀ i v, sget dm vs i = some v →
      (c.hash (c.key v)).toNat % 2 ^ (shift + c.B) = p + i * 2 ^ shift) ∧
    (∀ i ch, sget nm cs i = some ch →
      WF d (shift + c.B) (p + i * 2 ^ shift) ch ∧ 2 ≤ (elems c d ch).length)

/-- elements of slot `i` of an inner node -/
def slot (d : Nat) (nm dm : BitVec c.W) (vs : List T) (cs : List c.N) (i : Nat) : List T :=
  (sget dm vs i).toList ++ ((sget nm cs i).elim [] (elems c d))

def rest (d : Nat) (nm dm : BitVec c.W) (vs : List T) (cs : List c.N) (i : Nat) : List T :=
  ((List.range c.W).filter (fun j => decide (j ≠ i))).flatMap (slot c d nm dm vs cs)

variable {c}

theorem perm_range_flatMap {α : Type} (f : Nat → List α) (n i : Nat) (hi : i < n) :
    List.Perm ((List.range n).flatMap f)
      (f i ++ ((List.range n).filter (fun j => decide (j ≠ i))).flatMap f) := by
  have h1 : List.Perm (List.range n) (i :: (List.range n).filter (fun j => decide (j ≠ i))) := by
    have h2 := List.perm_cons_erase (List.mem_range.mpr hi)
    refine h2.trans ?_
    rw [List.Nodup.erase_eq_filter List.nodup_range]
    apply List.Perm.cons
    apply List.Perm.of_eq
    apply List.filter_congr
    intro x _
    by_cases hx : x = i <;> simp [hx]
  exact (h1.flatMap_right f).trans (by simp)

theorem elems_perm_slots {d : Nat} {nm dm : BitVec c.W} {vs : List T} {cs : List c.N}
    (hv : vs.length = popcount dm) (hc : cs.length = popcount nm) :
    List.Perm (elems c (d + 1) (.inner nm dm vs cs))
      ((List.range c.W).flatMap (slot c d nm dm vs cs)) := by
  have h1 : vs = (List.range c.W).flatMap (fun i => (sget dm vs i).toList) := by
    conv_lhs => rw [← filterMap_sget_all hv]
    induction (List.range c.W) with
    | nil => rfl
    | cons a l ih =>
      rw [List.filterMap_cons, List.flatMap_cons, ih]
      cases sget dm vs a <;> simp
  have h2 : cs.flatMap (elems c d) =
      (List.range c.W).flatMap (fun i => (sget nm cs i).elim [] (elems c d)) := by
    conv_lhs => rw [← filterMap_sget_all hc]
    induction (List.range c.W) with
    | nil => rfl
    | cons a l ih =>
      rw [List.filterMap_cons, List.flatMap_cons, ← ih]
      cases sget nm cs a <;> simp
  have h3 : elems c (d + 1) (.inner nm dm vs cs) = vs ++ cs.flatMap (elems c d) := by
    rw [elems]
  rw [h3, h2]
  conv_lhs => rw [h1]
  exact List.flatMap_append_perm _ _ _

theorem elems_split {d : Nat} {nm dm : BitVec c.W} {vs : List T} {cs : List c.N}
    (hv : vs.length = popcount dm) (hc : cs.length = popcount nm) {i : Nat} (hi : i < c.W) :
    List.Perm (elems c (d + 1) (.inner nm dm vs cs))
      (slot c d nm dm vs cs i ++ rest c d nm dm vs cs i) :=
  (elems_perm_slots hv hc).trans (perm_range_flatMap _ _ _ hi)

theorem rest_congr {d : Nat} {nm dm nm' dm' : BitVec c.W} {vs vs' : List T} {cs cs' : List c.N}
    {i : Nat} (h1 : ∀ j, j ≠ i → sget dm' vs' j = sget dm vs j)
    (h2 : ∀ j, j ≠ i → sget nm' cs' j = sget nm cs j) :
    rest c d nm' dm' vs' cs' i = rest c d nm dm vs cs i := by
  unfold rest
  apply List.flatMap_congr
  intro j hj
  have hj' : j ≠ i := by simpa using (List.mem_filter.mp hj).2
  simp [slot, h1 j hj', h2 j hj']

theorem prefix_lt {p s i B : Nat} (hp : p < 2 ^ s) (hi : i < 2 ^ B) :
    p + i * 2 ^ s < 2 ^ (s + B) := by
  rw [Nat.pow_add]
  have h1 : (i + 1) * 2 ^ s ≤ 2 ^ B * 2 ^ s := Nat.mul_le_mul_right _ hi
  have h2 : (i + 1) * 2 ^ s = i * 2 ^ s + 2 ^ s := by rw [Nat.succ_mul]
  rw [Nat.mul_comm (2 ^ s)]
  omega

theorem WF.hash_mem {d shift p : Nat} {n : c.N} (h : WF c d shift p n) (hp : p < 2 ^ shift) {x : T}
    (hx : x ∈ elems c d n) : (c.hash (c.key x)).toNat % 2 ^ shift = p := by
  induction d generalizing shift p n with
  | zero =>
    cases n with
    | inner => exact h.elim
    | collision vs => exact h.2.1 x hx
  | succ d ih =>
    cases n with
    | collision => exact h.elim
    | inner nm dm vs cs =>
      obtain ⟨_, hv, hc, hvals, hch⟩ := h
      rw [elems, List.mem_append, List.mem_flatMap] at hx
      have key : ∀ i, (c.hash (c.key x)).toNat % 2 ^ (shift + c.B) = p + i * 2 ^ shift →
          (c.hash (c.key x)).toNat % 2 ^ shift = p := by
        intro i hi
        rw [mod_of_mod_add hi, Nat.add_mul_mod_self_right, Nat.mod_eq_of_lt hp]
      rcases hx with hx | ⟨ch, hch1, hx⟩
      · obtain ⟨i, hi⟩ := (mem_iff_sget hv x).mp hx
        exact key i (hvals i x hi)
      · obtain ⟨i, hi⟩ := (mem_iff_sget hc ch).mp hch1
        exact key i (ih (hch i ch hi).1 (prefix_lt hp (sget_lt hi)) hx)

theorem WF.slot_hash {d shift p : Nat} {nm dm : BitVec c.W} {vs : List T} {cs : List c.N}
    (h : WF c (d + 1) shift p (.inner nm dm vs cs)) (hp : p < 2 ^ shift) {i : Nat} {x : T}
    (hx : x ∈ slot c d nm dm vs cs i) :
    (c.hash (c.key x)).toNat % 2 ^ (shift + c.B) = p + i * 2 ^ shift := by
  obtain ⟨_, hv, hc, hvals, hch⟩ := h
  rw [slot, List.mem_append] at hx
  rcases hx with hx | hx
  · exact hvals i x (by simpa using hx)
  · cases hs : sget nm cs i with
    | none => simp [hs] at hx
    | some ch =>
      simp [hs] at hx
      exact (hch i ch hs).1.hash_mem (prefix_lt hp (sget_lt hs)) hx

theorem mem_rest {d : Nat} {nm dm : BitVec c.W} {vs : List T} {cs : List c.N} {i : Nat} {x : T} :
    x ∈ rest c d nm dm vs cs i ↔ ∃ j, j < c.W ∧ j ≠ i ∧ x ∈ slot c d nm dm vs cs j := by
  simp [rest, List.mem_flatMap, and_assoc]

/-- nothing outside the slot of `k` is equal to `k` -/
theorem WF.rest_ne (hc : c.Lawful) {d shift p : Nat} {nm dm : BitVec c.W} {vs : List T} {cs : List c.N}
    (h : WF c (d + 1) shift p (.inner nm dm vs cs)) (hp : p < 2 ^ shift) {k : K}
    (hk : (c.hash k).toNat % 2 ^ shift = p) {x : T}
    (hx : x ∈ rest c d nm dm vs cs (c.idx (c.hash k) shift)) : c.eqv (c.key x) k = false := by
  obtain ⟨j, _, hj, hx⟩ := mem_rest.mp hx
  have h1 := h.slot_hash hp hx
  by_contra hne
  have he : c.eqv (c.key x) k = true := by simpa using hne
  rw [hc.hash_eq _ _ he, mod_idx c hk] at h1
  exact hj (slot_inj h1).symm

theorem WF.pairwise (hc : c.Lawful) {d shift p : Nat} {n : c.N} (h : WF c d shift p n)
    (hp : p < 2 ^ shift) :
    (elems c d n).Pairwise (fun a b => c.eqv (c.key a) (c.key b) = false) := by
  have hsymm : ∀ {a b : T}, c.eqv (c.key a) (c.key b) = false → c.eqv (c.key b) (c.key a) = false := by
    intro a b hab
    by_contra hne
    have he : c.eqv (c.key b) (c.key a) = true := by simpa using hne
    rw [hc.symm _ _ he] at hab; cases hab
  induction d generalizing shift p n with
  | zero =>
    cases n with
    | inner => exact h.elim
    | collision vs => exact h.2.2
  | succ d ih =>
    cases n with
    | collision => exact h.elim
    | inner nm dm vs cs =>
      have hwf := h
      obtain ⟨hdis, hv, hcs, hvals, hch⟩ := h
      rw [(elems_perm_slots hv hcs).pairwise_iff hsymm, List.pairwise_flatMap]
      constructor
      · intro i _
        rw [slot]
        cases hs : sget dm vs i with
        | some v =>
          have hd := sget_bit hs
          have hn : nm.getLsbD i = false := by
            have := hdis i; rw [hd] at this; simpa using this
          simp [sget_none_of_bit hn]
        | none =>
          cases hs2 : sget nm cs i with
          | none => simp
          | some ch =>
            simpa using ih (hch i ch hs2).1 (prefix_lt hp (sget_lt hs2))
      · have : (List.range c.W).Pairwise (· ≠ ·) := List.nodup_range
        refine this.imp ?_
        intro i j hij x hx y hy
        have h1 := hwf.slot_hash hp hx
        have h2 := hwf.slot_hash hp hy
        by_contra hne
        have he : c.eqv (c.key x) (c.key y) = true := by simpa using hne
        rw [hc.hash_eq _ _ he, h2] at h1
        exact hij (slot_inj h1).symm

/-- generic one-slot change of an inner node -/
theorem WF_update {d shift p : Nat} {nm dm nm' dm' : BitVec c.W} {vs vs' : List T}
    {cs cs' : List c.N} {i : Nat}
    (h : WF c (d + 1) shift p (.inner nm dm vs cs))
    (hv' : vs'.length = popcount dm') (hc' : cs'.length = popcount nm')
    (h1 : ∀ j, j ≠ i → sget dm' vs' j = sget dm vs j)
    (h2 : ∀ j, j ≠ i → sget nm' cs' j = sget nm cs j)
    (hdis : (nm'.getLsbD i && dm'.getLsbD i) = false)
    (hvi : ∀ v, sget dm' vs' i = some v →
      (c.hash (c.key v)).toNat % 2 ^ (shift + c.B) = p + i * 2 ^ shift)
    (hci : ∀ ch, sget nm' cs' i = some ch →
      WF c d (shift + c.B) (p + i * 2 ^ shift) ch ∧ 2 ≤ (elems c d ch).length) :
    WF c (d + 1) shift p (.inner nm' dm' vs' cs') := by
  obtain ⟨hd, hv, hc, hvals, hch⟩ := h
  refine ⟨?_, hv', hc', ?_, ?_⟩
  · intro j
    by_cases hj : j = i
    · subst hj; exact hdis
    · rw [← sget_isSome hc' j, ← sget_isSome hv' j, h1 j hj, h2 j hj, sget_isSome hc, sget_isSome hv]
      exact hd j
  · intro j v hjv
    by_cases hj : j = i
    · subst hj; exact hvi v hjv
    · rw [h1 j hj] at hjv; exact hvals j v hjv
  · intro j ch hjc
    by_cases hj : j = i
    · subst hj; exact hci ch hjc
    · rw [h2 j hj] at hjc; exact hch j ch hjc

theorem elems_update {d : Nat} {nm dm nm' dm' : BitVec c.W} {vs vs' : List T}
    {cs cs' : List c.N} {i : Nat} (hi : i < c.W)
    (hv' : vs'.length = popcount dm') (hc' : cs'.length = popcount nm')
    (h1 : ∀ j, j ≠ i → sget dm' vs' j = sget dm vs j)
    (h2 : ∀ j, j ≠ i → sget nm' cs' j = sget nm cs j) :
    List.Perm (elems c (d + 1) (.inner nm' dm' vs' cs'))
      (slot c d nm' dm' vs' cs' i ++ rest c d nm dm vs cs i) := by
  refine (elems_split hv' hc' hi).trans ?_
  rw [rest_congr h1 h2]

/-! ## lookup in terms of `elems` -/

/-- keep the elements whose key differs from `k` -/
def without (k : K) (l : List T) : List T := l.filter (fun x => !c.eqv (c.key x) k)

/-- is some key equal to `k`? -/
def hasKey (k : K) (l : List T) : Bool := l.any (fun x => c.eqv (c.key x) k)

theorem without_perm {k : K} {l l' : List T} (h : List.Perm l l') :
    List.Perm (without (c := c) k l) (without (c := c) k l') := h.filter _

theorem hasKey_perm {k : K} {l l' : List T} (h : List.Perm l l') :
    hasKey (c := c) k l = hasKey (c := c) k l' := by
  unfold hasKey
  rw [Bool.eq_iff_iff]
  simp only [List.any_eq_true]
  constructor
  · rintro ⟨x, hx, h2⟩; exact ⟨x, h.mem_iff.mp hx, h2⟩
  · rintro ⟨x, hx, h2⟩; exact ⟨x, h.mem_iff.mpr hx, h2⟩

theorem without_append (k : K) (l l' : List T) :
    without (c := c) k (l ++ l') = without (c := c) k l ++ without (c := c) k l' := by
  simp [without]

theorem hasKey_append (k : K) (l l' : List T) :
    hasKey (c := c) k (l ++ l') = (hasKey (c := c) k l || hasKey (c := c) k l') := by
  simp [hasKey]

theorem without_of_ne {k : K} {l : List T} (h : ∀ x ∈ l, c.eqv (c.key x) k = false) :
    without (c := c) k l = l := by
  unfold without
  rw [List.filter_eq_self]
  intro x hx; simp [h x hx]

theorem hasKey_of_ne {k : K} {l : List T} (h : ∀ x ∈ l, c.eqv (c.key x) k = false) :
    hasKey (c := c) k l = false := by
  unfold hasKey
  rw [List.any_eq_false]
  intro x hx; simp [h x hx]

theorem ne_of_hasKey {k : K} {l : List T} (h : hasKey (c := c) k l = false) :
    ∀ x ∈ l, c.eqv (c.key x) k = false := by
  unfold hasKey at h
  rw [List.any_eq_false] at h
  intro x hx; simpa using h x hx

/-- the split of a well-formed inner node at the slot of key `k` -/
theorem WF.split (hc : c.Lawful) {d shift p : Nat} {nm dm : BitVec c.W} {vs : List T}
    {cs : List c.N} (h : WF c (d + 1) shift p (.inner nm dm vs cs)) (hp : p < 2 ^ shift) {k : K}
    (hk : (c.hash k).toNat % 2 ^ shift = p) :
    let i := c.idx (c.hash k) shift
    List.Perm (elems c (d + 1) (.inner nm dm vs cs))
        (slot c d nm dm vs cs i ++ rest c d nm dm vs cs i) ∧
    List.Perm (without (c := c) k (elems c (d + 1) (.inner nm dm vs cs)))
        (without (c := c) k (slot c d nm dm vs cs i) ++ rest c d nm dm vs cs i) ∧
    hasKey (c := c) k (elems c (d + 1) (.inner nm dm vs cs)) =
        hasKey (c := c) k (slot c d nm dm vs cs i) := by
  intro i
  have hs := elems_split (d := d) h.2.1 h.2.2.1 (idx_lt c (c.hash k) shift)
  have hr : ∀ x ∈ rest c d nm dm vs cs i, c.eqv (c.key x) k = false :=
    fun x hx => h.rest_ne hc hp hk hx
  refine ⟨hs, ?_, ?_⟩
  · have := without_perm (c := c) (k := k) hs
    rwa [without_append, without_of_ne hr] at this
  · rw [hasKey_perm hs, hasKey_append, hasKey_of_ne hr, Bool.or_false]

theorem slot_data {d : Nat} {nm dm : BitVec c.W} {vs : List T} {cs : List c.N} {i : Nat} {v : T}
    (hn : nm.getLsbD i = false) (hs : sget dm vs i = some v) : slot c d nm dm vs cs i = [v] := by
  simp [slot, hs, sget_none_of_bit hn]

theorem slot_child {d : Nat} {nm dm : BitVec c.W} {vs : List T} {cs : List c.N} {i : Nat} {ch : c.N}
    (hd : dm.getLsbD i = false) (hs : sget nm cs i = some ch) :
    slot c d nm dm vs cs i = elems c d ch := by
  simp [slot, hs, sget_none_of_bit hd]

theorem slot_none {d : Nat} {nm dm : BitVec c.W} {vs : List T} {cs : List c.N} {i : Nat}
    (hn : nm.getLsbD i = false) (hd : dm.getLsbD i = false) : slot c d nm dm vs cs i = [] := by
  simp [slot, sget_none_of_bit hn, sget_none_of_bit hd]

end Champ
