import Verif.Rrb.Visit
import Verif.Rrb.PosSpec

/-!
# Specifications of the read-only visitors and of `update_visitor`
-/

namespace Rrb

variable {T : Type} {c : Cfg}

/-- `xs` is a contiguous part of `l`, and element `i` of `l` is element `o` of `xs` -/
def At (l : List T) (i : Nat) (xs : List T) (o : Nat) : Prop :=
  ∃ pre post, l = pre ++ xs ++ post ∧ pre.length + o = i ∧ o < xs.length

theorem At.get {l xs : List T} {i o : Nat} (h : At l i xs o) : l[i]? = xs[o]? := by
  obtain ⟨pre, post, rfl, rfl, h2⟩ := h
  rw [List.append_assoc, List.getElem?_append_right (by omega), Nat.add_sub_cancel_left,
    List.getElem?_append_left h2]

theorem At.kid {L : Nat} {cs : List (Node T)} {k : Nat} {x : Node T} (hx : cs[k]? = some x) {i : Nat}
    (hlo : before L cs k ≤ i) {xs : List T} {o : Nat} (h : At (els L x) (i - before L cs k) xs o) :
    At (cs.flatMap (els L)) i xs o := by
  obtain ⟨pre, post, h1, h2, h3⟩ := h
  obtain ⟨hk, rfl⟩ := List.getElem?_eq_some_iff.1 hx
  refine ⟨(cs.take k).flatMap (els L) ++ pre, post ++ (cs.drop (k + 1)).flatMap (els L), ?_, ?_, h3⟩
  · have : cs = cs.take k ++ (cs[k] :: cs.drop (k + 1)) := by simp
    conv_lhs => rw [this]
    simp only [List.flatMap_append, List.flatMap_cons, h1, List.append_assoc]
  · simp only [before, List.length_append] at *; omega

theorem At.leaf {l : List T} {i : Nat} (h : i < l.length) : At l i l i :=
  ⟨[], [], by simp, by simp, h⟩

/-! ### Levels -/

theorem levels_shift (hB : 0 < c.B) (L : Nat) : levels c (c.BL + c.B * L) = L + 1 := by
  simp [levels, hB]

theorem descent_find (hB : 0 < c.B) (L : Nat) :
    (List.range 6).find? (fun k => c.BL + c.B * L == c.BL + c.B * k) = if L < 6 then some L else none := by
  have key : ∀ k, (c.BL + c.B * L == c.BL + c.B * k) = (L == k) := by
    intro k
    rw [Bool.eq_iff_iff]
    simp only [beq_iff_eq]
    constructor
    · intro h
      exact Nat.eq_of_mul_eq_mul_left hB (by omega)
    · rintro rfl; rfl
  simp only [key]
  split
  · have : L = 0 ∨ L = 1 ∨ L = 2 ∨ L = 3 ∨ L = 4 ∨ L = 5 := by omega
    rcases this with h | h | h | h | h | h <;> subst h <;> rfl
  · simp only [List.find?_eq_none, List.mem_range, beq_iff_eq]
    intro k hk; omega

/-- the unrolled descent copes with the tree -/
theorem descentLevels_shift (hB : 0 < c.B) (L : Nat) (h : c.deep = true ∨ L < 6) :
    ∃ m, descentLevels c (c.BL + c.B * L) = some (L + 1, m) := by
  simp only [descentLevels, descent_find hB]
  by_cases h6 : L < 6
  · exact ⟨false, by simp [h6]⟩
  · rcases h with h | h
    · refine ⟨true, ?_⟩
      simp only [if_neg h6, h, if_true, Option.some.injEq, Prod.mk.injEq, and_true]
      rw [Nat.add_sub_cancel_left, Nat.mul_div_cancel_left _ hB]
    · exact absurd h h6

/-- the unrolled descent does not cope with the tree -/
theorem descentLevels_deep (hB : 0 < c.B) (L : Nat) (hd : c.deep = false) (h : 6 ≤ L) :
    descentLevels c (c.BL + c.B * L) = none := by
  simp only [descentLevels, descent_find hB, if_neg (Nat.not_lt.2 h), hd, Bool.false_eq_true, if_false]

/-! ### Descent -/

/-- child `k` of a regular node contains `[k * cap, …)` -/
theorem Reg.child (L : Nat) {n : Node T} (h : Reg c (L + 1) n) {i : Nat} (hi : i < (els (L + 1) n).length) :
    ∃ cs x, n = .inner none cs ∧ cs[i / cap c L]? = some x ∧ Reg c L x ∧
      before L cs (i / cap c L) = i / cap c L * cap c L ∧ i % cap c L < (els L x).length ∧
      i / cap c L < 2 ^ c.B := by
  match n, h with
  | .inner none cs, h =>
    simp only [Reg] at h
    obtain ⟨hl, ds, e, rfl, hd, he⟩ := h
    simp only [els] at hi
    obtain ⟨k, x, hx, h1, h2⟩ := exists_kid L _ i hi
    obtain ⟨hk, hxe⟩ := List.getElem?_eq_some_iff.1 hx
    have hk' : k ≤ ds.length := by simp at hk; omega
    rw [before_full L ds e hd k hk'] at h1 h2
    have hrx : Reg c L x := by
      have : x ∈ ds ++ [e] := List.mem_of_getElem? hx
      simp only [List.mem_append, List.mem_singleton] at this
      rcases this with h | rfl
      · exact (hd x h).reg
      · exact he
    have hxl := hrx.len.2.1
    have hc := cap_pos c L
    have hdiv : i / cap c L = k := (Nat.div_eq_iff hc).2 ⟨h1, by omega⟩
    have hmod : i % cap c L = i - k * cap c L := by
      have := Nat.div_add_mod i (cap c L)
      rw [hdiv, mul_comm] at this; omega
    refine ⟨_, x, rfl, by rw [hdiv]; exact hx, hrx, by rw [hdiv, before_full L ds e hd k hk'], by omega, ?_⟩
    simp at hl; omega
  | .inner (some _) _, h => simp [Reg] at h
  | .leaf _, h => simp [Reg] at h

theorem and_mask_of_mod {a b L : Nat} (h : a % cap c L = b) : a &&& (2 ^ c.BL - 1) = b % 2 ^ c.BL := by
  rw [Nat.and_two_pow_sub_one_eq_mod, ← h]
  exact (Nat.mod_mod_of_dvd _ (dvd_cap c L)).symm

/-- descending a regular tree ends in the leaf that holds the element -/
theorem descendRegular_spec : ∀ (L : Nat) {n : Node T}, Reg c L n → ∀ (idx i : Nat), idx % cap c L = i →
    i < (els L n).length → ∃ xs, descendRegular c L n idx = some (.leaf xs, idx) ∧
      xs.length = 2 ^ c.BL ∧ At (els L n) i xs (idx &&& (2 ^ c.BL - 1))
  | 0, .leaf xs, h, idx, i, hm, hi => by
    simp only [Reg] at h
    simp only [els] at hi ⊢
    refine ⟨xs, rfl, h, ?_⟩
    rw [and_mask_of_mod hm, Nat.mod_eq_of_lt (by omega)]
    exact At.leaf hi
  | 0, .inner _ _, h, _, _, _, _ => by simp [Reg] at h
  | L + 1, n, h, idx, i, hm, hi => by
    obtain ⟨cs, x, rfl, hx, hrx, hb, hlt, hk⟩ := h.child L hi
    have hdiv : (idx >>> (c.BL + c.B * L)) &&& (2 ^ c.B - 1) = i / cap c L := by
      rw [shr_and, pow_shift, ← Nat.mod_mul_right_div_self, ← cap_succ, hm]
    have hmod : idx % cap c L = i % cap c L := by
      rw [← hm, cap_succ, Nat.mod_mul_right_mod]
    obtain ⟨xs, h1, h2, h3⟩ := descendRegular_spec L hrx idx (i % cap c L) hmod hlt
    refine ⟨xs, by simp [descendRegular, Node.inner?, hdiv, hx, h1], h2, ?_⟩
    refine At.kid hx (by rw [hb]; exact Nat.div_mul_le_self _ _) ?_
    have : i - before L cs (i / cap c L) = i % cap c L := by
      rw [hb]
      have := Nat.div_add_mod i (cap c L)
      rw [mul_comm] at this; omega
    rw [this]; exact h3

/-- child of a relaxed node found by the scan -/
theorem relaxed_child (L : Nat) {cs : List (Node T)} (hw : ∀ x ∈ cs, WF c L x) {i : Nat}
    (hi : i < (cs.flatMap (els L)).length) :
    ∃ k x, cs[k]? = some x ∧ before L cs k ≤ i ∧ i < before L cs k + (els L x).length ∧
      ∀ start, start ≤ i >>> (c.BL + c.B * L) → 
      Pos.scan i ((psums 0 (cs.map (fun x => (els L x).length))).drop start) start = some k := by
  obtain ⟨k, x, hx, hlo, hhi⟩ := exists_kid L cs i hi
  obtain ⟨hk, -⟩ := List.getElem?_eq_some_iff.1 hx
  have hb := before_succ L cs k x hx
  have hks : i >>> (c.BL + c.B * L) ≤ k := by
    rw [Nat.shiftRight_eq_div_pow, pow_shift]
    have h1 := before_le_cap (c := c) L cs (fun x hx => (hw x hx).len.2) (k + 1)
    have h2 : i < (k + 1) * cap c L := by omega
    have := (Nat.div_lt_iff_lt_mul (cap_pos c L)).2 h2
    omega
  refine ⟨k, x, hx, hlo, hhi, ?_⟩
  intro start hs
  refine scan_ok _ _ k (by simpa using hk) ?_ ?_ _ (by omega)
  · rw [← before_eq_sum]; exact hlo
  · rw [← before_eq_sum, hb]; exact hhi

/-- descending a relaxed tree ends in the leaf that holds the element -/
theorem descendMaybe_spec (m : Bool) : ∀ (L : Nat) {n : Node T}, WF c L n → ∀ (i : Nat),
    i < (els L n).length → ∃ xs idx, descendMaybe c m L n i = some (.leaf xs, idx) ∧
      At (els L n) i xs (idx &&& (2 ^ c.BL - 1))
  | 0, .leaf xs, h, i, hi => by
    simp only [WF] at h
    simp only [els] at hi ⊢
    refine ⟨xs, i, rfl, ?_⟩
    rw [Nat.and_two_pow_sub_one_eq_mod, Nat.mod_eq_of_lt (by omega)]
    exact At.leaf hi
  | 0, .inner _ _, h, _, _ => by simp [WF] at h
  | L + 1, .leaf _, h, _, _ => by simp [WF] at h
  | L + 1, .inner none cs, h, i, hi => by
    simp only [WF] at h
    have := h.len
    obtain ⟨xs, h1, h2, h3⟩ := descendRegular_spec (L + 1) h i i (Nat.mod_eq_of_lt (by omega)) hi
    exact ⟨xs, i, by simp [descendMaybe, Node.relaxed?, h1], h3⟩
  | L + 1, .inner (some sz) cs, h, i, hi => by
    simp only [WF] at h
    obtain ⟨hne, hl, hw, rfl⟩ := h
    simp only [els] at hi
    obtain ⟨k, x, hx, hlo, hhi, hscan⟩ := relaxed_child (c := c) L hw hi
    obtain ⟨hk, -⟩ := List.getElem?_eq_some_iff.1 hx
    obtain ⟨xs, idx, h1, h2⟩ := descendMaybe_spec m L (hw x (List.mem_of_getElem? hx)) (i - before L cs k)
      (by omega)
    refine ⟨xs, idx, ?_, At.kid hx hlo h2⟩
    have hbs := szBefore_psums (cs.map (fun x => (els L x).length)) k (by simpa using Nat.le_of_lt hk)
    rw [← before_eq_sum] at hbs
    have hs := hscan (if L = 0 ∨ m = true then (i >>> (c.BL + c.B * L)) &&& (2 ^ c.B - 1) else i >>> (c.BL + c.B * L)) (by
      split
      · exact Nat.and_le_left
      · exact le_refl _)
    simp only [descendMaybe, Node.relaxed?, Node.inner?, Option.bind_eq_bind, Option.bind_some, hs, hx, hbs, h1]

theorem regionFor_spec (hB : 0 < c.B) : ∀ (L : Nat) {p : Pos T} {l : List T}, PosOK c L p l → ∀ (idx i : Nat),
    IdxOK c L p idx i → i < l.length →
    ∃ xs o, regionFor c L p idx = some (xs, o, xs.length) ∧ At l i xs o
  | 0, p, l, h, idx, i, hidx, hi => by
    obtain ⟨h1, h2, h3, h4, h5⟩ := h.leaf
    exact ⟨l, i, by simp [regionFor, h1, Node.leaf?, h5 idx i hidx hi, h2], At.leaf hi⟩
  | L + 1, p, l, h, idx, i, hidx, hi => by
    obtain ⟨r, cs, hn, -, -, -, rfl, -, -⟩ := h.inner
    obtain ⟨k, x, hx, hlo, hhi⟩ := exists_kid L cs i hi
    obtain ⟨e1, q, idx', e2, e3, e4, e5⟩ := h.towards hB hn hidx hx hlo hhi
    obtain ⟨xs, o, h1, h2⟩ := regionFor_spec hB L e3 idx' _ e5 (by omega)
    exact ⟨xs, o, by simp [regionFor, e1, e2, h1], At.kid hx hlo h2⟩

/-! ### Update -/

/-- same tree shape and same size tables -/
def SameShape : Nat → Node T → Node T → Prop
  | 0, .leaf xs, .leaf ys => xs.length = ys.length
  | L + 1, .inner r cs, .inner r' ds => r = r' ∧ List.Forall₂ (SameShape L) cs ds
  | _, _, _ => False

theorem SameShape.refl : ∀ {L : Nat} {n : Node T}, WF c L n → SameShape L n n
  | 0, .leaf _, _ => rfl
  | 0, .inner _ _, h => by simp [WF] at h
  | _ + 1, .leaf _, h => by simp [WF] at h
  | L + 1, .inner r cs, h => by
    obtain ⟨r', cs', e, h1, h2, h3⟩ := h.kids
    cases e
    refine ⟨rfl, ?_⟩
    rw [List.forall₂_same]
    exact fun x hx => SameShape.refl (h3 x hx)

theorem SameShape.len : ∀ {L : Nat} {n m : Node T}, SameShape L n m → (els L n).length = (els L m).length
  | 0, .leaf _, .leaf _, h => h
  | L + 1, .inner r cs, .inner r' ds, h => by
    obtain ⟨-, h⟩ := h
    simp only [els]
    induction h with
    | nil => rfl
    | cons h1 _ ih => simp only [List.flatMap_cons, List.length_append, SameShape.len h1, ih]
  | 0, .leaf _, .inner _ _, h => by simp [SameShape] at h
  | 0, .inner _ _, _, h => by simp [SameShape] at h
  | _ + 1, .leaf _, _, h => by simp [SameShape] at h
  | _ + 1, .inner _ _, .leaf _, h => by simp [SameShape] at h

theorem SameShape.full : ∀ {L : Nat} {n m : Node T}, SameShape L n m → Full c L n → Full c L m
  | 0, .leaf _, .leaf _, h, hf => by simp only [Full, SameShape] at *; omega
  | L + 1, .inner r cs, .inner r' ds, h, hf => by
    obtain ⟨rfl, h⟩ := h
    cases r with
    | some _ => simp [Full] at hf
    | none =>
      refine ⟨by rw [← h.length_eq]; exact hf.1, ?_⟩
      intro x hx
      obtain ⟨i, hi, rfl⟩ := List.getElem_of_mem hx
      have hi' : i < cs.length := by rw [h.length_eq]; exact hi
      exact SameShape.full (h.get hi' hi) (hf.2 _ (List.getElem_mem hi'))
  | 0, .leaf _, .inner _ _, h, _ => by simp [SameShape] at h
  | 0, .inner _ _, _, h, _ => by simp [SameShape] at h
  | _ + 1, .leaf _, _, h, _ => by simp [SameShape] at h
  | _ + 1, .inner _ _, .leaf _, h, _ => by simp [SameShape] at h

theorem SameShape.reg : ∀ {L : Nat} {n m : Node T}, SameShape L n m → Reg c L n → Reg c L m
  | 0, .leaf _, .leaf _, h, hf => by simp only [Reg, SameShape] at *; omega
  | L + 1, .inner r cs, .inner r' ds, h, hf => by
    obtain ⟨rfl, h⟩ := h
    cases r with
    | some _ => simp [Reg] at hf
    | none =>
      obtain ⟨hl, as, e, rfl, hd, he⟩ := hf
      refine ⟨by rw [← h.length_eq]; exact hl, ?_⟩
      obtain ⟨as', bs', h1, h2, rfl⟩ : ∃ as' bs', List.Forall₂ (SameShape L) as as' ∧
          List.Forall₂ (SameShape L) [e] bs' ∧ ds = as' ++ bs' :=
        ⟨ds.take as.length, ds.drop as.length, List.Forall₂.flip (List.forall₂_take_append _ _ _ h.flip),
          List.Forall₂.flip (List.forall₂_drop_append _ _ _ h.flip), by simp⟩
      cases h2 with
      | cons h3 h4 =>
        cases h4
        refine ⟨as', _, rfl, ?_, SameShape.reg h3 he⟩
        intro x hx
        obtain ⟨i, hi, rfl⟩ := List.getElem_of_mem hx
        have hi' : i < as.length := by rw [h1.length_eq]; exact hi
        exact SameShape.full (h1.get hi' hi) (hd _ (List.getElem_mem hi'))
  | 0, .leaf _, .inner _ _, h, _ => by simp [SameShape] at h
  | 0, .inner _ _, _, h, _ => by simp [SameShape] at h
  | _ + 1, .leaf _, _, h, _ => by simp [SameShape] at h
  | _ + 1, .inner _ _, .leaf _, h, _ => by simp [SameShape] at h

theorem SameShape.sizes {L : Nat} {cs ds : List (Node T)} (h : List.Forall₂ (SameShape L) cs ds) :
    cs.map (fun x => (els L x).length) = ds.map (fun x => (els L x).length) := by
  induction h with
  | nil => rfl
  | cons h1 _ ih => simp only [List.map_cons, SameShape.len h1, ih]

theorem SameShape.wf : ∀ {L : Nat} {n m : Node T}, SameShape L n m → WF c L n → WF c L m
  | 0, .leaf _, .leaf _, h, hf => by simp only [WF, SameShape] at *; omega
  | L + 1, .inner r cs, .inner r' ds, h, hf => by
    cases r with
    | none =>
      have hr := SameShape.reg h hf
      obtain ⟨rfl, -⟩ := h
      exact hr
    | some sz =>
      obtain ⟨rfl, h⟩ := h
      obtain ⟨h1, h2, h3, h4⟩ := hf
      refine ⟨?_, by rw [← h.length_eq]; exact h2, ?_, by rw [h4, SameShape.sizes h]⟩
      · rintro rfl; exact h1 (by cases h; rfl)
      · intro x hx
        obtain ⟨i, hi, rfl⟩ := List.getElem_of_mem hx
        have hi' : i < cs.length := by rw [h.length_eq]; exact hi
        exact SameShape.wf (h.get hi' hi) (h3 _ (List.getElem_mem hi'))
  | 0, .leaf _, .inner _ _, h, _ => by simp [SameShape] at h
  | 0, .inner _ _, _, h, _ => by simp [SameShape] at h
  | _ + 1, .leaf _, _, h, _ => by simp [SameShape] at h
  | _ + 1, .inner _ _, .leaf _, h, _ => by simp [SameShape] at h

theorem forall₂_set {α : Type} {R : α → α → Prop} {cs : List α} (hr : ∀ x ∈ cs, R x x) {k : Nat}
    {x y : α} (hx : cs[k]? = some x) (h : R x y) : List.Forall₂ R cs (cs.set k y) := by
  induction cs generalizing k with
  | nil => simp at hx
  | cons z zs ih =>
    cases k with
    | zero =>
      simp at hx; subst hx
      refine .cons h ?_
      rw [List.forall₂_same]; exact fun w hw => hr w (by simp [hw])
    | succ k => exact .cons (hr z (by simp)) (ih (fun w hw => hr w (by simp [hw])) (by simpa using hx))

/-- replacing child `k` changes just its part -/
theorem flatMap_set (L : Nat) (cs : List (Node T)) (k : Nat) (x y : Node T) (hx : cs[k]? = some x) (i : Nat)
    (f : T → T) (hy : els L y = (els L x).modify (i - before L cs k) f) (h1 : before L cs k ≤ i)
    (h2 : i < before L cs k + (els L x).length) :
    (cs.set k y).flatMap (els L) = (cs.flatMap (els L)).modify i f := by
  obtain ⟨hk, rfl⟩ := List.getElem?_eq_some_iff.1 hx
  have e1 : cs = cs.take k ++ (cs[k] :: cs.drop (k + 1)) := by simp
  have e2 : cs.set k y = cs.take k ++ (y :: cs.drop (k + 1)) := by
    rw [List.set_eq_take_append_cons_drop, if_pos hk]
  rw [e2]
  conv_rhs => rw [e1]
  simp only [List.flatMap_append, List.flatMap_cons, hy]
  generalize hA : (cs.take k).flatMap (els L) = A
  have hb : before L cs k = A.length := by simp [before, hA]
  rw [hb] at h1 h2 ⊢
  apply List.ext_getElem?
  intro j
  simp only [List.getElem?_modify, List.getElem?_append, List.length_modify]
  by_cases hj : j < A.length
  · simp only [hj, if_true]
    have : ¬ (i = j) := by omega
    simp [this]
  · simp only [hj, if_false]
    by_cases hj2 : j - A.length < (els L cs[k]).length
    · simp only [hj2, if_true]
      by_cases hij : i = j
      · subst hij; simp
      · have : ¬ (i - A.length = j - A.length) := by omega
        simp [this, hij]
    · simp only [hj2, if_false]
      have : ¬ (i = j) := by omega
      simp [this]

theorem updateV_spec (hB : 0 < c.B) (f : T → T) : ∀ (L : Nat) {p : Pos T} {l : List T}, PosOK c L p l →
    ∀ (idx i : Nat), IdxOK c L p idx i → i < l.length →
    ∃ n, updateV c f L p idx = some n ∧ SameShape L p.node n ∧ els L n = l.modify i f
  | 0, p, l, h, idx, i, hidx, hi => by
    obtain ⟨h1, h2, h3, h4, h5⟩ := h.leaf
    refine ⟨.leaf (l.set i (f l[i])), ?_, ?_, ?_⟩
    · simp [updateV, h5 idx i hidx hi, h1, h2, copyLeaf, Node.leaf?, slice_all, mkLeaf, h4,
        List.getElem?_eq_getElem hi]
    · rw [h1]; simp [SameShape]
    · simp only [els]
      rw [List.modify_eq_set_getElem?, List.getElem?_eq_getElem hi]; rfl
  | L + 1, p, l, h, idx, i, hidx, hi => by
    obtain ⟨r, cs, hn, hne, hl, hw, rfl, hcnt, -⟩ := h.inner
    obtain ⟨k, x, hx, hlo, hhi⟩ := exists_kid L cs i hi
    obtain ⟨e1, q, idx', e2, e3, e4, e5⟩ := h.towards hB hn hidx hx hlo hhi
    obtain ⟨y, h1, h2, h3⟩ := updateV_spec hB f L e3 idx' _ e5 (by omega)
    rw [e4] at h2
    obtain ⟨hk, -⟩ := List.getElem?_eq_some_iff.1 hx
    refine ⟨.inner r (cs.set k y), ?_, ?_, ?_⟩
    · have hrm : remake c p (cs.set k y) = some (.inner r (cs.set k y)) := by
        rcases h.regular with ⟨n, size, ⟨ds, e, rfl, -⟩, hp, -⟩ | ⟨cs', rfl, -⟩ | ⟨cs', -, -, -, -, rfl⟩
        · rcases hp with rfl | ⟨rfl, -⟩ <;>
          · simp [Pos.node] at hn; obtain ⟨rfl, -⟩ := hn
            simp [remake, mkInner, hl]
        · simp [Pos.node] at hn; obtain ⟨rfl, -⟩ := hn
          simp [remake, mkInner, hl]
        · simp [Pos.node] at hn; obtain ⟨rfl, -⟩ := hn
          simp [remake, mkInnerR, hl]
      simp [updateV, e1, e2, h1, hn, Node.inner?, slice_all hcnt, hk, hrm]
    · rw [hn]
      exact ⟨rfl, forall₂_set (fun x hx => SameShape.refl (hw x hx)) hx h2⟩
    · exact flatMap_set L cs k x y hx i f h3 hlo hhi

end Rrb
