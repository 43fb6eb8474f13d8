import Verif.Rrb.PlanSpec

/-!
# `concat_merger` (operations.hpp 1559-1702) groups slots without losing any
-/

namespace Rrb

variable {T : Type} {c : Cfg}

/-- number of elements below -/
def tot (L : Nat) (cs : List (Node T)) : Nat := (cs.flatMap (els L)).length

theorem tot_append (L : Nat) (xs ys : List (Node T)) : tot L (xs ++ ys) = tot L xs + tot L ys := by simp [tot]

theorem tot_flatten (L : Nat) (gs : List (List (Node T))) : tot L gs.flatten = (gs.map (tot L)).sum := by
  induction gs with
  | nil => rfl
  | cons g gs ih => rw [List.flatten_cons, tot_append, ih]; simp

theorem len_flatten {α : Type} (k : Nat) (gs : List (List α)) (h : ∀ g ∈ gs, g.length = k) :
    gs.flatten.length = gs.length * k := by
  induction gs with
  | nil => simp
  | cons g gs ih =>
    rw [List.flatten_cons, List.length_append, ih (fun x hx => h x (by simp [hx])), h g (by simp), List.length_cons]
    ring

/-- the finished part of a merger that will produce `N` nodes of level `L`: `out` so far -/
structure MCore (c : Cfg) (L N : Nat) (m : Merger T) (out : List (Node T)) : Prop where
  grp : ∃ gs : List (List (Node T)), m.prev = gs.map (relOf L) ∧ (∀ g ∈ gs, g.length = 2 ^ c.B) ∧
    out = gs.flatten ++ m.cs ∧ m.prevSizes = psums 0 (gs.map (tot L)) ∧ m.n + gs.length * 2 ^ c.B = N ∧
    (m.cs = [] → gs = [])
  sz : m.sz = psums 0 (m.cs.map (fun x => (els L x).length))
  cs : m.cs.length ≤ 2 ^ c.B
  size : m.size = tot L out
  N3 : N ≤ 3 * 2 ^ c.B
  wf : ∀ x ∈ out, WF c L x

theorem szBefore_end (xs : List Nat) : Pos.szBefore (psums 0 xs) (psums 0 xs).length = some xs.sum := by
  rw [psums_length, szBefore_psums _ _ (le_refl _), List.take_length]

/-- `add_child` -/
theorem addChild_ok {L N : Nat} {m : Merger T} {out : List (Node T)} (h : MCore c L N m out) (hlt : out.length < N)
    {p : Node T} (hp : WF c L p) :
    ∃ m', Merger.addChild c m p (els L p).length = some m' ∧ MCore c L N m' (out ++ [p]) ∧ m'.curr = m.curr.tail ∧
      m'.toLeaf = m.toLeaf ∧ m'.toInner = m.toInner := by
  obtain ⟨⟨gs, g1, g2, g3, g4, g5, g6⟩, hsz, hcs, hsize, hN, hwf⟩ := h
  have hout : out.length = gs.length * 2 ^ c.B + m.cs.length := by
    rw [g3, List.length_append, len_flatten _ _ g2]
  have hpos := Nat.two_pow_pos c.B
  have hwf' : ∀ x ∈ out ++ [p], WF c L x := by
    intro x hx; simp at hx; rcases hx with hx | rfl
    · exact hwf x hx
    · exact hp
  have htot : m.size + (els L p).length = tot L (out ++ [p]) := by rw [tot_append, hsize]; simp [tot]
  have hszl : m.sz.length = m.cs.length := by rw [hsz, psums_length]; simp
  simp only [Merger.addChild, hszl]
  by_cases hfull : m.cs.length = 2 ^ c.B
  · rw [if_pos hfull]
    have hg3 : gs.length + 1 < 3 := by
      by_contra hc
      have : 2 ≤ gs.length := by omega
      have := Nat.mul_le_mul_right (2 ^ c.B) this
      omega
    rw [if_pos (by rw [g1]; simpa using hg3)]
    have e : (gs.length + 1) * 2 ^ c.B = gs.length * 2 ^ c.B + 2 ^ c.B := by ring
    simp only [Merger.put, List.length_nil, Pos.szBefore, Option.bind_eq_bind, Option.bind_some]
    rw [if_pos (by rw [Nat.lt_min]; omega)]
    refine ⟨_, rfl, ⟨⟨gs ++ [m.cs], ?_, ?_, ?_, ?_, ?_, by simp⟩, ?_, ?_, htot, hN, hwf'⟩, rfl, rfl, rfl⟩
    · simp [g1, relOf, hsz]
    · intro g hg; simp at hg; rcases hg with hg | rfl
      · exact g2 g hg
      · exact hfull
    · simp [g3]
    · simp only [List.map_append, List.map_singleton, psums_snoc, g4]
      rw [hsize, g3, tot_append, tot_flatten]
    · simp only [List.length_append, List.length_singleton]; omega
    · simp [psums]
    · simp; omega
  · rw [if_neg hfull]
    simp only [Merger.put]
    rw [if_pos (by simp only [Nat.lt_min]; omega), hsz, szBefore_end]
    simp only [Option.bind_eq_bind, Option.bind_some]
    refine ⟨_, rfl, ⟨⟨gs, g1, g2, by simp [g3], g4, g5, by simp⟩, ?_, ?_, htot, hN, hwf'⟩, rfl, rfl, rfl⟩
    · simp only [List.map_append, List.map_singleton, psums_snoc]; congr 2; omega
    · simp; omega

/-! ## Leaves -/

/-- invariant of a merger of leaves: `part` is in the leaf being filled, `rem` elements are still to come -/
structure MLeaf (c : Cfg) (N : Nat) (m : Merger T) (out : List (Node T)) (part : List T) (rem : Nat) : Prop where
  core : MCore c 0 N m out
  len : out.length + m.curr.length = N
  counts : Plan.CountsOK (2 ^ c.BL) m.curr
  sum : m.curr.sum = rem + part.length
  leaf : m.toLeaf = if part.length = 0 then none else some part
  inner : m.toInner = none
  room : part ≠ [] → ∃ k ks, m.curr = k :: ks ∧ part.length < k

theorem MLeaf.getD {N : Nat} {m : Merger T} {out part rem} (h : MLeaf c N m out part rem) : m.toLeaf.getD [] = part := by
  rw [h.leaf]; split
  · rename_i h0; simp [List.length_eq_zero_iff.1 h0]
  · rfl

theorem leafLoop_ok {N : Nat} : ∀ (fuel : Nat) (m : Merger T) (out : List (Node T)) (part : List T) (rem : Nat)
    (xs : List T), MLeaf c N m out part rem → xs ≠ [] → xs.length ≤ rem → xs.length < fuel →
    ∃ m' new part', Merger.leafLoop c fuel m xs = some m' ∧ MLeaf c N m' (out ++ new) part' (rem - xs.length) ∧
      new.flatMap (els 0) ++ part' = part ++ xs := by
  intro fuel
  induction fuel with
  | zero => intro m out part rem xs _ _ _ h; omega
  | succ fuel ih =>
    intro m out part rem xs h hne hle hf
    have hx1 : 1 ≤ xs.length := List.length_pos_iff.2 hne
    have hsum := h.sum
    obtain ⟨k, ks, hcur⟩ : ∃ k ks, m.curr = k :: ks := by
      cases hc : m.curr with
      | nil => rw [hc] at hsum; simp at hsum; omega
      | cons k ks => exact ⟨k, ks, rfl⟩
    have hk := h.counts k (by rw [hcur]; simp)
    have hpk : part.length < k := by
      by_cases hp : part = []
      · subst hp; simp; omega
      · obtain ⟨k', ks', h1, h2⟩ := h.room hp
        rw [hcur] at h1; simp at h1; omega
    rw [hcur] at hsum
    simp only [List.sum_cons] at hsum
    have hlen := h.len
    rw [hcur] at hlen; simp at hlen
    simp only [Merger.leafLoop, hcur, h.getD, List.head?_cons, Option.bind_eq_bind, Option.bind_some]
    generalize hj : min xs.length (k - part.length) = j
    have hj1 : j ≤ xs.length := by omega
    have hdl : (part ++ xs.take j).length = part.length + j := by simp; omega
    by_cases hfull : k = (part ++ xs.take j).length
    · simp only [if_pos hfull]
      have hw : WF c 0 (.leaf (part ++ xs.take j)) := ⟨by omega, by omega⟩
      obtain ⟨m1, a1, a2, a3, a4, a5⟩ := addChild_ok h.core (by omega) hw
      simp only [els] at a1
      simp only [mkLeaf, if_pos (show (part ++ xs.take j).length ≤ 2 ^ c.BL by omega), Option.bind_some, a1]
      have hm2 : MLeaf c N { m1 with toLeaf := none } (out ++ [.leaf (part ++ xs.take j)]) [] (rem - j) := by
        refine ⟨⟨a2.grp, a2.sz, a2.cs, a2.size, a2.N3, a2.wf⟩, ?_, ?_, ?_, by simp, ?_, by simp⟩
        · simp [a3, hcur]; omega
        · intro y hy; simp only [a3, hcur, List.tail_cons] at hy
          exact h.counts y (by rw [hcur]; simp [hy])
        · simp [a3, hcur]; omega
        · simp [a5, h.inner]
      by_cases hend : j = xs.length
      · rw [if_pos hend]
        refine ⟨_, [.leaf (part ++ xs.take j)], [], rfl, by rw [← hend]; exact hm2, ?_⟩
        rw [hend]; simp [els]
      · rw [if_neg hend]
        obtain ⟨m', new, part', b1, b2, b3⟩ := ih _ _ _ _ (xs.drop j) hm2 (by
            rw [Ne, List.drop_eq_nil_iff]; omega) (by simp; omega) (by simp; omega)
        refine ⟨m', .leaf (part ++ xs.take j) :: new, part', b1, ?_, ?_⟩
        · have : rem - j - (xs.drop j).length = rem - xs.length := by simp; omega
          rw [this] at b2; simpa using b2
        · rw [List.flatMap_cons, List.append_assoc, b3]; simp [els]
    · have hjx : j = xs.length := by omega
      simp only [if_neg hfull, Option.bind_some, if_pos hjx]
      refine ⟨_, [], part ++ xs, rfl, ?_, by simp⟩
      rw [hjx, List.take_length] at hdl hfull
      have e : xs.take j = xs := by rw [hjx, List.take_length]
      refine ⟨⟨?_, h.core.sz, h.core.cs, ?_, h.core.N3, ?_⟩, by simp [hcur]; omega, ?_, ?_, ?_, h.inner, ?_⟩
      · simpa using h.core.grp
      · simpa using h.core.size
      · simpa using h.core.wf
      · intro y hy; exact h.counts y (by rw [hcur]; simpa using hy)
      · simp; omega
      · simp [e, hne]
      · intro _; exact ⟨k, ks, rfl, by omega⟩

theorem mergeLeaf_ok {N : Nat} {m : Merger T} {out part rem} (h : MLeaf c N m out part rem) {p : Pos T} {xs : List T}
    (hp : PosOK c 0 p xs) (hs : SubPos p) (hle : xs.length ≤ rem) :
    ∃ m' new part', Merger.mergeLeaf c m p = some m' ∧ MLeaf c N m' (out ++ new) part' (rem - xs.length) ∧
      new.flatMap (els 0) ++ part' = part ++ xs := by
  obtain ⟨hn, hc, h1, h2, -⟩ := hp.leaf
  have hsize : p.size c = some xs.length := by
    match p, hp, hs with
    | .leafSub n k, hp, _ => obtain ⟨-, rfl, -⟩ := hp; rfl
    | .fullLeaf n, hp, _ => obtain ⟨-, hp⟩ := hp; simp [Pos.size, hp]
  have hsum := h.sum
  obtain ⟨k, ks, hcur⟩ : ∃ k ks, m.curr = k :: ks := by
    cases hc : m.curr with
    | nil => rw [hc] at hsum; simp at hsum; omega
    | cons k ks => exact ⟨k, ks, rfl⟩
  rw [hcur] at hsum; simp at hsum
  have hlen := h.len
  rw [hcur] at hlen; simp at hlen
  simp only [Merger.mergeLeaf, hsize, hcur, List.head?_cons, Option.bind_eq_bind, Option.bind_some, hc]
  by_cases hcase : m.toLeaf.isNone = true ∧ k = xs.length
  · rw [if_pos hcase]
    have hpart : part = [] := by
      have h0 := hcase.1
      rw [h.leaf] at h0; split at h0
      · rename_i h1; exact List.length_eq_zero_iff.1 h1
      · simp at h0
    subst hpart
    have hw : WF c 0 p.node := by rw [hn]; exact ⟨h1, h2⟩
    obtain ⟨m1, a1, a2, a3, a4, a5⟩ := addChild_ok h.core (by omega) hw
    have : (els 0 p.node).length = xs.length := by rw [hn]; rfl
    rw [this] at a1
    refine ⟨m1, [p.node], [], a1, ⟨a2, ?_, ?_, ?_, ?_, ?_, by simp⟩, by rw [hn]; simp [els]⟩
    · simp [a3, hcur]; omega
    · intro y hy; simp only [a3, hcur, List.tail_cons] at hy
      exact h.counts y (by rw [hcur]; simp [hy])
    · simp [a3, hcur] at hsum ⊢; omega
    · rw [a4, h.leaf]
    · rw [a5, h.inner]
  · rw [if_neg hcase]
    simp only [hn, Node.leaf?, Option.bind_some, slice_zero (le_refl _), List.take_length]
    exact leafLoop_ok _ _ _ _ _ _ h (by rintro rfl; simp at h1) hle (by omega)

/-! ## Inner nodes -/

/-- `copy_sizes` of children `[k, k + n)` -/
theorem PosOK.copySizes_take {L : Nat} {p : Pos T} {l : List T} {r cs} (h : PosOK c (L + 1) p l) (hsub : SubPos p)
    (hn : p.node = .inner r cs) {k n : Nat} (hk : k + n ≤ cs.length) (init : Nat) :
    Rrb.copySizes p k n init = some (psums init (((cs.drop k).take n).map (fun x => (els L x).length))) := by
  have hsizes := fun {k x} hx => (h.sub_sizes hsub hn (k := k) (x := x) hx).2
  match p, h with
  | .regSub n' s size, h =>
    obtain ⟨rfl, hr, rfl, rfl⟩ := h
    obtain ⟨ds, e, rfl, hl, hd, he, hels, hlen⟩ := hr.decomp
    simp only [Pos.node, Node.inner.injEq] at hn
    obtain ⟨-, rfl⟩ := hn
    simp only [Rrb.copySizes]
    by_cases hn0 : n = 0
    · subst hn0; simp [psums]
    · rw [if_neg hn0]
      have hlt : k + n - 1 < (ds ++ [e]).length := by omega
      have hx := hsizes (List.getElem?_eq_getElem hlt)
      rw [hx]
      simp only [Option.bind_eq_bind, Option.bind_some]
      simp only [List.length_append, List.length_singleton] at hk
      have e1 : ((ds ++ [e]).drop k).take n = (ds.drop k).take (n - 1) ++ [(ds ++ [e])[k + n - 1]] := by
        have h1 : n = (n - 1) + 1 := by omega
        have h2 : n - 1 < ((ds ++ [e]).drop k).length := by simp; omega
        conv_lhs => rw [h1, List.take_succ_eq_append_getElem h2]
        congr 1
        · rw [List.drop_append_of_le_length (by omega), List.take_append_of_le_length (by simp; omega)]
        · simp only [List.getElem_drop]; congr 2; omega
      rw [e1]
      have e2 : fullSizes (1 <<< (c.BL + c.B * L)) (n - 1) init =
          psums init (((ds.drop k).take (n - 1)).map (fun x => (els L x).length)) := by
        apply fullSizes_eq
        · simp; omega
        · intro y hy
          simp only [List.mem_map] at hy
          obtain ⟨z, hz, rfl⟩ := hy
          rw [(hd z (List.mem_of_mem_drop (List.mem_of_mem_take hz))).len]
          simp [cap, Nat.shiftLeft_eq]
      rw [e2, psums_getLast, List.map_append, psums_append]
      simp [psums]
  | .full n' s, h =>
    obtain ⟨rfl, hr, rfl⟩ := h
    simp only [Pos.node] at hn
    subst hn
    cases r with
    | some _ => simp [Full] at hr
    | none =>
      simp only [Full] at hr
      simp only [Rrb.copySizes]
      congr 1
      apply fullSizes_eq
      · simp; omega
      · intro y hy
        simp only [List.mem_map] at hy
        obtain ⟨z, hz, rfl⟩ := hy
        rw [(hr.2 z (List.mem_of_mem_drop (List.mem_of_mem_take hz))).len]
        simp [cap, Nat.shiftLeft_eq]
  | .rel n' s sz, h =>
    obtain ⟨rfl, hw, rfl, cs', rfl⟩ := h
    simp only [Pos.node, Node.inner.injEq] at hn
    obtain ⟨-, rfl⟩ := hn
    simp only [WF] at hw
    obtain ⟨-, -, -, rfl⟩ := hw
    simp only [Rrb.copySizes]
    rw [szBefore_psums _ _ (by simp; omega)]
    simp only [Option.bind_eq_bind, Option.bind_some]
    rw [slice_ok (by omega) (by simp [psums_length]; omega), Option.bind_some, psums_drop, psums_take, Nat.add_sub_cancel_left, Nat.zero_add,
      relSizes_eq]
    simp [List.map_take, List.map_drop]

/-- invariant of a merger of inner nodes of level `L + 1`: `part` is in the node being filled, `rem` children still to come -/
structure MInner (c : Cfg) (L N : Nat) (m : Merger T) (out part : List (Node T)) (rem : Nat) : Prop where
  core : MCore c (L + 1) N m out
  len : out.length + m.curr.length = N
  counts : Plan.CountsOK (2 ^ c.B) m.curr
  sum : m.curr.sum = rem + part.length
  inner : m.toInner = if part.length = 0 then none else some (psums 0 (part.map (fun x => (els L x).length)), part)
  leaf : m.toLeaf = none
  room : part ≠ [] → ∃ k ks, m.curr = k :: ks ∧ part.length < k
  wf : ∀ x ∈ part, WF c L x

theorem MInner.getD {L N : Nat} {m : Merger T} {out part rem} (h : MInner c L N m out part rem) :
    m.toInner.getD ([], []) = (psums 0 (part.map (fun x => (els L x).length)), part) := by
  rw [h.inner]; split
  · rename_i h0; simp [List.length_eq_zero_iff.1 h0, psums]
  · rfl

theorem relOf_els (L : Nat) (cs : List (Node T)) : els (L + 1) (relOf L cs) = cs.flatMap (els L) := rfl

theorem innerLoop_ok {L N : Nat} {p : Pos T} {l : List T} {r cs} (hp : PosOK c (L + 1) p l) (hsub : SubPos p)
    (hn : p.node = .inner r cs) (hwcs : ∀ x ∈ cs, WF c L x) : ∀ (fuel : Nat) (m : Merger T) (out part : List (Node T))
    (rem off : Nat), MInner c L N m out part rem → off < cs.length → cs.length - off ≤ rem → cs.length - off < fuel →
    ∃ m' new part', Merger.innerLoop c p fuel m off (cs.drop off) = some m' ∧
      MInner c L N m' (out ++ new) part' (rem - (cs.length - off)) ∧
      new.flatMap kids ++ part' = part ++ cs.drop off ∧ ∀ x ∈ new, ∃ ys, x = relOf L ys := by
  intro fuel
  induction fuel with
  | zero => intro m out part rem off _ _ _ h; omega
  | succ fuel ih =>
    intro m out part rem off h hoff hle hf
    have hsum := h.sum
    obtain ⟨k, ks, hcur⟩ : ∃ k ks, m.curr = k :: ks := by
      cases hc : m.curr with
      | nil => rw [hc] at hsum; simp at hsum; omega
      | cons k ks => exact ⟨k, ks, rfl⟩
    have hk := h.counts k (by rw [hcur]; simp)
    have hpk : part.length < k := by
      by_cases hp : part = []
      · subst hp; simp; omega
      · obtain ⟨k', ks', h1, h2⟩ := h.room hp
        rw [hcur] at h1; simp at h1; omega
    rw [hcur] at hsum
    simp only [List.sum_cons] at hsum
    have hlen := h.len
    rw [hcur] at hlen; simp at hlen
    simp only [Merger.innerLoop, hcur, h.getD, List.head?_cons, Option.bind_eq_bind, Option.bind_some, List.length_drop]
    generalize hj : min (cs.length - off) (k - part.length) = j
    have hdl : (part ++ (cs.drop off).take j).length = part.length + j := by simp; omega
    have hcp := hp.copySizes_take hsub hn (k := off) (n := j) (by omega)
      ((psums 0 (part.map (fun x => (els L x).length))).getLast?.getD 0)
    rw [psums_getLast] at hcp
    simp only [psums_getLast] at hcp ⊢
    have hps : psums 0 (part.map (fun x => (els L x).length)) ++ psums (0 + (part.map (fun x => (els L x).length)).sum)
        (((cs.drop off).take j).map (fun x => (els L x).length)) =
        psums 0 ((part ++ (cs.drop off).take j).map (fun x => (els L x).length)) := by
      rw [List.map_append, psums_append]
    simp only [hcp, Option.bind_some, hps]
    generalize hD : part ++ (cs.drop off).take j = D at *
    have hDne : D ≠ [] := by rintro rfl; simp at hdl; omega
    have hDw : ∀ x ∈ D, WF c L x := by
      intro x hx; rw [← hD] at hx; simp only [List.mem_append] at hx
      rcases hx with hx | hx
      · exact h.wf x hx
      · exact hwcs x (List.mem_of_mem_drop (List.mem_of_mem_take hx))
    have hlast : (psums 0 (D.map (fun x => (els L x).length))).getLast? = some (D.flatMap (els L)).length := by
      have h1 := psums_getLast (D.map (fun x => (els L x).length)) 0
      rw [sum_els] at h1
      cases hg : (psums 0 (D.map (fun x => (els L x).length))).getLast? with
      | none =>
        rw [List.getLast?_eq_none_iff] at hg
        have := congrArg List.length hg
        rw [psums_length] at this; simp at this; exact absurd this hDne
      | some z => rw [hg] at h1; simp at h1; simp [h1]
    simp only [hlast, Option.bind_some]
    by_cases hfull : k = D.length
    · simp only [if_pos hfull]
      have hw : WF c (L + 1) (relOf L D) := WF.relaxed hDne (by omega) hDw
      obtain ⟨m1, a1, a2, a3, a4, a5⟩ := addChild_ok h.core (by omega) hw
      rw [relOf_els] at a1
      simp only [mkInnerR, if_pos (show D.length ≤ 2 ^ c.B by omega), Option.bind_some]
      have ea : (Node.inner (some (psums 0 (D.map (fun x => (els L x).length)))) D) = relOf L D := rfl
      simp only [ea, a1, Option.bind_some]
      have hm2 : MInner c L N { m1 with toInner := none } (out ++ [relOf L D]) [] (rem - j) := by
        refine ⟨⟨a2.grp, a2.sz, a2.cs, a2.size, a2.N3, a2.wf⟩, ?_, ?_, ?_, by simp, ?_, by simp, by simp⟩
        · simp [a3, hcur]; omega
        · intro y hy; simp only [a3, hcur, List.tail_cons] at hy
          exact h.counts y (by rw [hcur]; simp [hy])
        · simp [a3, hcur]; omega
        · simp [a4, h.leaf]
      by_cases hend : j = cs.length - off
      · rw [if_pos hend]
        refine ⟨_, [relOf L D], [], rfl, by rw [← hend]; exact hm2, ?_, by simp⟩
        rw [← hD, hend, List.take_of_length_le (by simp)]; simp [kids, relOf]
      · rw [if_neg hend, List.drop_drop]
        obtain ⟨m', new, part', b1, b2, b3, b4⟩ := ih _ _ _ _ (off + j) hm2 (by omega) (by omega) (by omega)
        refine ⟨m', relOf L D :: new, part', b1, ?_, ?_, ?_⟩
        · have : rem - j - (cs.length - (off + j)) = rem - (cs.length - off) := by omega
          rw [this] at b2; simpa using b2
        · rw [List.flatMap_cons, List.append_assoc, b3, List.nil_append]
          show D ++ _ = _
          rw [← hD, List.append_assoc, ← List.drop_drop, List.take_append_drop]
        · intro x hx; simp at hx; rcases hx with rfl | hx
          · exact ⟨D, rfl⟩
          · exact b4 x hx
    · have hjx : j = cs.length - off := by omega
      simp only [if_neg hfull, Option.bind_some, if_pos hjx]
      have e : D = part ++ cs.drop off := by rw [← hD, hjx, List.take_of_length_le (by simp)]
      refine ⟨_, [], D, rfl, ?_, by simp [e], by simp⟩
      refine ⟨⟨?_, h.core.sz, h.core.cs, ?_, h.core.N3, ?_⟩, by simp; omega, ?_, ?_, ?_, h.leaf, ?_, hDw⟩
      · simpa using h.core.grp
      · simpa using h.core.size
      · simpa using h.core.wf
      · intro y hy; exact h.counts y (by rw [hcur]; simpa using hy)
      · simp; omega
      · simp [hDne]
      · intro _; exact ⟨k, ks, rfl, by omega⟩

theorem SubPos.size {L : Nat} {p : Pos T} {l : List T} (h : PosOK c (L + 1) p l) (hs : SubPos p) :
    p.size c = some l.length := by
  match p, h with
  | .regSub n s size, h => obtain ⟨-, -, -, rfl⟩ := h; rfl
  | .full n s, h =>
    obtain ⟨rfl, hr, rfl⟩ := h
    simp only [Pos.size, hr.len, cap_succ, Nat.shiftLeft_eq, cap]
    congr 1; ring
  | .rel n s sz, h =>
    obtain ⟨rfl, hw, rfl, cs, rfl⟩ := h
    simp only [WF] at hw
    obtain ⟨hne, -, -, rfl⟩ := hw
    exact size_rel hne

theorem mergeInner_ok {L N : Nat} {m : Merger T} {out part rem} (h : MInner c L N m out part rem) {p : Pos T} {l : List T}
    (hp : PosOK c (L + 1) p l) (hs : SubPos p) (hle : (kids p.node).length ≤ rem) :
    ∃ m' new part', Merger.mergeInner c m p = some m' ∧ MInner c L N m' (out ++ new) part' (rem - (kids p.node).length) ∧
      new.flatMap kids ++ part' = part ++ kids p.node ∧
      ((new = [p.node] ∧ part' = []) ∨ ∀ x ∈ new, ∃ ys, x = relOf L ys) := by
  obtain ⟨r, cs, hn, hne, hl, hw, hels, hcnt, hsh⟩ := hp.inner
  have hsize := SubPos.size hp hs
  have hk : kids p.node = cs := by rw [hn]; rfl
  rw [hk] at hle ⊢
  have hcs1 : 1 ≤ cs.length := List.length_pos_iff.2 hne
  have hsum := h.sum
  obtain ⟨k, ks, hcur⟩ : ∃ k ks, m.curr = k :: ks := by
    cases hc : m.curr with
    | nil => rw [hc] at hsum; simp at hsum; omega
    | cons k ks => exact ⟨k, ks, rfl⟩
  rw [hcur] at hsum; simp at hsum
  have hlen := h.len
  rw [hcur] at hlen; simp at hlen
  simp only [Merger.mergeInner, hsize, hcur, List.head?_cons, Option.bind_eq_bind, Option.bind_some, hcnt]
  by_cases hcase : m.toInner.isNone = true ∧ k = cs.length
  · rw [if_pos hcase]
    have hpart : part = [] := by
      have h0 := hcase.1
      rw [h.inner] at h0; split at h0
      · rename_i h1; exact List.length_eq_zero_iff.1 h1
      · simp at h0
    subst hpart
    have hwp : WF c (L + 1) p.node := by
      match p, hp with
      | .reg n s size, hp => exact hp.2.1.wf
      | .regSub n s size, hp => exact hp.2.1.wf
      | .full n s, hp => exact hp.2.1.reg.wf
      | .rel n s sz, hp => exact hp.2.1
    obtain ⟨m1, a1, a2, a3, a4, a5⟩ := addChild_ok h.core (by omega) hwp
    have : (els (L + 1) p.node).length = l.length := by rw [hn, hels]; rfl
    rw [this] at a1
    refine ⟨m1, [p.node], [], a1, ⟨a2, ?_, ?_, ?_, ?_, ?_, by simp, by simp⟩, by simp [hk], Or.inl ⟨rfl, rfl⟩⟩
    · simp [a3, hcur]; omega
    · intro y hy; simp only [a3, hcur, List.tail_cons] at hy
      exact h.counts y (by rw [hcur]; simp [hy])
    · simp [a3, hcur] at hsum ⊢; omega
    · rw [a5, h.inner]
    · rw [a4, h.leaf]
  · rw [if_neg hcase]
    simp only [hn, Node.inner?, Option.bind_some, slice_zero (le_refl _), List.take_length]
    obtain ⟨m', new, part', b1, b2, b3, b4⟩ := innerLoop_ok hp hs hn hw (cs.length + 1) m out part rem 0 h (by omega)
      (by omega) (by omega)
    exact ⟨m', new, part', by simpa using b1, by simpa using b2, by simpa using b3, Or.inr b4⟩

end Rrb
