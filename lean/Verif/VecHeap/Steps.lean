import Verif.VecHeap.Shapes

/-!
# Steps of the visitors on values
-/

namespace VecHeap
open Rrb

variable {T : Type} {c : Cfg} {L : Nat} {sh : Shp} {N R : Node T} {k idx : Nat} {f : T → T}

theorem Fits.children (hB : 0 < c.B) (h : Fits c (L + 1) sh N) : ∃ Ns, N = .inner none Ns ∧ sh.isLeaf = false ∧ sh.shift = c.BL + c.B * L ∧ sh.count c = Ns.length ∧ 1 ≤ Ns.length ∧ Ns.length ≤ 2 ^ c.B ∧
    ∀ k x, Ns[k]? = some x → ∃ sh', sh.towards c k = some sh' ∧ Fits c L sh' x := by
  obtain ⟨ds, e, sf, sl, rfl, hk⟩ := h.kids hB
  exact ⟨_, rfl, hk.notLeaf, hk.shift, by rw [hk.count]; simp, by simp, by simpa using hk.le, fun k x hx => hk.kid hx⟩

theorem Fits.updLeaf (h : Fits c 0 sh N) (hv : Rrb.updateV c f 0 (sh.pos N) idx = some R) : ∃ xs off x, N = .leaf xs ∧ sh.isLeaf = true ∧ sh.count c = xs.length ∧ xs.length ≤ 2 ^ c.BL ∧
    sh.index c idx = some off ∧ xs[off]? = some x ∧ R = .leaf (xs.set off (f x)) := by
  obtain ⟨xs, rfl, h1, h2, h3, h4⟩ := h.leaf
  simp only [Rrb.updateV, pos_index, pos_count, pos_node, Option.bind_eq_bind, Option.bind_eq_some_iff, h2] at hv
  obtain ⟨off, ho, n, hn, ys, hy, x, hx, hR⟩ := hv
  simp only [Rrb.copyLeaf, Node.leaf?, Option.bind_eq_bind, Option.bind_some] at hn
  rw [slice_all rfl] at hn
  simp only [Option.bind_some, mkLeaf] at hn
  rw [if_pos h4] at hn
  cases hn
  cases hy
  simp only [Option.some.injEq] at hR
  exact ⟨_, off, x, rfl, h1, h2, h4, ho, hx, hR.symm⟩

theorem Fits.upd (hB : 0 < c.B) (h : Fits c (L + 1) sh N) (hv : Rrb.updateV c f (L + 1) (sh.pos N) idx = some R) : ∃ Ns off x sh' R', N = .inner none Ns ∧ sh.count c = Ns.length ∧ 1 ≤ Ns.length ∧ Ns.length ≤ 2 ^ c.B ∧
    sh.index c idx = some off ∧ Ns[off]? = some x ∧ sh.towards c off = some sh' ∧ Fits c L sh' x ∧ Rrb.updateV c f L (sh'.pos x) idx = some R' ∧ R = .inner none (Ns.set off R') := by
  obtain ⟨Ns, rfl, h0, _, h1, h2, h3, h4⟩ := h.children hB
  simp only [Rrb.updateV, pos_index, pos_count, pos_node, Option.bind_eq_bind, Option.bind_eq_some_iff, h1] at hv
  obtain ⟨off, ho, ⟨q, i⟩, hq, R', hR', cs, hcs, ks, hks, hR⟩ := hv
  obtain ⟨r, cs', x, sh', hN, hx, ht, rfl, rfl⟩ := pos_towards hq
  cases hN
  cases hcs
  rw [slice_all rfl] at hks
  cases hks
  obtain ⟨sh'', ht', hf⟩ := h4 off x hx
  rw [ht] at ht'
  cases ht'
  refine ⟨_, off, x, sh', R', rfl, h1, h2, h3, ho, hx, ht, hf, hR', ?_⟩
  split at hR
  · have hrm : remake c (sh.pos (.inner none Ns)) (Ns.set off R') = mkInner c (Ns.set off R') := by
      cases sh <;> rfl
    rw [hrm] at hR
    unfold mkInner at hR
    rw [if_pos (by simpa using h3)] at hR
    cases hR
    rfl
  · cases hR

theorem Fits.sliceLeaf {collapse : Bool} {res : Nat × Option (Node T) × Nat × Node T} (h : Fits c 0 sh N) (hv : Rrb.sliceRight c collapse 0 (sh.pos N) idx = some res) :
    ∃ xs i, N = .leaf xs ∧ sh.isLeaf = true ∧ sh.count c = xs.length ∧ xs.length ≤ 2 ^ c.BL ∧ sh.index c idx = some i ∧ i + 1 ≤ xs.length ∧
      res = (0, none, i + 1, .leaf (xs.take (i + 1))) := by
  obtain ⟨xs, rfl, h1, h2, h3, h4⟩ := h.leaf
  simp only [Rrb.sliceRight, pos_index, pos_count, pos_node, Option.bind_eq_bind, Option.bind_eq_some_iff, h2] at hv
  obtain ⟨i, hi, ys, hy, hv⟩ := hv
  cases hy
  refine ⟨xs, i, rfl, h1, h2, h4, hi, ?_⟩
  split at hv
  · rename_i he
    simp only [Option.bind_some, Option.some.injEq] at hv
    refine ⟨by omega, hv.symm.trans ?_⟩
    rw [List.take_of_length_le (by omega)]
  · simp only [Rrb.copyLeaf, Node.leaf?, Option.bind_eq_bind, Option.bind_some, Option.bind_eq_some_iff] at hv
    obtain ⟨t, ⟨zs, hz, ht⟩, hv⟩ := hv
    unfold slice at hz
    split at hz
    · rename_i hle
      cases hz
      unfold mkLeaf at ht
      rw [if_pos (by simp; omega)] at ht
      cases ht
      simp only [Option.some.injEq] at hv
      exact ⟨hle.2, by rw [← hv]; simp⟩
    · cases hz

/-- what is left of a node, given what is left of the child `idx` -/
def sliceVal (c : Cfg) (collapse : Bool) (s : Nat) (Ns : List (Node T)) (idx : Nat) (r : Nat × Option (Node T) × Nat × Node T) : Option (Nat × Option (Node T) × Nat × Node T) :=
  match r.2.1 with
  | some nx => some (s, some (.inner none (Ns.take idx ++ [nx])), r.2.2)
  | none =>
    if idx = 0 then some (s, none, r.2.2)
    else if collapse ∧ idx = 1 ∧ c.BL < s then Ns[0]?.map fun x => (s - c.B, some x, r.2.2)
    else some (s, some (.inner none (Ns.take idx)), r.2.2)

theorem Fits.slice (hB : 0 < c.B) {collapse : Bool} {res : Nat × Option (Node T) × Nat × Node T} (h : Fits c (L + 1) sh N) (hv : Rrb.sliceRight c collapse (L + 1) (sh.pos N) idx = some res) :
    ∃ Ns off x sh' r, N = .inner none Ns ∧ sh.count c = Ns.length ∧ Ns.length ≤ 2 ^ c.B ∧ sh.shift = c.BL + c.B * L ∧ sh.index c idx = some off ∧ Ns[off]? = some x ∧ sh.towards c off = some sh' ∧ Fits c L sh' x ∧
      ((collapse = true ∧ off = 0) ∧ Rrb.sliceRight c collapse L (sh'.pos x) idx = some res ∨
       ¬ (collapse = true ∧ off = 0) ∧ Rrb.sliceRight c false L (sh'.pos x) idx = some r ∧ sliceVal c collapse (c.BL + c.B * L) Ns off r = some res) := by
  obtain ⟨Ns, rfl, h0, hs, h1, h2, h3, h4⟩ := h.children hB
  simp only [Rrb.sliceRight, pos_index, pos_count, pos_node, pos_shift, Option.bind_eq_bind, Option.bind_eq_some_iff, hs] at hv
  obtain ⟨off, ho, hv⟩ := hv
  split at hv
  · rename_i hc
    simp only [Option.bind_eq_some_iff] at hv
    obtain ⟨⟨q, i⟩, hq, hv⟩ := hv
    obtain ⟨r, cs', x, sh', hN, hx, ht, rfl, rfl⟩ := pos_towards hq
    cases hN
    obtain ⟨sh'', ht', hf⟩ := h4 off x hx
    rw [ht] at ht'
    cases ht'
    exact ⟨_, off, x, sh', res, rfl, h1, h3, hs, ho, hx, ht, hf, .inl ⟨hc, hv⟩⟩
  · rename_i hc
    simp only [Option.bind_eq_some_iff] at hv
    obtain ⟨⟨q, i⟩, hq, ⟨s', next, ts, tail⟩, hr, cs, hcs, hv⟩ := hv
    obtain ⟨r, cs', x, sh', hN, hx, ht, rfl, rfl⟩ := pos_towards hq
    cases hN
    cases hcs
    obtain ⟨sh'', ht', hf⟩ := h4 off x hx
    rw [ht] at ht'
    cases ht'
    refine ⟨_, off, x, sh', _, rfl, h1, h3, hs, ho, hx, ht, hf, .inr ⟨hc, hr, ?_⟩⟩
    have hoff : off < Ns.length := (List.getElem?_eq_some_iff.mp hx).1
    unfold sliceVal
    cases next with
    | some nx =>
      simp only [Option.bind_eq_some_iff] at hv
      obtain ⟨ks, hks, hv⟩ := hv
      have hks' : ks = Ns.take off := by
        unfold Rrb.slice at hks
        rw [if_pos ⟨Nat.zero_le _, by omega⟩] at hks
        simp at hks
        exact hks.symm
      have hv : (mkInner c (ks ++ [nx])).bind (fun a => some (c.BL + c.B * L, some a, ts, tail)) = some res := by
        cases sh <;> exact hv
      unfold mkInner at hv
      rw [if_pos (by rw [hks']; simp; omega), hks'] at hv
      exact hv
    | none =>
      simp only at hv ⊢
      split
      · rw [if_pos (by assumption)] at hv; exact hv
      · rw [if_neg (by assumption)] at hv
        split
        · rw [if_pos (by assumption)] at hv
          simp only [Option.bind_eq_some_iff] at hv
          obtain ⟨x, hx, hv⟩ := hv
          rw [hx]; exact hv
        · rw [if_neg (by assumption)] at hv
          simp only [Option.bind_eq_some_iff] at hv
          obtain ⟨ks, hks, hv⟩ := hv
          have hks' : ks = Ns.take off := by
            unfold Rrb.slice at hks
            rw [if_pos ⟨Nat.zero_le _, by omega⟩] at hks
            simp at hks
            exact hks.symm
          have hv : (mkInner c ks).bind (fun a => some (c.BL + c.B * L, some a, ts, tail)) = some res := by
            cases sh <;> exact hv
          unfold mkInner at hv
          rw [if_pos (by rw [hks']; simp; omega), hks'] at hv
          exact hv

theorem idx_ok (sh : Shp) (N : Node T) (L idx : Nat) : IdxOK c L (sh.pos N) idx (idx % cap c L) := by
  cases sh <;> simp [Shp.pos, IdxOK]

/-- the index inside of the child -/
theorem Fits.inside (hB : 0 < c.B) {Ns : List (Node T)} {off : Nat} {x : Node T} (h : Fits c (L + 1) sh (.inner none Ns)) (hi : idx % cap c (L + 1) < (els (L + 1) (.inner none Ns)).length)
    (ho : sh.index c idx = some off) (hx : Ns[off]? = some x) : idx % cap c L < (els L x).length := by
  obtain ⟨k, x', hx', hlo, hhi⟩ := exists_kid L Ns (idx % cap c (L + 1)) hi
  obtain ⟨h1, q, idx', h2, h3, h4, h5⟩ := PosOK.towards hB h (pos_node sh _) (idx_ok sh _ (L + 1) idx) hx' hlo hhi
  rw [pos_index, ho] at h1
  cases h1
  rw [hx] at hx'
  cases hx'
  obtain ⟨_, _, _, sh', _, _, _, rfl, he⟩ := pos_towards h2
  rw [he] at h5
  have : idx % cap c L = (idx % cap c (L + 1) - before L Ns off) % cap c L := by
    cases sh' <;> exact h5
  rw [this]
  exact Nat.lt_of_le_of_lt (Nat.mod_le _ _) (by omega)

/-- what a slice is made of -/
theorem Fits.sliceOk (hB : 0 < c.B) {r : Nat × Option (Node T) × Nat × Node T} (h : Fits c L sh N) (hi : idx % cap c L < (els L N).length) (hv : Rrb.sliceRight c false L (sh.pos N) idx = some r) :
    ∃ t, r.2.2.2 = .leaf t ∧ r.2.2.1 = t.length ∧ ∀ n, r.2.1 = some n → Fits c L (.reg (c.BL + c.B * L - c.B) (idx + 1 - r.2.2.1)) n := by
  obtain ⟨res, h1, t, h2, h3, h4, h5, h6, h7⟩ := Rrb.sliceRight_spec hB L false h (idx_ok sh N L idx) hi
  rw [hv] at h1
  cases h1
  refine ⟨t, h2, h3, ?_⟩
  intro n hn
  obtain ⟨L', _, h8, h9, _, h10, h11, _⟩ := h7 n hn
  have h8 := h8 rfl
  subst h8
  have hr := (h11 (pos_notrel sh N)).1
  have hl := congrArg List.length h10
  rw [List.length_append, List.length_take, Nat.min_eq_left (by omega)] at hl
  obtain ⟨l1, l2, _⟩ := hr.len
  have hsh : c.BL + c.B * (L' + 1) - c.B = c.BL + c.B * L' := by rw [Nat.mul_succ]; omega
  rw [hsh, h3]
  have hm := Nat.mod_le idx (cap c (L' + 1))
  refine Fits.reg hr (by omega) ?_
  have : idx + 1 - t.length - 1 = idx - t.length := by omega
  rw [this]
  have hsub : (idx - t.length) % cap c (L' + 1) = idx % cap c (L' + 1) - t.length := by
    have hd := Nat.div_add_mod idx (cap c (L' + 1))
    have hlt : idx % cap c (L' + 1) - t.length < cap c (L' + 1) := Nat.lt_of_le_of_lt (Nat.sub_le _ _) (Nat.mod_lt _ (cap_pos c _))
    have : idx - t.length = cap c (L' + 1) * (idx / cap c (L' + 1)) + (idx % cap c (L' + 1) - t.length) := by omega
    rw [this, Nat.mul_add_mod, Nat.mod_eq_of_lt hlt]
  rw [hsub]
  omega

/-- `make_regular_pos(node, shift, size)` -/
theorem Fits.asReg (h : Fits c (L + 1) sh N) : ∃ size, sh.size c = some size ∧ Fits c (L + 1) (.reg sh.shift size) N := by
  match sh, h with
  | .reg s size, h => exact ⟨size, rfl, h⟩
  | .regSub s size, h =>
    obtain ⟨h1, h2, h3, h4⟩ := h
    have h1 : s = c.BL + c.B * L := h1
    have h4 : size = (els (L + 1) N).length := h4
    subst h1
    obtain ⟨a, b, _⟩ := h2.len
    refine ⟨size, rfl, Fits.reg h2 (by omega) ?_⟩
    rw [Nat.mod_eq_of_lt (by omega)]
    omega
  | .full s, h =>
    obtain ⟨h1, h2, h3⟩ := h
    have h1 : s = c.BL + c.B * L := h1
    subst h1
    have hl := h2.len
    have hc := cap_pos c (L + 1)
    have hs : 2 ^ c.B <<< (c.BL + c.B * L) = cap c (L + 1) := by
      rw [cap_succ, Nat.shiftLeft_eq, Nat.mul_comm]
      rfl
    refine ⟨2 ^ c.B <<< (c.BL + c.B * L), rfl, ?_⟩
    rw [hs]
    refine Fits.reg h2.reg (by omega) ?_
    rw [Nat.mod_eq_of_lt (by omega)]
    omega

end VecHeap
