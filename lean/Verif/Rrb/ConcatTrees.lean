import Verif.Rrb.ConcatSpec

/-!
# `concat_rebalance`, `concat_inners`, `concat_trees`
-/

namespace Rrb

variable {T : Type} {c : Cfg}

/-! ## Merging -/

theorem foldLeaf {N : Nat} : ∀ {ps : List (Pos T)} {xs : List (Node T)}, SubKids c 0 ps xs →
    ∀ {m : Merger T} {out part rem}, MLeaf c N m out part rem → tot 0 xs ≤ rem →
    ∃ m' new part', ps.foldlM (Merger.visit c) m = some m' ∧ MLeaf c N m' (out ++ new) part' (rem - tot 0 xs) ∧
      new.flatMap (els 0) ++ part' = part ++ xs.flatMap (els 0) := by
  intro ps xs h
  induction h with
  | nil => intro m out part rem h _; exact ⟨m, [], part, rfl, by simpa [tot] using h, by simp⟩
  | @cons p x ps xs hp _ ih =>
    intro m out part rem h hle
    have e : tot 0 (x :: xs) = (els 0 x).length + tot 0 xs := by simp [tot]
    rw [e] at hle ⊢
    obtain ⟨m1, n1, p1, a1, a2, a3⟩ := mergeLeaf_ok h hp.1 hp.2.2 (by omega)
    obtain ⟨m2, n2, p2, b1, b2, b3⟩ := ih a2 (by omega)
    refine ⟨m2, n1 ++ n2, p2, ?_, ?_, ?_⟩
    · rw [List.foldlM_cons, Merger.visit, hp.1.isLeaf]; simpa [a1] using b1
    · rw [← List.append_assoc, Nat.sub_add_eq]; exact b2
    · rw [List.flatMap_append, List.append_assoc, b3, ← List.append_assoc, a3]; simp

/-- nodes kept as they are come from the input in order, and the last one of the input stays last -/
def Kept (L : Nat) (xs new part : List (Node T)) : Prop :=
  ∀ a y b, new = a ++ y :: b → (∃ cs, y = relOf L cs) ∨
    ∃ a' b', xs = a' ++ y :: b' ∧ (b' = [] → b = [] ∧ part = [])

theorem foldInner {L N : Nat} : ∀ {ps : List (Pos T)} {xs : List (Node T)}, SubKids c (L + 1) ps xs →
    ∀ {m : Merger T} {out part rem}, MInner c L N m out part rem → (xs.flatMap kids).length ≤ rem →
    ∃ m' new part', ps.foldlM (Merger.visit c) m = some m' ∧
      MInner c L N m' (out ++ new) part' (rem - (xs.flatMap kids).length) ∧
      new.flatMap kids ++ part' = part ++ xs.flatMap kids ∧ Kept L xs new part' ∧ (xs = [] → new = [] ∧ part' = part) := by
  intro ps xs h
  induction h with
  | nil =>
    intro m out part rem h _
    exact ⟨m, [], part, rfl, by simpa using h, by simp, fun a y b h => by simp at h, by simp⟩
  | @cons p x ps xs hp _ ih =>
    intro m out part rem h hle
    have e : ((x :: xs).flatMap kids).length = (kids x).length + (xs.flatMap kids).length := by simp
    rw [e] at hle ⊢
    obtain ⟨m1, n1, p1, a1, a2, a3, a4⟩ := mergeInner_ok h hp.1 hp.2.2 (by rw [hp.2.1]; omega)
    rw [hp.2.1] at a2 a3 a4
    obtain ⟨m2, n2, p2, b1, b2, b3, b4, b5⟩ := ih a2 (by omega)
    refine ⟨m2, n1 ++ n2, p2, ?_, ?_, ?_, ?_, by simp⟩
    · rw [List.foldlM_cons, Merger.visit, hp.1.isLeaf]; simpa [a1] using b1
    · rw [← List.append_assoc, Nat.sub_add_eq]; exact b2
    · rw [List.flatMap_append, List.append_assoc, b3, ← List.append_assoc, a3]; simp
    · intro a y b hab
      have hn1 : y ∈ n1 → n1 ≠ [x] ∨ p1 ≠ [] → ∃ cs, y = relOf L cs := by
        intro hy hne
        rcases a4 with ⟨rfl, rfl⟩ | h
        · simp at hne
        · exact h y hy
      rcases List.append_eq_append_iff.1 hab with ⟨a', ha, hy⟩ | ⟨c', hx, hb⟩
      · rcases b4 a' y b hy with h | ⟨a1, b1, h1, h2⟩
        · exact Or.inl h
        · exact Or.inr ⟨x :: a1, b1, by simp [h1], h2⟩
      · cases c' with
        | nil =>
          simp at hb
          rcases b4 [] y b (by simpa using hb.symm) with h | ⟨a1, b1, h1, h2⟩
          · exact Or.inl h
          · exact Or.inr ⟨x :: a1, b1, by simp [h1], h2⟩
        | cons z zs =>
          simp at hb
          obtain ⟨rfl, rfl⟩ := hb
          rcases a4 with ⟨rfl, rfl⟩ | h
          · right
            have : a = [] ∧ x = y ∧ zs = [] := by
              cases a with
              | nil => simp at hx; exact ⟨rfl, hx.1, hx.2⟩
              | cons w ws => simp at hx
            obtain ⟨rfl, rfl, rfl⟩ := this
            refine ⟨[], xs, rfl, ?_⟩
            intro h0
            simpa using b5 h0
          · left; exact h y (by rw [hx]; simp)

/-- number of slots of a node -/
def slotCount (L : Nat) (x : Node T) : Nat := if L = 0 then (els 0 x).length else (kids x).length

theorem count_slot {L : Nat} {p : Pos T} {x : Node T} (h : PosOK c L p (els L x)) (hn : p.node = x) :
    p.count c = slotCount L x ∧ 1 ≤ slotCount L x ∧ slotCount L x ≤ 2 ^ Plan.slotBits c L := by
  cases L with
  | zero =>
    obtain ⟨h1, h2, h3, h4, -⟩ := h.leaf
    simp only [slotCount, Plan.slotBits, if_true]; exact ⟨h2, h3, h4⟩
  | succ L =>
    obtain ⟨r, cs, h1, h2, h3, h4, h5, h6, -⟩ := h.inner
    rw [hn] at h1; subst h1
    simp only [slotCount, Plan.slotBits, kids]
    exact ⟨by simpa using h6, by rw [if_neg (by omega)]; exact List.length_pos_iff.2 h2, by simpa using h3⟩

theorem SubKids.counts {L : Nat} {ps : List (Pos T)} {xs : List (Node T)} (h : SubKids c L ps xs) :
    ps.map (·.count c) = xs.map (slotCount L) ∧ Plan.CountsOK (2 ^ Plan.slotBits c L) (xs.map (slotCount L)) ∧
      ∀ x ∈ xs, WF c L x := by
  induction h with
  | nil => exact ⟨rfl, by intro x hx; simp at hx, by simp⟩
  | @cons p x ps xs hp _ ih =>
    obtain ⟨h1, h2, h3⟩ := count_slot hp.1 hp.2.1
    refine ⟨by simp [h1, ih.1], ?_, ?_⟩
    · intro y hy; simp only [List.map_cons, List.mem_cons] at hy
      rcases hy with rfl | hy
      · exact ⟨h2, h3⟩
      · exact ih.2.1 y hy
    · intro y hy; simp only [List.mem_cons] at hy
      rcases hy with rfl | hy
      · have := hp.1.wf.1; rwa [hp.2.1] at this
      · exact ih.2.2 y hy

theorem MCore.init {L N : Nat} {counts : List Nat} (h : counts.length = N) (h3 : N ≤ 3 * 2 ^ c.B) :
    MCore c L N (Merger.init counts) ([] : List (Node T)) :=
  ⟨⟨[], rfl, by simp, rfl, rfl, by simp [Merger.init, h], by simp⟩, rfl, by simp [Merger.init], rfl, h3, by simp⟩

/-- `merge` with a plan that keeps the total -/
theorem merge_ok {L : Nat} {ps : List (Pos T)} {xs : List (Node T)} (h : SubKids c L ps xs) {counts : List Nat}
    (hc : Plan.CountsOK (2 ^ Plan.slotBits c L) counts) (hs : counts.sum = (xs.map (slotCount L)).sum)
    (h3 : counts.length ≤ 3 * 2 ^ c.B) :
    ∃ m out, ps.foldlM (Merger.visit c) (Merger.init counts) = some m ∧ MCore c L counts.length m out ∧
      out.length = counts.length ∧ m.toLeaf = none ∧ m.toInner = none ∧
      out.flatMap (els L) = xs.flatMap (els L) ∧ (∀ f, SL c f L xs → SL c f L out) ∧
      (∀ L' ks, L = L' + 1 → xs = [relOf L' ks] → counts.length = 1 → out = xs) := by
  have hwx := h.counts.2.2
  cases L with
  | zero =>
    have hs' : (xs.map (slotCount 0)).sum = tot 0 xs := by
      have : slotCount (T := T) 0 = fun x => (els 0 x).length := by funext x; simp [slotCount]
      rw [this, sum_els]; rfl
    simp only [Plan.slotBits, if_true] at hc
    obtain ⟨m, new, part, h1, h2, h4⟩ := foldLeaf h (N := counts.length) (m := Merger.init counts) (out := [])
      (part := []) (rem := counts.sum)
      ⟨MCore.init rfl h3, by simp [Merger.init], hc, by simp [Merger.init], rfl, rfl, by simp⟩ (by omega)
    have e0 : counts.sum - tot 0 xs = 0 := by omega
    rw [e0, List.nil_append] at h2
    have hp : part = [] := by
      by_contra hne
      obtain ⟨k, ks, g1, g2⟩ := h2.room hne
      have := h2.sum; rw [g1] at this; simp at this; omega
    subst hp
    have hcur : m.curr = [] := by
      have h5 : m.curr.sum = 0 := h2.sum
      have h6 := h2.counts.len_le
      exact List.length_eq_zero_iff.1 (by omega)
    have hl := h2.len
    rw [hcur] at hl
    exact ⟨m, new, h1, h2.core, by simpa using hl, by simpa using h2.leaf, h2.inner, by simpa using h4,
      fun _ _ => SL.zero, fun L' _ h => by simp at h⟩
  | succ L =>
    have hs' : (xs.map (slotCount (L + 1))).sum = (xs.flatMap kids).length := by
      have : slotCount (T := T) (L + 1) = fun x => (kids x).length := by funext x; simp [slotCount]
      rw [this, List.length_flatMap]
    simp only [Plan.slotBits, Nat.add_eq_zero_iff, one_ne_zero, and_false, if_false] at hc
    obtain ⟨m, new, part, h1, h2, h4, hk, -⟩ := foldInner h (N := counts.length) (m := Merger.init counts) (out := [])
      (part := []) (rem := counts.sum)
      ⟨MCore.init rfl h3, by simp [Merger.init], hc, by simp [Merger.init], rfl, rfl, by simp, by simp⟩ (by omega)
    have e0 : counts.sum - (xs.flatMap kids).length = 0 := by omega
    rw [e0, List.nil_append] at h2
    have hp : part = [] := by
      by_contra hne
      obtain ⟨k, ks, g1, g2⟩ := h2.room hne
      have := h2.sum; rw [g1] at this; simp at this; omega
    subst hp
    have hcur : m.curr = [] := by
      have h5 : m.curr.sum = 0 := h2.sum
      have h6 := h2.counts.len_le
      exact List.length_eq_zero_iff.1 (by omega)
    have hl := h2.len
    rw [hcur] at hl
    simp at h4
    have hels : ∀ zs : List (Node T), (∀ z ∈ zs, WF c (L + 1) z) →
        zs.flatMap (els (L + 1)) = (zs.flatMap kids).flatMap (els L) := by
      intro zs hz
      rw [List.flatMap_assoc]
      apply List.flatMap_congr
      intro z hz'
      exact els_kids (hz z hz')
    refine ⟨m, new, h1, h2.core, by simpa using hl, h2.leaf, by simpa using h2.inner, ?_, ?_, ?_⟩
    · rw [hels new h2.core.wf, hels xs hwx, h4]
    · intro f hf
      refine SL.regroup h2.core.wf (by rw [h4]; exact SL.kids hwx hf) ?_
      intro a y b hab
      rcases hk a y b hab with h | ⟨a', b', hx, hb⟩
      · exact Or.inl h
      · right
        refine Str.mono ?_ (hf a' y b' hx)
        intro hg
        cases b' with
        | nil => obtain ⟨rfl, -⟩ := hb rfl; simpa using hg
        | cons _ _ => simp
    · rintro L' ks hL rfl h1
      obtain rfl : L = L' := by omega
      obtain ⟨y, rfl⟩ : ∃ y, new = [y] := List.length_eq_one_iff.1 (by rw [← h1]; simpa using hl)
      simp only [List.flatMap_cons, List.flatMap_nil, List.append_nil] at h4
      rcases hk [] y [] rfl with ⟨cs, rfl⟩ | ⟨a', b', hx, -⟩
      · simp only [relOf, kids] at h4; rw [h4]
      · cases a' with
        | nil => simp at hx; rw [hx.1]
        | cons _ _ => simp at hx

theorem finish_ok {L N : Nat} {m : Merger T} {out : List (Node T)} (h : MCore c L N m out) (hl : out.length = N) (hN : 1 ≤ N)
    (h1 : m.toLeaf = none) (h2 : m.toInner = none) :
    ∃ z ms, m.finish c (c.BL + c.B * L) = some z ∧ CenterOK c (L + 1) z ms ∧ ms.flatMap kids = out := by
  obtain ⟨⟨gs, g1, g2, g3, g4, g5, g6⟩, hsz, hcs, hsize, hN3, hwf⟩ := h
  have hne : m.cs ≠ [] := by
    intro h0
    have := g6 h0
    subst this
    rw [g3, h0] at hl; simp at hl; omega
  have hc1 : 1 ≤ m.cs.length := List.length_pos_iff.2 hne
  have hout : out.length = gs.length * 2 ^ c.B + m.cs.length := by
    rw [g3, List.length_append, len_flatten _ _ g2]
  have hg2 : gs.length ≤ 2 := by
    by_contra hcon
    have := Nat.mul_le_mul_right (2 ^ c.B) (show 3 ≤ gs.length by omega)
    omega
  have hmem : ∀ g ∈ gs ++ [m.cs], g ≠ [] ∧ g.length ≤ 2 ^ c.B ∧ ∀ x ∈ g, WF c L x := by
    intro g hg
    have hp := Nat.two_pow_pos c.B
    simp only [List.mem_append, List.mem_singleton] at hg
    rcases hg with hg | rfl
    · have := g2 g hg
      refine ⟨by rintro rfl; rw [List.length_nil] at this; omega, by omega, ?_⟩
      intro x hx
      apply hwf; rw [g3]; simp only [List.mem_append, List.mem_flatten]; exact Or.inl ⟨g, hg, hx⟩
    · exact ⟨hne, hcs, fun x hx => hwf x (by rw [g3]; simp [hx])⟩
  refine ⟨⟨c.BL + c.B * L + c.B, m.prev ++ [.inner (some m.sz) m.cs], m.prevSizes ++ [m.size]⟩,
    (gs ++ [m.cs]).map (relOf L), by simp [Merger.finish, h1, h2], ⟨?_, ?_, by simp, by simp; omega, ?_, ?_, ?_⟩, ?_⟩
  · simp [g1, hsz, relOf]
  · simp only; ring
  · simp only [g4, hsize, g3, List.map_append, List.map_map, List.map_singleton, psums_snoc, tot_append, tot_flatten]
    rfl
  · intro n hn
    simp only [List.mem_map] at hn
    obtain ⟨g, hg, rfl⟩ := hn
    obtain ⟨a1, a2, a3⟩ := hmem g hg
    exact WF.relaxed a1 a2 a3
  · intro L' hL n hn
    obtain rfl : L = L' := by omega
    simp only [List.mem_map] at hn
    obtain ⟨g, -, rfl⟩ := hn
    exact ⟨g, rfl⟩
  · rw [g3, List.flatMap_map]
    have : (fun a : List (Node T) => kids (relOf L a)) = id := by funext g; rfl
    rw [this, List.flatMap_id, List.flatten_append]; simp

/-! ## `concat_rebalance` -/

/-- the steps of `concat_rebalance`, for all positions of the nodes of the centre -/
theorem rebalance_ok (hB : 0 < c.B) {L : Nat} {x : Center T} {ns : List (Node T)} (hx : CenterOK c L x ns)
    {ls rs qs : List (Pos T)} {xs ys : List (Node T)} (hl : SubKids c L ls xs) (q2 : SubKids c L qs ns) (hr : SubKids c L rs ys)
    (hxl : xs.length + 1 ≤ 2 ^ c.B) (hyl : ys.length + 1 ≤ 2 ^ c.B) :
    ∃ counts m z ms, (ls ++ qs ++ rs).length ≤ 2 * 2 ^ c.B + 1 ∧
      Plan.shuffle c x.shift ((ls ++ qs ++ rs).map (·.count c)) = some counts ∧
      Plan.CountsOK (2 ^ Plan.slotBits c L) counts ∧ counts.sum = ((xs ++ ns ++ ys).map (slotCount L)).sum ∧
      counts.length ≤ 3 * 2 ^ c.B ∧ (ls ++ qs ++ rs).foldlM (Merger.visit c) (Merger.init counts) = some m ∧
      m.toLeaf = none ∧ m.toInner = none ∧ (∃ out, MCore c L counts.length m out) ∧ m.finish c x.shift = some z ∧
      CenterOK c (L + 1) z ms ∧
      ms.flatMap (els (L + 1)) = (xs ++ ns ++ ys).flatMap (els L) ∧
      (∀ f, SL c f L (xs ++ ns ++ ys) → SL c f (L + 1) ms) ∧
      (LftL L (xs ++ ns ++ ys) → LftL (L + 1) ms) := by
  have hps : SubKids c L (ls ++ qs ++ rs) (xs ++ ns ++ ys) := (hl.append q2).append hr
  obtain ⟨c1, c2, c3⟩ := hps.counts
  have hlen := hps.length_eq
  have hne : 1 ≤ ns.length := List.length_pos_iff.2 hx.ne
  have hn3 := hx.le
  have hN : (xs ++ ns ++ ys).length ≤ 2 * 2 ^ c.B + 1 := by simp; omega
  obtain ⟨counts, s1, s2, s3, s4, s5, s6⟩ := Plan.shuffle_spec hB c2
  simp only [List.length_map] at s5 s6
  have hp := Nat.two_pow_pos c.B
  obtain ⟨m, out, m1, m2, m3, m4, m5, m6, m7, m8⟩ := merge_ok hps s2 s3 (by omega)
  have hcl : 1 ≤ counts.length := by
    have hlow := c2.len_le
    simp only [List.length_map, List.length_append] at hlow
    cases counts with
    | nil => simp at s3; simp at hlow; simp at *; omega
    | cons _ _ => simp
  obtain ⟨z, ms, z1, z2, z3⟩ := finish_ok m2 m3 hcl m4 m5
  refine ⟨counts, m, z, ms, by omega, by rw [c1, hx.shift, s1], s2, s3, by omega, m1, m4, m5, ⟨out, m2⟩, by rw [hx.shift, z1], z2, ?_, ?_, ?_⟩
  · rw [← m6, ← z3, List.flatMap_assoc]
    exact List.flatMap_congr fun n hn => els_kids (z2.wf n hn)
  · intro f hf
    refine SL.regroup z2.wf (by rw [z3]; exact m7 f hf) ?_
    intro a y b hab
    exact Or.inl (z2.rel L rfl y (by rw [hab]; simp))
  · intro hL
    by_cases hm : 2 ≤ ms.length
    · exact Or.inl hm
    right
    have hm1 := List.length_pos_iff.2 z2.ne
    obtain ⟨n, rfl⟩ : ∃ n, ms = [n] := List.length_eq_one_iff.1 (by omega)
    obtain ⟨cs, rfl⟩ := z2.rel L rfl n (by simp)
    refine ⟨L, _, rfl, rfl, ?_⟩
    have hcs : cs = out := by simpa [relOf, kids] using z3
    cases L with
    | zero => trivial
    | succ L =>
      rcases hL with h2 | ⟨L', n, hL, h1, h2⟩
      · left
        rw [hcs.symm] at m3
        simp only [relOf, kids]; rw [m3]; exact s6 h2
      · obtain rfl : L = L' := by omega
        have hns : ns = [n] ∧ xs ++ ns ++ ys = ns := by
          have := congrArg List.length h1
          simp only [List.length_append, List.length_singleton] at this
          have hx0 : xs = [] := List.length_eq_zero_iff.1 (by omega)
          have hy0 : ys = [] := List.length_eq_zero_iff.1 (by omega)
          subst hx0; subst hy0
          simpa using h1
        have hnr := hx.rel L rfl n (by rw [hns.1]; simp)
        obtain ⟨ks, rfl⟩ := hnr
        have := m8 L ks rfl (by rw [hns.2, hns.1]) (by rw [h1] at s5; simp at s5; omega)
        rw [hns.2, hns.1] at this
        right
        exact ⟨_, _, by rw [hcs, this]; rfl, h2⟩

theorem concatRebalance_ok (hB : 0 < c.B) {L : Nat} {x : Center T} {ns : List (Node T)} (hx : CenterOK c L x ns)
    {ls rs : List (Pos T)} {xs ys : List (Node T)} (hl : SubKids c L ls xs) (hr : SubKids c L rs ys)
    (hxl : xs.length + 1 ≤ 2 ^ c.B) (hyl : ys.length + 1 ≤ 2 ^ c.B) :
    ∃ z ms, concatRebalance c ls x rs = some z ∧ CenterOK c (L + 1) z ms ∧
      ms.flatMap (els (L + 1)) = (xs ++ ns ++ ys).flatMap (els L) ∧
      (∀ f, SL c f L (xs ++ ns ++ ys) → SL c f (L + 1) ms) ∧
      (LftL L (xs ++ ns ++ ys) → LftL (L + 1) ms) := by
  obtain ⟨qs, q1, q2⟩ := hx.eachSub hB
  obtain ⟨counts, m, z, ms, h1, h2, -, -, -, h3, -, -, -, h4, h5, h6⟩ := rebalance_ok hB hx hl q2 hr hxl hyl
  refine ⟨z, ms, ?_, h5, h6⟩
  simp only [concatRebalance, q1, Option.bind_eq_bind, Option.bind_some, Plan.fill]
  rw [if_pos h1, Option.bind_some, h2, Option.bind_some, h3, Option.bind_some, h4]

/-! ## `concat_inners` -/

variable (c) in
/-- left operand with children `cs ++ [x]` of level `L` -/
structure LOK (L : Nat) (l : LPos T) (cs : List (Node T)) (x : Node T) : Prop where
  shift : l.shift c = c.BL + c.B * L
  len : cs.length + 1 ≤ 2 ^ c.B
  last : ∃ q, l.lastSub c = some q ∧ PosOK c L q (els L x) ∧ q.node = x ∧ LeftPos q
  left : ∃ ps, l.eachLeftSub c = some ps ∧ SubKids c L ps cs
  wf : ∀ y ∈ cs ++ [x], WF c L y

theorem LOK.pos (hB : 0 < c.B) {L : Nat} {p : Pos T} {l : List T} {r cs x} (h : PosOK c (L + 1) p l) (hp : LeftPos p)
    (hn : p.node = .inner r (cs ++ [x])) : LOK c L (.pos p) cs x := by
  obtain ⟨r', cs', h1, h2, h3, h4, h5, h6, h7⟩ := h.inner
  rw [h1] at hn
  simp only [Node.inner.injEq] at hn
  obtain ⟨-, rfl⟩ := hn
  exact ⟨h7, by simpa using h3, h.lastSub hB hp h1, h.eachLeftSub hB hp h1, h4⟩

theorem LOK.single {xs : List T} (h1 : 1 ≤ xs.length) (h2 : xs.length ≤ 2 ^ c.BL) :
    LOK c 0 (.single (.leaf xs) xs.length) [] (.leaf xs) :=
  ⟨by simp [LPos.shift], by simpa using Nat.one_le_two_pow, ⟨_, rfl, ⟨rfl, rfl, h1, h2⟩, rfl, trivial⟩, ⟨[], rfl, .nil⟩,
    by simp [WF, h1, h2]⟩

variable (c) in
def TailOK (t : Option (Pos T)) (tl : List T) : Prop :=
  match t with
  | none => tl = []
  | some p => PosOK c 0 p tl

theorem concatLeafs_ok {p q : Pos T} {t : Option (Pos T)} {lp lq tl : List T} (hp : PosOK c 0 p lp) (hq : PosOK c 0 q lq)
    (ht : TailOK c t tl) :
    ∃ x ns, concatLeafs c p t q = some x ∧ CenterOK c 0 x ns ∧ ns.flatMap (els 0) = lp ++ tl ++ lq ∧ 2 ≤ ns.length := by
  obtain ⟨p1, p2, p3, p4, -⟩ := hp.leaf
  obtain ⟨q1, q2, q3, q4, -⟩ := hq.leaf
  simp only [concatLeafs, hp.isLeaf, hq.isLeaf, decide_true, and_self, if_true, p1, p2, q1, q2]
  cases t with
  | none =>
    refine ⟨_, [.leaf lp, .leaf lq], rfl, ⟨rfl, by simp, by simp, by simp, by simp [psums, els], ?_, by simp⟩, ?_, by simp⟩
    · simp [WF, p3, p4, q3, q4]
    · simp only [TailOK] at ht; subst ht; simp [els]
  | some t =>
    simp only [TailOK] at ht
    obtain ⟨t1, t2, t3, t4, -⟩ := ht.leaf
    simp only [t1, t2]
    rw [if_pos (by omega)]
    refine ⟨_, [.leaf lp, .leaf tl, .leaf lq], rfl, ⟨rfl, by simp, by simp, by simp, by simp [psums, els], ?_, by simp⟩, ?_,
      by simp⟩
    · simp [WF, p3, p4, q3, q4, t3, t4]
    · simp [els]

theorem snoc_cases {α : Type} {l : List α} (h : l ≠ []) : ∃ a x, l = a ++ [x] :=
  ⟨l.dropLast, l.getLast h, (List.dropLast_append_getLast h).symm⟩

theorem cons_cases {α : Type} {l : List α} (h : l ≠ []) : ∃ x a, l = x :: a := by
  cases l with
  | nil => simp at h
  | cons x a => exact ⟨x, a, rfl⟩

theorem shift_lt {B BL a b : Nat} (hB : 0 < B) : BL + B * a < BL + B * b ↔ a < b := by
  rw [Nat.add_lt_add_iff_left, Nat.mul_lt_mul_left hB]

theorem concatInners_ok (hB : 0 < c.B) : ∀ (fuel : Nat) {Ll Lr : Nat} {l : LPos T} {lcs : List (Node T)} {lx : Node T}
    {t : Option (Pos T)} {tl : List T} {r : Pos T} {rl : List T}, max Ll Lr < fuel → LOK c Ll l lcs lx → TailOK c t tl →
    PosOK c (Lr + 1) r rl → SubPos r → rl.length ≤ 2 ^ 32 → c.BL + c.B * Lr < 32 →
    ∃ z ms, concatInners c fuel l t r = some z ∧ CenterOK c (max Ll Lr + 1) z ms ∧
      ms.flatMap (els (max Ll Lr + 1)) = (lcs ++ [lx]).flatMap (els Ll) ++ tl ++ rl ∧
      (∀ f, SL c false Ll (lcs ++ [lx]) → Str c f (Lr + 1) r.node → SL c f (max Ll Lr + 1) ms) ∧
      LftL (max Ll Lr + 1) ms := by
  intro fuel
  induction fuel with
  | zero => intro Ll Lr l lcs lx t tl r rl h; omega
  | succ fuel ih =>
    intro Ll Lr l lcs lx t tl r rl hfuel hl ht hr hrs h32 hs32
    obtain ⟨r', rcs, r1, r2, r3, r4, r5, r6, r7⟩ := hr.inner
    obtain ⟨ry, rys, rfl⟩ := cons_cases r2
    have hrw := hr.wf.1
    have hrk : kids r.node = ry :: rys := by rw [r1]; rfl
    obtain ⟨q, q1, q2, q3, q4⟩ := hl.last
    obtain ⟨ls, ls1, ls2⟩ := hl.left
    simp only [List.length_cons] at r3
    have hyl : (els Lr ry).length ≤ 2 ^ 32 := by
      rw [r5] at h32; simp at h32; omega
    have hne : ∀ (f : Bool) {M : Nat} {z : Center T} {ns : List (Node T)}, CenterOK c M z ns →
        (f || !ns.isEmpty) = true := by
      intro f M z ns hz
      have := hz.ne
      cases ns with
      | nil => simp at this
      | cons _ _ => simp
    simp only [concatInners, hl.shift, r7, shift_lt hB]
    rcases Nat.lt_trichotomy Lr Ll with hlt | heq | hlt
    · -- the left operand is higher
      rw [if_pos hlt]
      obtain ⟨k, rfl⟩ : ∃ k, Ll = k + 1 := ⟨Ll - 1, by omega⟩
      obtain ⟨qr, qcs, e1, e2, e3, e4, e5, e6, e7⟩ := q2.inner
      obtain ⟨cs', x', rfl⟩ := snoc_cases e2
      have hq : LOK c k (.pos q) cs' x' := LOK.pos hB q2 q4 e1
      obtain ⟨z, ms, z1, z2, z3, z4, z5⟩ := ih (by omega) hq ht hr hrs h32 hs32
      have hmax : max k Lr + 1 = k + 1 := by omega
      have hmax' : max (k + 1) Lr + 1 = k + 1 + 1 := by omega
      rw [hmax] at z2 z3 z4
      rw [hmax']
      obtain ⟨y, ns, y1, y2, y3, y4, y5⟩ := concatRebalance_ok hB z2 ls2 (List.Forall₂.nil (R := _)) hl.len
        (by simpa using Nat.one_le_two_pow)
      refine ⟨y, ns, ?_, y2, ?_, ?_, ?_⟩
      · simp only [q1, Option.bind_eq_bind, Option.bind_some, q2.isLeaf, Nat.add_eq_zero_iff, one_ne_zero, and_false,
          decide_false, Bool.false_eq_true, if_false, z1, ls1, y1]
      · rw [y3]
        simp only [List.flatMap_append, List.append_nil, List.flatMap_nil, List.flatMap_cons, z3]
        rw [e5]
        simp
      · intro f hf1 hf2
        apply y4
        rw [SL.append, SL.cons] at hf1
        rw [List.append_nil, SL.append]
        have hx : WF c (k + 1) lx := by have := q2.wf.1; rwa [q3] at this
        have hkx : kids lx = cs' ++ [x'] := by rw [← q3, e1]; rfl
        refine ⟨SL.mono (by simp) hf1.1, z4 f ?_ hf2⟩
        have := Str.kids hx (by simpa using hf1.2.1)
        rwa [hkx] at this
      · apply y5
        have h1 := List.length_pos_iff.2 z2.ne
        rcases lcs with _ | ⟨y, lcs⟩
        · rw [hmax] at z5; simpa using z5
        · left; simp; omega
    · -- same height
      subst heq
      rw [if_neg (by omega), if_neg (by omega)]
      obtain ⟨rs, rs1, rs2⟩ := hr.eachRightSub hB hrs h32 hs32 r1
      have hcenter : ∃ x ns, (if q.isLeaf then do
            let q' ← r.firstSubLeaf c
            concatLeafs c q t q'
          else do
            let q' ← r.firstSub c
            if q'.isLeaf then concatLeafs c q t q' else concatInners c fuel (.pos q) t q') = some x ∧
          CenterOK c Lr x ns ∧ ns.flatMap (els Lr) = els Lr lx ++ tl ++ els Lr ry ∧
          (∀ f, Str c false Lr lx → Str c f Lr ry → SL c f Lr ns) ∧ LftL Lr ns := by
        cases Lr with
        | zero =>
          obtain ⟨q', a1, a2, a3, a4⟩ := hr.firstSubLeaf hrs r1
          obtain ⟨x, ns, b1, b2, b3, b4⟩ := concatLeafs_ok q2 a2 ht
          exact ⟨x, ns, by simp [q2.isLeaf, a1, b1], b2, b3, fun _ _ _ => SL.zero, Or.inl b4⟩
        | succ k =>
          obtain ⟨q', a1, a2, a3, a4⟩ := hr.firstSub hB hrs r1
          obtain ⟨qr, qcs, e1, e2, e3, e4, e5, e6, e7⟩ := q2.inner
          obtain ⟨cs', x', rfl⟩ := snoc_cases e2
          have hq : LOK c k (.pos q) cs' x' := LOK.pos hB q2 q4 e1
          have hs' : c.BL + c.B * k < 32 := by
            have : c.B * k ≤ c.B * (k + 1) := Nat.mul_le_mul_left _ (by omega)
            omega
          obtain ⟨z, ms, z1, z2, z3, z4, z5⟩ := ih (by omega) hq ht a2 a4 hyl hs'
          rw [Nat.max_self] at z2 z3 z4 z5
          refine ⟨z, ms, by simp [q2.isLeaf, a1, a2.isLeaf, z1], z2, ?_, ?_, z5⟩
          · rw [z3, e5]
          · intro f hf1 hf2
            have hx : WF c (k + 1) lx := by have := q2.wf.1; rwa [q3] at this
            have hkx : kids lx = cs' ++ [x'] := by rw [← q3, e1]; rfl
            apply z4
            · have := Str.kids hx hf1; rwa [hkx] at this
            · rw [a3]; exact hf2
      obtain ⟨x, ns, x1, x2, x3, x4, x5⟩ := hcenter
      obtain ⟨y, ms, y1, y2, y3, y4, y5⟩ := concatRebalance_ok hB x2 ls2 rs2 hl.len r3
      rw [Nat.max_self]
      refine ⟨y, ms, ?_, y2, ?_, ?_, ?_⟩
      · simp only [q1, Option.bind_eq_bind, Option.bind_some]
        simp only [Option.bind_eq_bind] at x1
        suffices h : ((if q.isLeaf = true then (r.firstSubLeaf c).bind fun q' => concatLeafs c q t q'
            else (r.firstSub c).bind fun q' =>
              if q'.isLeaf = true then concatLeafs c q t q' else concatInners c fuel (.pos q) t q').bind fun x =>
            (l.eachLeftSub c).bind fun ls => (r.eachRightSub c).bind fun rs => concatRebalance c ls x rs) = some y by
          rw [← h]
          by_cases hq : q.isLeaf = true
          · simp only [if_pos hq, Option.bind_assoc]
          · simp only [if_neg hq, Option.bind_assoc]
            congr 1; funext q'
            split <;> rfl
        rw [x1]
        simp only [Option.bind_some, ls1, rs1, y1]
      · rw [y3, r5]
        simp [x3]
      · intro f hf1 hf2
        apply y4
        have hsl := Str.kids hrw hf2
        rw [hrk, SL.cons] at hsl
        rw [SL.append, SL.cons] at hf1
        rw [SL.append, SL.append]
        exact ⟨⟨SL.mono (by simp) hf1.1, x4 _ (by simpa using hf1.2.1) hsl.1⟩, hsl.2⟩
      · apply y5
        have h1 := List.length_pos_iff.2 x2.ne
        by_cases h0 : lcs = [] ∧ rys = []
        · obtain ⟨rfl, rfl⟩ := h0; simpa using x5
        · left
          rcases lcs with _ | ⟨y, lcs⟩
          · rcases rys with _ | ⟨y, rys⟩
            · simp at h0
            · simp; omega
          · simp; omega
    · -- the right operand is higher
      rw [if_neg (by omega), if_pos hlt]
      obtain ⟨k, rfl⟩ : ∃ k, Lr = k + 1 := ⟨Lr - 1, by omega⟩
      obtain ⟨q', a1, a2, a3, a4⟩ := hr.firstSub hB hrs r1
      obtain ⟨rs, rs1, rs2⟩ := hr.eachRightSub hB hrs h32 hs32 r1
      have hs' : c.BL + c.B * k < 32 := by
        have : c.B * k ≤ c.B * (k + 1) := Nat.mul_le_mul_left _ (by omega)
        omega
      obtain ⟨z, ms, z1, z2, z3, z4, z5⟩ := ih (by omega) hl ht a2 a4 hyl hs'
      have hmax : max Ll k + 1 = k + 1 := by omega
      have hmax' : max Ll (k + 1) + 1 = k + 1 + 1 := by omega
      rw [hmax] at z2 z3 z4
      rw [hmax']
      obtain ⟨y, ns, y1, y2, y3, y4, y5⟩ := concatRebalance_ok hB z2 (List.Forall₂.nil (R := _)) rs2
        (by simpa using Nat.one_le_two_pow) r3
      refine ⟨y, ns, ?_, y2, ?_, ?_, ?_⟩
      · simp only [a1, Option.bind_eq_bind, Option.bind_some, a2.isLeaf, Nat.add_eq_zero_iff, one_ne_zero, and_false,
          decide_false, Bool.false_eq_true, if_false, z1, rs1, y1]
      · rw [y3, r5]
        simp [z3]
      · intro f hf1 hf2
        apply y4
        have hsl := Str.kids hrw hf2
        rw [hrk, SL.cons] at hsl
        rw [List.nil_append, SL.append]
        exact ⟨z4 _ hf1 (by rw [a3]; exact hsl.1), hsl.2⟩
      · apply y5
        have h1 := List.length_pos_iff.2 z2.ne
        rcases rys with _ | ⟨y, rys⟩
        · rw [hmax] at z5; simpa using z5
        · left; simp; omega

/-! ## `concat_trees` -/

theorem realize_ok (hB : 2 ≤ c.B) {L : Nat} {z : Center T} {ms : List (Node T)} (h : CenterOK c (L + 1) z ms)
    (h2 : LftL (L + 1) ms) :
    ∃ M root, z.realize c = some (c.BL + c.B * M, root) ∧ M ≤ L + 1 ∧ WF c (M + 1) root ∧
      els (M + 1) root = ms.flatMap (els (L + 1)) ∧ LftOK M root ∧ (∃ cs, root = relOf M cs) ∧
      (∀ f, SL c f (L + 1) ms → Str c f (M + 1) root) := by
  have hlen := List.length_pos_iff.2 h.ne
  by_cases h1 : 1 < ms.length
  · have h4 : 4 ≤ 2 ^ c.B := by
      calc 4 = 2 ^ 2 := rfl
        _ ≤ 2 ^ c.B := Nat.pow_le_pow_right (by omega) hB
    have h3 := h.le
    refine ⟨L + 1, relOf (L + 1) ms, ?_, by omega, WF.relaxed h.ne (by omega) h.wf, rfl, Or.inl h1,
      ⟨ms, rfl⟩, fun f hf => hf⟩
    simp only [Center.realize, h.nodes, if_pos h1, mkInnerR, if_pos (show ms.length ≤ 2 ^ c.B by omega), h.sizes, h.shift,
      Option.bind_eq_bind, Option.bind_some]
    rfl
  · obtain ⟨n, rfl⟩ : ∃ n, ms = [n] := List.length_eq_one_iff.1 (by omega)
    obtain ⟨cs, rfl⟩ := h.rel L rfl n (by simp)
    refine ⟨L, relOf L cs, ?_, by omega, h.wf _ (by simp), by simp, ?_, ⟨cs, rfl⟩, ?_⟩
    · simp only [Center.realize, h.nodes, h.shift]
      simp only [List.length_singleton, lt_irrefl, if_false, List.getElem?_cons_zero, Option.bind_eq_bind, Option.bind_some]
      congr 2
      have : c.B * (L + 1) = c.B * L + c.B := by ring
      omega
    · rcases h2 with h2 | ⟨L', n, hL, h2, h3⟩
      · simp at h2
      · obtain rfl : L = L' := by omega
        simp only [List.cons.injEq, and_true] at h2; rw [h2]; exact h3
    · intro f hf
      have := hf [] (relOf L cs) [] rfl
      simpa using this

variable (c) in
/-- a tree below the root: level, well formedness, the stronger condition and no thin regular path on the left -/
structure RootOK (L : Nat) (n : Node T) (l : List T) : Prop where
  wf : WF c (L + 1) n
  els : els (L + 1) n = l
  str : Str c false (L + 1) n
  lft : LftOK L n

theorem concatTrees_ok (hB : 2 ≤ c.B) {Ll Lr : Nat} {lroot rroot : Node T} {ll rl tl : List T}
    (hl : RootOK c Ll lroot ll) (hr : RootOK c Lr rroot rl) (ht1 : 1 ≤ tl.length) (ht2 : tl.length ≤ 2 ^ c.BL)
    (h32 : rl.length ≤ 2 ^ 32) (hs32 : c.BL + c.B * Lr < 32) :
    ∃ M root, concatTrees c lroot (c.BL + c.B * Ll) ll.length (.leaf tl) tl.length rroot (c.BL + c.B * Lr) rl.length =
        some (c.BL + c.B * M, root) ∧ M ≤ max Ll Lr + 1 ∧ RootOK c M root (ll ++ tl ++ rl) ∧ ∃ cs, root = relOf M cs := by
  have hB0 : 0 < c.B := by omega
  obtain ⟨p, p1, p2, p3⟩ := maybeRelaxedSub_ok hl.wf (by rw [hl.els])
  obtain ⟨q, q1, q2, q3⟩ := maybeRelaxedSub_ok hr.wf (by rw [hr.els])
  rw [hl.els] at p2
  rw [hr.els] at q2
  obtain ⟨r, cs, e1, e2, e3, e4, e5, e6, e7⟩ := p2.inner
  obtain ⟨cs', x', rfl⟩ := snoc_cases e2
  have hp := LOK.pos hB0 p2 (maybeRelaxedSub_left p1) e1
  have hlk : kids lroot = cs' ++ [x'] := by rw [← p3, e1]; rfl
  have htail : TailOK c (some (.leaf (.leaf tl) tl.length)) tl := by
    simp only [TailOK, PosOK, true_and]
    refine ⟨ht1, ?_⟩
    rw [Nat.mod_eq_of_lt (by omega)]; omega
  obtain ⟨z, ms, z1, z2, z3, z4, z5⟩ := concatInners_ok hB0 (Ll + 1 + (Lr + 1)) (by omega) hp htail q2
    (maybeRelaxedSub_sub q1) h32 hs32
  obtain ⟨M, root, m1, m2, m3, m4, m5, m6, m7⟩ := realize_ok hB z2 z5
  refine ⟨M, root, ?_, m2, ⟨m3, ?_, ?_, m5⟩, m6⟩
  · simp only [concatTrees, p1, q1, levels_shift hB0, z1, Option.bind_eq_bind, Option.bind_some, m1]
  · rw [m4, z3, e5]
  · apply m7
    apply z4
    · rw [← hlk]; exact Str.kids hl.wf hl.str
    · rw [q3]; exact hr.str

theorem concatTreesTail_ok (hB : 2 ≤ c.B) {Lr : Nat} {rroot : Node T} {rl tl : List T}
    (hr : RootOK c Lr rroot rl) (ht1 : 1 ≤ tl.length) (ht2 : tl.length ≤ 2 ^ c.BL)
    (h32 : rl.length ≤ 2 ^ 32) (hs32 : c.BL + c.B * Lr < 32) :
    ∃ M root, concatTreesTail c (.leaf tl) tl.length rroot (c.BL + c.B * Lr) rl.length =
        some (c.BL + c.B * M, root) ∧ M ≤ Lr + 1 ∧ RootOK c M root (tl ++ rl) ∧ ∃ cs, root = relOf M cs := by
  have hB0 : 0 < c.B := by omega
  obtain ⟨q, q1, q2, q3⟩ := maybeRelaxedSub_ok hr.wf (by rw [hr.els])
  rw [hr.els] at q2
  obtain ⟨z, ms, z1, z2, z3, z4, z5⟩ := concatInners_ok hB0 (1 + (Lr + 1)) (Ll := 0) (by omega) (LOK.single ht1 ht2)
    (t := none) (tl := []) rfl q2 (maybeRelaxedSub_sub q1) h32 hs32
  obtain ⟨M, root, m1, m2, m3, m4, m5, m6, m7⟩ := realize_ok hB z2 z5
  refine ⟨M, root, ?_, by omega, ⟨m3, ?_, ?_, m5⟩, m6⟩
  · simp only [concatTreesTail, q1, levels_shift hB0, z1, Option.bind_eq_bind, Option.bind_some, m1]
  · rw [m4, z3]; simp [Rrb.els]
  · apply m7
    apply z4
    · exact SL.zero
    · rw [q3]; exact hr.str

end Rrb
