import Verif.VecHeap.Model
import Verif.Rrb.VecSpec

/-!
# Positions without their nodes
-/

namespace VecHeap
open Rrb

variable {T : Type} {c : Cfg} {L : Nat} {sh : Shp} {N : Node T} {cs : List (Node T)} {k idx : Nat}

theorem pos_count (sh : Shp) (N : Node T) : (sh.pos N).count c = sh.count c := by cases sh <;> rfl
theorem pos_shift (sh : Shp) (N : Node T) : (sh.pos N).shift = sh.shift := by cases sh <;> rfl
theorem pos_size (sh : Shp) (N : Node T) : (sh.pos N).size c = sh.size c := by cases sh <;> rfl
theorem pos_index (sh : Shp) (N : Node T) (i : Nat) : (sh.pos N).index c i = sh.index c i := by cases sh <;> rfl
theorem pos_node (sh : Shp) (N : Node T) : (sh.pos N).node = N := by cases sh <;> rfl

theorem pos_notrel (sh : Shp) (N : Node T) : NotRel (sh.pos N) := by
  intro n s sz h
  cases sh <;> cases h

theorem pos_kidFull (s : Nat) (N : Node T) : (Shp.kidFull c s).pos N = Pos.kidFull c s N := by
  unfold Shp.kidFull Pos.kidFull
  split <;> rfl

theorem pos_kidReg (s size : Nat) (N : Node T) : (Shp.kidReg c s size).pos N = Pos.kidReg c s size N := by
  unfold Shp.kidReg Pos.kidReg
  split <;> rfl

theorem index_leaf (h : sh.isLeaf = true) (i : Nat) : sh.index c i = some (i &&& (2 ^ c.BL - 1)) := by
  cases sh <;> first | rfl | cases h

/-- `towards_oh` -/
theorem pos_towards {q : Pos T} {i : Nat} (h : (sh.pos N).towardsOh c idx k = some (q, i)) :
    ∃ r cs x sh', N = .inner r cs ∧ cs[k]? = some x ∧ sh.towards c k = some sh' ∧ q = sh'.pos x ∧ i = idx := by
  have key : ∀ (n : Node T) (s size cnt : Nat) (q : Pos T), Pos.towardsRegular c n s size cnt k = some q → ∃ r cs x, n = .inner r cs ∧ cs[k]? = some x ∧
      q = (if k + 1 ≠ cnt then Shp.kidFull c s else Shp.kidReg c s size).pos x := by
    intro n s size cnt q h
    simp only [Pos.towardsRegular, Option.bind_eq_bind, Option.bind_eq_some_iff, Option.some.injEq] at h
    obtain ⟨cs, h1, x, h2, rfl⟩ := h
    cases n with
    | leaf => cases h1
    | inner r cs' =>
      cases h1
      refine ⟨r, cs, x, rfl, h2, ?_⟩
      split
      · exact (pos_kidFull s x).symm
      · exact (pos_kidReg s size x).symm
  cases sh with
  | leaf => cases h
  | leafSub => cases h
  | fullLeaf => cases h
  | reg s size =>
    simp only [Shp.pos, Pos.towardsOh, Option.map_eq_some_iff, Prod.mk.injEq] at h
    obtain ⟨q', h1, rfl, rfl⟩ := h
    obtain ⟨r, cs, x, h2, h3, h4⟩ := key _ _ _ _ _ h1
    exact ⟨r, cs, x, _, h2, h3, rfl, h4, rfl⟩
  | regSub s size =>
    simp only [Shp.pos, Pos.towardsOh, Option.map_eq_some_iff, Prod.mk.injEq] at h
    obtain ⟨q', h1, rfl, rfl⟩ := h
    obtain ⟨r, cs, x, h2, h3, h4⟩ := key _ _ _ _ _ h1
    exact ⟨r, cs, x, _, h2, h3, rfl, h4, rfl⟩
  | full s =>
    simp only [Shp.pos, Pos.towardsOh, Option.bind_eq_bind, Option.bind_eq_some_iff, Option.some.injEq, Prod.mk.injEq] at h
    obtain ⟨cs, h1, x, h2, rfl, rfl⟩ := h
    cases N with
    | leaf => cases h1
    | inner r cs' =>
      cases h1
      exact ⟨r, cs, x, _, rfl, h2, rfl, (pos_kidFull s x).symm, rfl⟩

/-- `last_oh` -/
theorem pos_last {q : Pos T} (h : (sh.pos N).lastOh c k = some q) : ∃ r cs x sh', N = .inner r cs ∧ cs[k]? = some x ∧ sh.last c = some sh' ∧ q = sh'.pos x := by
  cases sh with
  | leaf => cases h
  | leafSub => cases h
  | fullLeaf => cases h
  | full => cases h
  | reg s size =>
    simp only [Shp.pos, Pos.lastOh, Option.bind_eq_bind, Option.bind_eq_some_iff, Option.some.injEq] at h
    obtain ⟨cs, h1, x, h2, rfl⟩ := h
    cases N with
    | leaf => cases h1
    | inner r cs' => cases h1; exact ⟨r, cs, x, _, rfl, h2, rfl, (pos_kidReg s size x).symm⟩
  | regSub s size =>
    simp only [Shp.pos, Pos.lastOh, Option.bind_eq_bind, Option.bind_eq_some_iff, Option.some.injEq] at h
    obtain ⟨cs, h1, x, h2, rfl⟩ := h
    cases N with
    | leaf => cases h1
    | inner r cs' => cases h1; exact ⟨r, cs, x, _, rfl, h2, rfl, (pos_kidReg s size x).symm⟩

/-! ### Positions that are right -/

/-- the position describes the node -/
def Fits (c : Cfg) (L : Nat) (sh : Shp) (N : Node T) : Prop := PosOK c L (sh.pos N) (els L N)

theorem Fits.leaf (h : Fits c 0 sh N) : ∃ xs, N = .leaf xs ∧ sh.isLeaf = true ∧ sh.count c = xs.length ∧ 1 ≤ xs.length ∧ xs.length ≤ 2 ^ c.BL := by
  obtain ⟨h1, h2, h3, h4, _⟩ := PosOK.leaf h
  rw [pos_node] at h1
  rw [pos_count] at h2
  refine ⟨_, h1, ?_, h2, h3, h4⟩
  unfold Fits at h
  cases sh <;> first | rfl | (simp [Shp.pos, PosOK] at h)

/-- the children of a node -/
structure Kids (c : Cfg) (L : Nat) (sh : Shp) (ds : List (Node T)) (e : Node T) (sf sl : Shp) : Prop where
  notLeaf : sh.isLeaf = false
  shift : sh.shift = c.BL + c.B * L
  count : sh.count c = ds.length + 1
  le : ds.length + 1 ≤ 2 ^ c.B
  each : sh.each c = some (List.replicate ds.length sf ++ [sl])
  right : ∀ k, 0 < k → k ≤ ds.length + 1 → sh.eachRight c k = some (List.replicate (ds.length + 1 - k - 1) sf ++ (if k ≤ ds.length then [sl] else []))
  towards : ∀ k, k ≤ ds.length → sh.towards c k = some (if k = ds.length then sl else sf)
  last : ∀ s, sh.last c = some s → s = sl
  full : ∀ d ∈ ds, Full c L d
  reg : Reg c L e
  init : ∀ d ∈ ds, Fits c L sf d
  fin : Fits c L sl e

theorem Fits.kids (hB : 0 < c.B) (h : Fits c (L + 1) sh N) : ∃ ds e sf sl, N = .inner none (ds ++ [e]) ∧ Kids c L sh ds e sf sl := by
  unfold Fits at h
  rcases h.regular with ⟨n, size, ⟨ds, e, rfl, hl, hd, he, h3, hsz⟩, hp, h1⟩ | ⟨cs, h1, hl, hd, h3⟩ | ⟨_, _, _, _, _, h1⟩
  · obtain ⟨hc, hm⟩ := hp.count hl hd he h1 hsz
    have hN : N = .inner none (ds ++ [e]) := by
      have := hp.node
      rwa [pos_node] at this
    rw [pos_count] at hc
    have hsh : sh = .reg (c.BL + c.B * L) size ∨ sh = .regSub (c.BL + c.B * L) size := by
      rcases hp with hp | ⟨hp, _⟩
      · cases sh <;> simp only [Shp.pos, Pos.reg.injEq, reduceCtorEq] at hp
        rw [hp.2.1, hp.2.2]; exact .inl rfl
      · cases sh <;> simp only [Shp.pos, Pos.regSub.injEq, reduceCtorEq] at hp
        rw [hp.2.1, hp.2.2]; exact .inr rfl
    refine ⟨ds, e, Shp.kidFull c (c.BL + c.B * L), Shp.kidReg c (c.BL + c.B * L) size, hN, ?_⟩
    have hfull : ∀ d ∈ ds, Fits c L (Shp.kidFull c (c.BL + c.B * L)) d := by
      intro d hdm
      unfold Fits
      rw [pos_kidFull]
      exact kidFull_ok hB (hd d hdm)
    have hlast : Fits c L (Shp.kidReg c (c.BL + c.B * L) size) e := by
      unfold Fits
      rw [pos_kidReg]
      exact kidReg_ok hB he h1 hm
    have hright : ∀ k, 0 < k → k ≤ ds.length + 1 → (if k ≤ ds.length + 1 - 1 then List.replicate (ds.length + 1 - 1 - k) (Shp.kidFull c (c.BL + c.B * L)) ++ [Shp.kidReg c (c.BL + c.B * L) size] else [])
        = List.replicate (ds.length + 1 - k - 1) (Shp.kidFull c (c.BL + c.B * L)) ++ (if k ≤ ds.length then [Shp.kidReg c (c.BL + c.B * L) size] else []) := by
      intro k h0 hk
      by_cases hkd : k ≤ ds.length
      · rw [if_pos (by omega), if_pos hkd]
        congr 2
        omega
      · rw [if_neg (by omega), if_neg hkd, show ds.length + 1 - k - 1 = 0 by omega]
        rfl
    have htow : ∀ k, k ≤ ds.length → (if k + 1 ≠ ds.length + 1 then Shp.kidFull c (c.BL + c.B * L) else Shp.kidReg c (c.BL + c.B * L) size)
        = if k = ds.length then Shp.kidReg c (c.BL + c.B * L) size else Shp.kidFull c (c.BL + c.B * L) := by
      intro k hk
      by_cases hkd : k = ds.length
      · rw [if_neg (by omega), if_pos hkd]
      · rw [if_pos (by omega), if_neg hkd]
    rcases hsh with rfl | rfl
    · refine ⟨rfl, rfl, hc, hl, ?_, ?_, ?_, ?_, hd, he, hfull, hlast⟩
      · simp only [Shp.each, hc]; rfl
      · intro k h0 hk
        simp only [Shp.eachRight, hc]
        rw [hright k h0 hk]
      · intro k hk
        simp only [Shp.towards, hc]
        rw [htow k hk]
      · intro s hs; cases hs; rfl
    · refine ⟨rfl, rfl, hc, hl, ?_, ?_, ?_, ?_, hd, he, hfull, hlast⟩
      · simp only [Shp.each, hc]; rfl
      · intro k h0 hk
        simp only [Shp.eachRight, hc]
        rw [hright k h0 hk]
      · intro k hk
        simp only [Shp.towards, hc]
        rw [htow k hk]
      · intro s hs; cases hs; rfl
  · have hsh : sh = .full (c.BL + c.B * L) ∧ N = .inner none cs := by
      cases sh <;> simp only [Shp.pos, Pos.full.injEq, reduceCtorEq] at h1
      rw [h1.1, h1.2]; exact ⟨rfl, rfl⟩
    obtain ⟨rfl, rfl⟩ := hsh
    have hne : cs ≠ [] := by
      intro h0
      rw [h0] at hl
      have := Nat.two_pow_pos c.B
      simp at hl
      omega
    obtain ⟨ds, e, rfl⟩ : ∃ ds e, cs = ds ++ [e] := ⟨cs.dropLast, cs.getLast hne, (List.dropLast_append_getLast hne).symm⟩
    have hl : ds.length + 1 = 2 ^ c.B := by simpa using hl
    have hfull : ∀ d ∈ ds ++ [e], Fits c L (Shp.kidFull c (c.BL + c.B * L)) d := by
      intro d hdm
      unfold Fits
      rw [pos_kidFull]
      exact kidFull_ok hB (hd d hdm)
    refine ⟨ds, e, Shp.kidFull c (c.BL + c.B * L), Shp.kidFull c (c.BL + c.B * L), rfl, rfl, rfl, ?_, by omega, ?_, ?_, ?_, ?_, ?_, (hd e (by simp)).reg, ?_, ?_⟩
    · simp only [Shp.count, Shp.pos, Pos.count]; omega
    · simp only [Shp.each, ← hl, List.replicate_succ']
    · intro k h0 hk
      simp only [Shp.eachRight]
      rw [if_pos (by omega), ← hl]
      congr 1
      by_cases hkd : k ≤ ds.length
      · rw [if_pos hkd, show ds.length + 1 - k = (ds.length + 1 - k - 1) + 1 by omega, List.replicate_succ']
        rfl
      · rw [if_neg hkd, show ds.length + 1 - k = 0 by omega]
        rfl
    · intro k hk
      simp only [Shp.towards, ite_self]
    · intro s hs; cases hs
    · exact fun d hdm => hd d (by simp [hdm])
    · exact fun d hdm => hfull d (by simp [hdm])
    · exact hfull e (by simp)
  · exact absurd h1 (pos_notrel _ _ _ _ _)

variable {ds : List (Node T)} {e x : Node T} {sf sl : Shp}

theorem forall₂_replicate {R : Shp → Node T → Prop} {sf : Shp} {ds : List (Node T)} (h : ∀ d ∈ ds, R sf d) : List.Forall₂ R (List.replicate ds.length sf) ds := by
  induction ds with
  | nil => exact .nil
  | cons d ds ih => exact .cons (h d List.mem_cons_self) (ih fun x hx => h x (List.mem_cons_of_mem _ hx))

/-- the positions of all children -/
theorem Kids.all (h : Kids c L sh ds e sf sl) : ∃ shs, sh.each c = some shs ∧ List.Forall₂ (Fits c L) shs (ds ++ [e]) :=
  ⟨_, h.each, List.rel_append (forall₂_replicate h.init) (.cons h.fin .nil)⟩

/-- the positions of the children on the right -/
theorem Kids.rest (h : Kids c L sh ds e sf sl) (h0 : 0 < k) (hk : k ≤ ds.length + 1) : ∃ shs, sh.eachRight c k = some shs ∧ List.Forall₂ (Fits c L) shs ((ds ++ [e]).drop k) := by
  refine ⟨_, h.right k h0 hk, ?_⟩
  by_cases hkd : k ≤ ds.length
  · rw [if_pos hkd, List.drop_append_of_le_length hkd]
    refine List.rel_append ?_ (.cons h.fin .nil)
    have : ds.length + 1 - k - 1 = (ds.drop k).length := by rw [List.length_drop]; omega
    rw [this]
    exact forall₂_replicate fun d hd => h.init d (List.mem_of_mem_drop hd)
  · rw [if_neg hkd, List.drop_of_length_le (by simp; omega), show ds.length + 1 - k - 1 = 0 by omega]
    exact .nil

/-- the position of a child -/
theorem Kids.kid (h : Kids c L sh ds e sf sl) (hx : (ds ++ [e])[k]? = some x) : ∃ sh', sh.towards c k = some sh' ∧ Fits c L sh' x := by
  have hk : k < (ds ++ [e]).length := (List.getElem?_eq_some_iff.mp hx).1
  simp only [List.length_append, List.length_cons, List.length_nil] at hk
  refine ⟨_, h.towards k (by omega), ?_⟩
  by_cases hkd : k = ds.length
  · subst hkd
    rw [if_pos rfl]
    simp at hx
    subst hx
    exact h.fin
  · rw [if_neg hkd]
    rw [List.getElem?_append_left (by omega)] at hx
    exact h.init x (List.mem_of_getElem? hx)

theorem Fits.regSub {size : Nat} (hr : Reg c (L + 1) N) (hs : size = (els (L + 1) N).length) : Fits c (L + 1) (.regSub (c.BL + c.B * L) size) N :=
  ⟨rfl, hr, rfl, hs⟩

theorem Fits.reg {size : Nat} (hr : Reg c (L + 1) N) (h1 : 1 ≤ size) (hs : (els (L + 1) N).length = (size - 1) % cap c (L + 1) + 1) :
    Fits c (L + 1) (.reg (c.BL + c.B * L) size) N := ⟨rfl, hr, rfl, h1, hs⟩

/-- where `push_tail_visitor` goes -/
theorem Fits.push (hB : 0 < c.B) {size ts : Nat} {Nt R : Node T} (h : Fits c (L + 1) sh N) (hp : RegPos c L (sh.pos N) N size) (hlt : (els (L + 1) N).length < cap c (L + 1))
    (hv : pushTail c Nt ts (L + 1) (sh.pos N) = some (some R)) :
    ∃ ds e ni, N = .inner none (ds ++ [e]) ∧ ds.length + 1 ≤ 2 ^ c.B ∧ sh.size c = some size ∧ sh.index c (size - 1) = some ds.length ∧ sh.index c (size + 2 ^ c.BL - 1) = some ni ∧
      ((ni = ds.length + 1 ∧ ds.length + 2 ≤ 2 ^ c.B ∧ R = .inner none (ds ++ [e] ++ [mkPath L Nt])) ∨
       (∃ L' sl R', L = L' + 1 ∧ ni = ds.length ∧ sh.last c = some sl ∧ Fits c L sl e ∧ RegPos c L' (sl.pos e) e size ∧ (els L e).length < cap c L ∧
          pushTail c Nt ts L (sl.pos e) = some (some R') ∧ R = .inner none (ds ++ [R']))) := by
  obtain ⟨ds, e, rfl, hl, hd, he, hels, hlen, hsz, h1, hc, hm⟩ := hp.decomp h
  obtain ⟨e1, e2, e3⟩ := he.len
  rw [hels] at hlt hlen
  have hC := Rrb.room hlt (by rw [hlen]; exact Nat.dvd_add (Dvd.dvd.mul_left (dvd_cap c _) _) e3) (dvd_cap c _)
  obtain ⟨i1, i2⟩ := push_index hsz h1 e1 e2 (Nat.two_pow_pos c.BL) e3 (dvd_cap c _) (by omega)
  have hs := hp.size
  have hi1 := hp.index (size - 1)
  have hi2 := hp.index (size + 2 ^ c.BL - 1)
  rw [pos_size] at hs
  rw [pos_index] at hi1 hi2
  rw [i1] at hi1
  rw [i2] at hi2
  rw [pushTail_reg_eq hp, hp.size, hp.node] at hv
  simp only [Option.bind_eq_bind, Option.bind_some, hp.index, i1, i2] at hv
  by_cases hel : (els L e).length = cap c L
  · rw [if_pos hel] at hi2 hv
    have hds : ds.length + 2 ≤ 2 ^ c.B := by
      by_contra hcon
      have : ds.length + 1 = 2 ^ c.B := by omega
      rw [hlen, hel, cap_succ c L, ← this] at hlt
      have : cap c L * (ds.length + 1) = ds.length * cap c L + cap c L := by ring
      omega
    refine ⟨ds, e, _, rfl, hl, hs, hi1, hi2, .inl ⟨rfl, hds, ?_⟩⟩
    rw [if_neg (by omega)] at hv
    simp only [Option.bind_some, Node.inner?] at hv
    rw [slice_all (by simp)] at hv
    simp only [Option.bind_some, mkInner] at hv
    rw [if_pos (by simpa using hds)] at hv
    simp only [Option.map_some, Option.some.injEq] at hv
    exact hv.symm
  · rw [if_neg hel] at hi2 hv
    have hL : ∃ L', L = L' + 1 := by
      cases L with
      | succ L' => exact ⟨L', rfl⟩
      | zero =>
        exfalso
        apply hel
        match e, he with
        | .leaf xs, he => simpa [els, cap_zero, Reg] using he
        | .inner _ _, he => simp [Reg] at he
    obtain ⟨L', rfl⟩ := hL
    have hx : (ds ++ [e])[ds.length]? = some e := by simp
    rw [if_pos rfl, hp.lastOh hx] at hv
    simp only [Option.bind_some, Node.inner?, Option.bind_eq_some_iff] at hv
    obtain ⟨o, ho, child, rfl, ks, hks, hv⟩ := hv
    rw [slice_snoc ds e 0 (by omega)] at hks
    simp only [List.drop_zero, Option.some.injEq] at hks
    subst hks
    simp only [mkInner] at hv
    rw [if_pos (by simpa using hl)] at hv
    simp only [Option.map_some, Option.some.injEq] at hv
    obtain ⟨r, cs, x, sl, hN, hxx, hlast, hq⟩ := pos_last (hp.lastOh hx)
    cases hN
    rw [hx] at hxx
    cases hxx
    have hsl : sl = .reg (c.BL + c.B * L') size := by
      have hne : ¬ (c.BL + c.B * (L' + 1) = c.BL) := by rw [shiftL hB]; omega
      rw [← pos_kidReg] at hq
      simp only [Shp.kidReg, if_neg hne, shift_sub] at hq
      cases sl <;> simp only [Shp.pos, reduceCtorEq, Pos.reg.injEq] at hq
      rw [hq.2.1, hq.2.2]
    refine ⟨ds, e, _, rfl, hl, hs, hi1, hi2, .inr ⟨L', sl, child, rfl, rfl, hlast, ?_, ?_, by omega, ?_, hv.symm⟩⟩
    · unfold Fits
      rw [← hq]
      exact kidReg_ok hB he h1 hm
    · left
      rw [hsl]; rfl
    · rw [← hq]; exact ho

end VecHeap
