import Verif.Rrb.FlexRead
import Verif.Rrb.VecEq

/-!
# What `==` of flexible vectors computes (rrbtree.hpp 283-331, operations.hpp 319-455)
-/

namespace Rrb

variable {T : Type} {c : Cfg}

/-! ### Prefixes -/

theorem append_prefix_iff {A B M : List T} : A ++ B <+: M ↔ A <+: M ∧ B <+: M.drop A.length := by
  constructor
  · rintro ⟨r, rfl⟩
    exact ⟨⟨B ++ r, by simp⟩, ⟨r, by simp⟩⟩
  · rintro ⟨⟨r, rfl⟩, h⟩
    rw [List.drop_left] at h
    obtain ⟨r', rfl⟩ := h
    exact ⟨r', by simp⟩

theorem prefix_iff_of_prefix {P Q M : List T} (hl : P.length ≤ Q.length) (h : Q <+: M) : P <+: Q ↔ P <+: M :=
  ⟨fun hp => hp.trans h, fun hp => List.prefix_of_prefix_length_le hp h hl⟩

theorem eq_iff_prefix {P Q M : List T} (hl : P.length = Q.length) (h : Q <+: M) : P = Q ↔ P <+: M := by
  rw [← prefix_iff_of_prefix (by omega) h]
  exact ⟨fun h => h ▸ List.prefix_rfl, fun h => h.eq_of_length hl⟩

/-! ### Positions of children -/

theorem PosOK.nthSub (hB : 0 < c.B) {L : Nat} {p : Pos T} {l : List T} {r cs} (h : PosOK c (L + 1) p l)
    (hp : SubPos p) (hn : p.node = .inner r cs) {k : Nat} {x : Node T} (hx : cs[k]? = some x) :
    ∃ q, p.nthSub c k = some q ∧ PosOK c L q (els L x) ∧ q.node = x ∧ SubPos q := by
  obtain ⟨hs1, hs2⟩ := h.sub_sizes hp hn hx
  obtain ⟨hk, -⟩ := List.getElem?_eq_some_iff.1 hx
  match p, h, hp with
  | .regSub n s size, h, _ =>
    have h' := h
    obtain ⟨rfl, hr, rfl, rfl⟩ := h
    obtain ⟨ds, e, rfl, hl, hd, he, hels, hlen⟩ := hr.decomp
    simp only [Pos.node, Node.inner.injEq] at hn
    obtain ⟨-, rfl⟩ := hn
    have hc := count_regSub h'
    simp only [Pos.nthSub, Node.inner?, hx, hs2, Option.bind_eq_bind, Option.bind_some, hc]
    by_cases hkd : k + 1 < ds.length + 1
    · rw [if_pos hkd]
      have hx' : x ∈ ds := by
        rw [List.getElem?_append_left (by omega)] at hx
        exact List.mem_of_getElem? hx
      exact ⟨_, rfl, kidFull_ok hB (hd x hx'), kidFull_node _ _, kidFull_sub _ _⟩
    · rw [if_neg hkd]
      have hx' : x = e := by
        rw [List.getElem?_append_right (by omega)] at hx
        simp at hk
        rw [show k - ds.length = 0 by omega] at hx
        simpa using hx.symm
      subst hx'
      exact ⟨_, rfl, kidRegSub_ok hB he rfl, kidRegSub_node _ _ _, kidRegSub_sub _ _ _⟩
  | .full n s, h, _ =>
    obtain ⟨rfl, hf, rfl⟩ := h
    simp only [Pos.node] at hn
    subst hn
    cases r with
    | some _ => simp [Full] at hf
    | none =>
      simp only [Full] at hf
      simp only [Pos.nthSub, Node.inner?, hx, Option.bind_eq_bind, Option.bind_some]
      exact ⟨_, rfl, kidFull_ok hB (hf.2 x (List.mem_of_getElem? hx)), kidFull_node _ _, kidFull_sub _ _⟩
  | .rel n s sz, h, _ =>
    obtain ⟨rfl, hw, rfl, cs', he⟩ := h
    simp only [Pos.node] at hn
    subst hn
    obtain ⟨r', cs'', e', h1, h2, h3⟩ := hw.kids
    cases e'
    simp only [Pos.nthSub, Node.inner?, hx, hs2, Option.bind_eq_bind, Option.bind_some]
    obtain ⟨q, q1, q2, q3⟩ := kidRel_ok hB (h3 x (List.mem_of_getElem? hx)) rfl
    exact ⟨q, q1, q2, q3, kidRel_sub q1⟩

theorem PosOK.nthSubLeaf {p : Pos T} {l : List T} {r cs} (h : PosOK c 1 p l)
    (hp : SubPos p) (hn : p.node = .inner r cs) {k : Nat} {x : Node T} (hx : cs[k]? = some x) :
    ∃ q, p.nthSubLeaf c k = some q ∧ PosOK c 0 q (els 0 x) ∧ q.node = x ∧ SubPos q := by
  obtain ⟨hs1, hs2⟩ := h.sub_sizes hp hn hx
  obtain ⟨hk, -⟩ := List.getElem?_eq_some_iff.1 hx
  have hleaf : ∀ (n : Node T), WF c 0 n → PosOK c 0 (.leafSub n (els 0 n).length) (els 0 n) := by
    intro n hw
    match n, hw with
    | .leaf xs, hw => exact ⟨rfl, rfl, hw.1, hw.2⟩
    | .inner _ _, hw => simp [WF] at hw
  have hfull : ∀ (n : Node T), Full c 0 n → PosOK c 0 (.fullLeaf n) (els 0 n) := by
    intro n hw
    match n, hw with
    | .leaf xs, hw => exact ⟨rfl, hw⟩
    | .inner _ _, hw => simp [Full] at hw
  match p, h, hp with
  | .regSub n s size, h, _ =>
    have h' := h
    obtain ⟨rfl, hr, rfl, rfl⟩ := h
    obtain ⟨ds, e, rfl, hl, hd, he, hels, hlen⟩ := hr.decomp
    simp only [Pos.node, Node.inner.injEq] at hn
    obtain ⟨-, rfl⟩ := hn
    have hc := count_regSub h'
    simp only [Pos.nthSubLeaf, Node.inner?, hx, hs2, Option.bind_eq_bind, Option.bind_some, hc]
    by_cases hkd : k + 1 < ds.length + 1
    · rw [if_pos hkd]
      have hx' : x ∈ ds := by
        rw [List.getElem?_append_left (by omega)] at hx
        exact List.mem_of_getElem? hx
      exact ⟨_, rfl, hfull x (hd x hx'), rfl, trivial⟩
    · rw [if_neg hkd]
      have hx' : x = e := by
        rw [List.getElem?_append_right (by omega)] at hx
        simp at hk
        rw [show k - ds.length = 0 by omega] at hx
        simpa using hx.symm
      subst hx'
      exact ⟨_, rfl, hleaf x he.wf, rfl, trivial⟩
  | .full n s, h, _ =>
    obtain ⟨rfl, hf, rfl⟩ := h
    simp only [Pos.node] at hn
    subst hn
    cases r with
    | some _ => simp [Full] at hf
    | none =>
      simp only [Full] at hf
      simp only [Pos.nthSubLeaf, Node.inner?, hx, Option.bind_eq_bind, Option.bind_some]
      exact ⟨_, rfl, hfull x (hf.2 x (List.mem_of_getElem? hx)), rfl, trivial⟩
  | .rel n s sz, h, _ =>
    obtain ⟨rfl, hw, rfl, cs', he⟩ := h
    simp only [Pos.node] at hn
    subst hn
    obtain ⟨r', cs'', e', h1, h2, h3⟩ := hw.kids
    cases e'
    simp only [Pos.nthSubLeaf, Node.inner?, hx, hs2, Option.bind_eq_bind, Option.bind_some]
    exact ⟨_, rfl, hleaf x (h3 x (List.mem_of_getElem? hx)), rfl, trivial⟩

theorem split_at {cs : List (Node T)} {k : Nat} {x : Node T} (h : cs[k]? = some x) :
    cs = cs.take k ++ x :: cs.drop (k + 1) := by
  obtain ⟨hk, rfl⟩ := List.getElem?_eq_some_iff.1 h
  rw [← List.drop_eq_getElem_cons hk, List.take_append_drop]

/-- `first_sub_inner` on the leftmost path -/
theorem PosOK.firstSubInner (hB : 0 < c.B) {L : Nat} {p : Pos T} {l : List T} (h : PosOK c (L + 2) p l)
    (hp : SubPos p) {f : Bool} (hs : Str c f (L + 2) p.node) (hl : LftOK (L + 1) p.node) :
    ∃ q l' rest f', p.firstSubInner c = some q ∧ PosOK c (L + 1) q l' ∧ SubPos q ∧ l = l' ++ rest ∧
      Str c f' (L + 1) q.node ∧ LftOK L q.node ∧ (f' = false → f = false ∧ rest = []) := by
  match p, h, hp with
  | .regSub n s size, h, _ =>
    obtain ⟨rfl, hr, rfl, rfl⟩ := h
    obtain ⟨ds, e, rfl, hlen, hd, he, hels, hlen'⟩ := hr.decomp
    have h2 : 2 ≤ (ds ++ [e]).length := by
      rcases hl with hl | ⟨sz, x, hx, -⟩
      · exact hl
      · simp [Pos.node] at hx
    match ds, h2 with
    | [], h2 => simp at h2
    | d :: ds, _ =>
      have hf := hd d (by simp)
      have hbig : 2 ^ c.BL ≤ (els (L + 2) (.inner none (d :: ds ++ [e]))).length := by
        have : 1 ≤ (els (L + 1) d).length ∧ 2 ^ c.BL ∣ (els (L + 1) d).length := ⟨hf.reg.len.1, hf.reg.len.2.2⟩
        have h3 := Nat.le_of_dvd this.1 this.2
        rw [els]; simp; omega
      refine ⟨.full d (c.BL + c.B * L), els (L + 1) d, (ds ++ [e]).flatMap (els (L + 1)), true, ?_, ⟨rfl, hf, rfl⟩, trivial,
        by rw [hels]; simp, hf.str, Str.lft hB hf.reg.wf hf.str, by simp⟩
      simp only [Pos.firstSubInner, Node.inner?, Option.bind_eq_bind, Option.bind_some, List.cons_append,
        List.getElem?_cons_zero]
      rw [List.cons_append] at hbig
      rw [if_pos hbig, shift_sub]
  | .full n s, h, _ =>
    obtain ⟨rfl, hf, rfl⟩ := h
    match n, hf with
    | .inner none cs, hf =>
      simp only [Full] at hf
      have h2 := Nat.two_pow_pos c.B
      match cs, hf with
      | [], hf => simp at hf; omega
      | d :: ds, hf =>
        have hd := hf.2 d (by simp)
        refine ⟨.full d (c.BL + c.B * L), els (L + 1) d, ds.flatMap (els (L + 1)), true, ?_, ⟨rfl, hd, rfl⟩, trivial,
          by rw [els]; simp, hd.str, Str.lft hB hd.reg.wf hd.str, by simp⟩
        simp only [Pos.firstSubInner, Node.inner?, Option.bind_eq_bind, Option.bind_some, List.getElem?_cons_zero, shift_sub]
    | .inner (some _) _, hf => simp [Full] at hf
    | .leaf _, hf => simp [Full] at hf
  | .rel n s sz, h, _ =>
    obtain ⟨rfl, hw, rfl, cs, rfl⟩ := h
    obtain ⟨h1, h2, h3, rfl⟩ := hw
    simp only [Pos.node] at hs hl
    rw [Str.rel] at hs
    match cs, h1 with
    | x :: xs, _ =>
      rw [SL.cons] at hs
      have hwx := h3 x (by simp)
      obtain ⟨q, q1, q2, q3⟩ := maybeRelaxedSub_ok hwx rfl
      refine ⟨q, els (L + 1) x, xs.flatMap (els (L + 1)), f || !xs.isEmpty, ?_, q2, maybeRelaxedSub_sub q1, by rw [els]; simp,
        by rw [q3]; exact hs.1, ?_, ?_⟩
      · simp only [Pos.firstSubInner, Node.inner?, Option.bind_eq_bind, Option.bind_some, List.getElem?_cons_zero, shift_sub,
          List.map_cons, psums, Nat.zero_add]
        exact q1
      · rw [q3]
        cases xs with
        | nil =>
          rcases hl with hl | ⟨sz, y, hy, hl⟩
          · simp [kids] at hl
          · simp only [Node.inner.injEq, List.cons.injEq] at hy
            rw [hy.2.1]; exact hl
        | cons y ys => exact Str.lft hB hwx (by simpa using hs.1)
      · intro hf
        cases xs <;> simp_all

namespace Flex

variable {same : Node T → Node T → Bool} {samePtr : List T → List T → Bool} {eq : T → T → Bool}

theorem stdEqual_prefix (heq : ∀ x y, eq x y = true ↔ x = y) : ∀ (xs ys : List T), xs.length ≤ ys.length →
    ∃ b, Vec.stdEqual eq xs ys = some b ∧ (b = true ↔ xs <+: ys)
  | [], ys, _ => ⟨true, by cases ys <;> rfl, by simp⟩
  | x :: xs, y :: ys, h => by
    obtain ⟨b, h1, h2⟩ := stdEqual_prefix heq xs ys (by simpa using h)
    by_cases hxy : eq x y = true
    · refine ⟨b, by simp [Vec.stdEqual, hxy, h1], ?_⟩
      rw [heq] at hxy; subst hxy; simp [h2]
    · refine ⟨false, by simp [Vec.stdEqual, hxy], ?_⟩
      simp only [Bool.false_eq_true, List.cons_prefix_cons, false_iff, not_and]
      intro h; exact absurd ((heq x y).2 h) hxy
  | _ :: _, [], h => by simp at h

theorem iterFrom_spec (hB : 0 < c.B) {u : Tree T} {m : List T} (hu : Inv c u m) {k : Nat} (hk : k < m.length) :
    ∃ ys, iterFrom c u k = some ys ∧ ys ≠ [] ∧ ys <+: m.drop k := by
  obtain ⟨xs, f, h1, h2, h3, pre, post, rfl, h5⟩ := regionFor_spec hB hu hk
  refine ⟨xs.drop (k - f), by simp [iterFrom, h1], ?_, post, ?_⟩
  · intro h0
    have := congrArg List.length h0
    simp at this; omega
  · rw [List.append_assoc, List.drop_append (l₁ := pre), List.drop_of_length_le (l := pre) (by omega), List.nil_append,
      List.drop_append_of_le_length (by omega), h5]

theorem stdEqualIter_spec (hB : 0 < c.B) (heq : ∀ x y, eq x y = true ↔ x = y) {u : Tree T} {m : List T} (hu : Inv c u m) :
    ∀ (xs : List T) (k : Nat), k + xs.length ≤ m.length →
      ∃ b, stdEqualIter c eq u xs k = some b ∧ (b = true ↔ xs <+: m.drop k)
  | [], k, _ => ⟨true, rfl, by simp⟩
  | x :: xs, k, h => by
    simp only [List.length_cons] at h
    obtain ⟨ys, h1, h2, h3⟩ := iterFrom_spec hB hu (show k < m.length by omega)
    obtain ⟨b, h4, h5⟩ := stdEqualIter_spec hB heq hu xs (k + 1) (by omega)
    match ys, h2 with
    | y :: ys, _ =>
      have hm : m.drop k = y :: m.drop (k + 1) := by
        obtain ⟨r, hr⟩ := h3
        have : (m.drop k).drop 1 = m.drop (k + 1) := by rw [List.drop_drop]
        rw [← this, ← hr]; rfl
      simp only [stdEqualIter, h1, Option.bind_eq_bind, Option.bind_some, List.head?_cons]
      by_cases hxy : eq x y = true
      · refine ⟨b, by simp [hxy, h4], ?_⟩
        rw [heq] at hxy; subst hxy; rw [hm]; simp [h5]
      · refine ⟨false, by simp [hxy], ?_⟩
        rw [hm]
        simp only [Bool.false_eq_true, List.cons_prefix_cons, false_iff, not_and]
        intro h; exact absurd ((heq x y).2 h) hxy

theorem equalChunk_spec (hB : 0 < c.B) (hptr : ∀ a b, samePtr a b = true → a <+: b) (heq : ∀ x y, eq x y = true ↔ x = y)
    {u : Tree T} {m : List T} (hu : Inv c u m) {ch : List T} {k : Nat} (hne : ch ≠ []) (h : k + ch.length ≤ m.length) :
    ∃ b, equalChunk c samePtr eq u ch k = some (b, k + ch.length) ∧ (b = true ↔ ch <+: m.drop k) := by
  have := List.length_pos_iff.2 hne
  obtain ⟨ys, h1, h2, h3⟩ := iterFrom_spec hB hu (show k < m.length by omega)
  obtain ⟨b, h4, h5⟩ := stdEqualIter_spec hB heq hu ch k h
  simp only [equalChunk, h1, Option.bind_eq_bind, Option.bind_some]
  by_cases hp : samePtr ch ys = true
  · rw [if_pos hp]
    exact ⟨true, rfl, by simpa using (hptr _ _ hp).trans h3⟩
  · rw [if_neg hp, h4]
    exact ⟨b, rfl, h5⟩

theorem equalChunks_spec (hB : 0 < c.B) (hptr : ∀ a b, samePtr a b = true → a <+: b) (heq : ∀ x y, eq x y = true ↔ x = y)
    {u : Tree T} {m : List T} (hu : Inv c u m) {L : Nat} {p : Pos T} {l : List T} (h : PosOK c L p l) {k : Nat}
    (hk : k + l.length ≤ m.length) :
    ∃ b, equalChunks c samePtr eq u L p k = some b ∧ (b = true ↔ l <+: m.drop k) := by
  obtain ⟨chs, rfl, hne, hfn⟩ := chunks_spec hB L h
  obtain ⟨fn, e1, e2⟩ : ∃ fn : List T → Option Nat → Bool × Option Nat,
      equalChunks c samePtr eq u L p k = (chunks c fn L p (some k)).bind (fun x => x.2.bind fun _ => some x.1) ∧
      ∀ ch k, fn ch (some k) = match equalChunk c samePtr eq u ch k with
        | some (b, k) => (b, some k)
        | none => (false, none) := ⟨_, rfl, fun _ _ => rfl⟩
  have hrun : chunks c fn L p (some k) = _ := hfn fn (some k)
  rw [e1, hrun, Option.bind_some]
  clear e1 hrun hfn h
  induction chs generalizing k with
  | nil => exact ⟨true, rfl, by simp⟩
  | cons ch chs ih =>
    simp only [List.flatten_cons, List.length_append] at hk
    obtain ⟨b, h1, h2⟩ := equalChunk_spec hB hptr heq hu (hne ch (by simp)) (show k + ch.length ≤ m.length by omega)
    obtain ⟨b', h3, h4⟩ := ih (k := k + ch.length) (by omega) (fun x hx => hne x (by simp [hx]))
    simp only [runP, e2, h1, List.flatten_cons]
    rw [append_prefix_iff, ← h2, List.drop_drop, ← h4]
    cases b with
    | true => exact ⟨b', by simpa using h3, by simp⟩
    | false => exact ⟨false, by simp, by simp⟩

/-- the search for the child of the other node that starts at `sbl` -/
theorem findJ_spec {L : Nat} {pr : Pos T} {B : List T} {r ds} (h : PosOK c (L + 1) pr B) (hp : SubPos pr)
    (hn : pr.node = .inner r ds) (sbl : Nat) : ∀ (fuel j sbr : Nat), j < ds.length → ds.length ≤ fuel + j →
    (j + 1 < ds.length ∨ sbr = before L ds j ∨ sbr < sbl) →
    ∃ j' sbr', findJ pr ds.length sbl fuel j sbr = some (j', sbr') ∧ j' < ds.length ∧
      (sbr' = before L ds j' ∨ sbr' < sbl)
  | 0, j, sbr, hj, hf, hs => by omega
  | fuel + 1, j, sbr, hj, hf, hs => by
    simp only [findJ]
    by_cases h1 : j + 1 < ds.length
    · rw [if_pos h1, (h.sub_sizes hp hn (List.getElem?_eq_getElem hj)).1]
      simp only [Option.bind_eq_bind, Option.bind_some]
      by_cases h2 : before L ds j < sbl
      · rw [if_pos h2]
        exact findJ_spec h hp hn sbl fuel (j + 1) _ h1 (by omega) (Or.inr (Or.inr h2))
      · rw [if_neg h2]
        exact ⟨j, _, rfl, hj, Or.inl rfl⟩
    · rw [if_neg h1]
      exact ⟨j, sbr, rfl, hj, by rcases hs with h | h | h <;> [omega; exact Or.inl h; exact Or.inr h]⟩

theorem relaxedLoop_spec (hB : 0 < c.B) (hptr : ∀ a b, samePtr a b = true → a <+: b) (heq : ∀ x y, eq x y = true ↔ x = y)
    {u : Tree T} {m : List T} (hu : Inv c u m) {L : Nat} {pl pr : Pos T} {A B : List T} {r cs r' ds}
    (hl : PosOK c (L + 1) pl A) (hpl : SubPos pl) (hnl : pl.node = .inner r cs)
    (hr : PosOK c (L + 1) pr B) (hpr : SubPos pr) (hnr : pr.node = .inner r' ds) {idx : Nat}
    (hA : idx + A.length ≤ m.length) (v : Pos T → Pos T → Nat → Option Bool)
    (hv : ∀ k x j y ql qr, cs[k]? = some x → ds[j]? = some y → before L cs k = before L ds j →
      PosOK c L ql (els L x) → SubPos ql → ql.node = x → PosOK c L qr (els L y) → SubPos qr → qr.node = y →
      ∃ b, v ql qr (idx + before L cs k) = some b ∧ (b = true ↔ els L x <+: m.drop (idx + before L cs k))) :
    ∀ (n i j sbr : Nat), i + n = cs.length → j < ds.length →
      (j + 1 < ds.length ∨ sbr = before L ds j ∨ sbr < before L cs i) →
      ∃ b, relaxedLoop c samePtr eq v u L pl pr idx n i j sbr = some b ∧
        (b = true ↔ (cs.drop i).flatMap (els L) <+: m.drop (idx + before L cs i))
  | 0, i, j, sbr, hi, hj, hs => by
    refine ⟨true, rfl, ?_⟩
    rw [List.drop_of_length_le (by omega)]; simp
  | n + 1, i, j, sbr, hi, hj, hs => by
    have hic : i < cs.length := by omega
    have hx := List.getElem?_eq_getElem hic
    obtain ⟨hlr, hlcs, hlne, -, -, hlw, hAe, hlc, -⟩ := hl.inner
    rw [hnl] at hlne; cases hlne
    obtain ⟨hrr, hrds, hrne, -, -, hrw, hBe, hrc, -⟩ := hr.inner
    rw [hnr] at hrne; cases hrne
    obtain ⟨j', sbr', f1, f2, f3⟩ := findJ_spec hr hpr hnr (before L cs i) ds.length j sbr hj (by omega) hs
    have hbs := before_succ L cs i _ hx
    have hlen := (hlw _ (List.getElem_mem hic)).len.1
    have hble : before L cs (i + 1) ≤ A.length := by
      rw [hAe, ← before_all L cs cs.length (le_refl _)]
      exact before_mono L cs (by omega)
    have hres : ∃ b, (if before L cs i = sbr' then (pr.nthSub c j').bind fun qr =>
          (if qr.isLeaf = true then pl.nthSubLeaf c i else pl.nthSub c i).bind fun ql => v ql qr (idx + before L cs i)
        else (pl.nthSub c i).bind fun ql => equalChunks c samePtr eq u L ql (idx + before L cs i)) = some b ∧
        (b = true ↔ els L cs[i] <+: m.drop (idx + before L cs i)) := by
      by_cases hse : before L cs i = sbr'
      · rw [if_pos hse]
        have hb : sbr' = before L ds j' := by
          rcases f3 with h | h
          · exact h
          · omega
        have hy := List.getElem?_eq_getElem f2
        obtain ⟨qr, q1, q2, q3, q4⟩ := hr.nthSub hB hpr hnr hy
        rw [q1, Option.bind_some]
        have hql : ∃ ql, (if qr.isLeaf = true then pl.nthSubLeaf c i else pl.nthSub c i) = some ql ∧
            PosOK c L ql (els L cs[i]) ∧ ql.node = cs[i] ∧ SubPos ql := by
          by_cases hqr : qr.isLeaf = true
          · rw [if_pos hqr]
            rw [q2.isLeaf] at hqr
            have : L = 0 := by simpa using hqr
            subst this
            exact hl.nthSubLeaf hpl hnl hx
          · rw [if_neg hqr]
            exact hl.nthSub hB hpl hnl hx
        obtain ⟨ql, l1, l2, l3, l4⟩ := hql
        rw [l1, Option.bind_some]
        exact hv i _ j' _ ql qr hx hy (by omega) l2 l4 l3 q2 q4 q3
      · rw [if_neg hse]
        obtain ⟨ql, l1, l2, l3, l4⟩ := hl.nthSub hB hpl hnl hx
        rw [l1, Option.bind_some]
        exact equalChunks_spec hB hptr heq hu l2 (by omega)
    obtain ⟨b, b1, b2⟩ := hres
    obtain ⟨b', b3, b4⟩ := relaxedLoop_spec hB hptr heq hu hl hpl hnl hr hpr hnr hA v hv n (i + 1) j' sbr' (by omega) f2
      (by rcases f3 with h | h
          · exact Or.inr (Or.inl h)
          · exact Or.inr (Or.inr (by omega)))
    have hsplit : (cs.drop i).flatMap (els L) = els L cs[i] ++ (cs.drop (i + 1)).flatMap (els L) := by
      rw [List.drop_eq_getElem_cons hic, List.flatMap_cons]
    rw [hsplit, append_prefix_iff, ← b2, List.drop_drop, show idx + before L cs i + (els L cs[i]).length =
      idx + before L cs (i + 1) by omega, ← b4]
    have hgoal : relaxedLoop c samePtr eq v u L pl pr idx (n + 1) i j sbr = if b then
        relaxedLoop c samePtr eq v u L pl pr idx n (i + 1) j' sbr' else some false := by
      simp only [relaxedLoop, (hl.sub_sizes hpl hnl hx).1, hrc, f1, Option.bind_eq_bind, Option.bind_some]
      have hk : (if b then relaxedLoop c samePtr eq v u L pl pr idx n (i + 1) j' sbr' else some false) =
        (some b).bind fun a => if a = true then relaxedLoop c samePtr eq v u L pl pr idx n (i + 1) j' sbr' else some false := rfl
      rw [hk, ← b1]
      clear hk b1
      by_cases hse : before L cs i = sbr'
      · simp only [if_pos hse]
        cases Pos.nthSub c pr j' with
        | none => rfl
        | some q =>
          simp only [Option.bind_some]
          by_cases hq : q.isLeaf = true
          · simp only [if_pos hq]
            rw [Option.bind_assoc]
          · simp only [if_neg hq]
            rw [Option.bind_assoc]
      · simp only [if_neg hse]
        rw [Option.bind_assoc]
    rw [hgoal]
    cases b with
    | true => exact ⟨b', by simpa using b3, by simp⟩
    | false => exact ⟨false, by simp, by simp⟩

theorem reg_of_not_rel {L : Nat} {p : Pos T} {l : List T} (h : PosOK c (L + 1) p l) (hp : SubPos p)
    (hr : p.isRel = false) : Reg c (L + 1) p.node ∧ ∃ cs, p.node = .inner none cs := by
  have : Reg c (L + 1) p.node := by
    match p, h, hp with
    | .regSub n s size, h, _ => exact h.2.1
    | .full n s, h, _ => exact h.2.1.reg
    | .rel n s sz, _, _ => simp [Pos.isRel] at hr
  refine ⟨this, ?_⟩
  obtain ⟨ds, e, h, -⟩ := this.decomp
  exact ⟨_, h⟩

/-- `equals_visitor` decides whether the elements below `pl` are those of `u` from `idx` on -/
theorem equalsV_spec (hB : 0 < c.B) (hsame : ∀ a b, same a b = true → a = b)
    (hptr : ∀ a b, samePtr a b = true → a <+: b) (heq : ∀ x y, eq x y = true ↔ x = y)
    {u : Tree T} {m : List T} (hu : Inv c u m) {off uoff : Nat} (ho1 : off < uoff + 2 ^ c.BL) (ho2 : uoff < off + 2 ^ c.BL)
    (ho3 : off ≤ m.length) : ∀ (L : Nat) {pl pr : Pos T} {A B : List T} {fl fr : Bool} {idx : Nat},
    PosOK c L pl A → SubPos pl → Str c fl L pl.node → PosOK c L pr B → SubPos pr → Str c fr L pr.node →
    (fl = false → idx + A.length = off) → idx + A.length ≤ off → (fr = false → idx + B.length = uoff) →
    idx + B.length ≤ uoff → B <+: m.drop idx →
    ∃ b, equalsV c same samePtr eq u L pl pr idx = some b ∧ (b = true ↔ A <+: m.drop idx) := by
  intro L
  induction L with
  | zero =>
    intro pl pr A B fl fr idx hl hpl _ hr hpr _ _ hA _ hBl hBm
    obtain ⟨hn, hc, h1, h2, -⟩ := hl.leaf
    obtain ⟨hn', hc', h1', h2', -⟩ := hr.leaf
    simp only [equalsV, hn, hn', hc, hc']
    by_cases hs : same (.leaf A) (.leaf B) = true
    · rw [if_pos hs]
      have := hsame _ _ hs
      cases this
      exact ⟨true, rfl, by simpa using hBm⟩
    · rw [if_neg hs]
      simp only [Node.leaf?, slice_all rfl, Option.bind_eq_bind, Option.bind_some]
      obtain ⟨b, b1, b2⟩ := stdEqual_prefix heq (A.take (min A.length B.length)) B (by simp)
      rw [b1, Option.bind_some]
      obtain ⟨b', b3, b4⟩ := stdEqualIter_spec hB heq hu (A.drop (min A.length B.length)) (idx + min A.length B.length)
        (by rw [List.length_drop]; omega)
      have hsplit := @append_prefix_iff T (A.take (min A.length B.length)) (A.drop (min A.length B.length)) (m.drop idx)
      rw [List.take_append_drop, List.drop_drop, List.length_take, Nat.min_eq_left (Nat.min_le_left _ _),
        ← b4, ← prefix_iff_of_prefix (P := A.take (min A.length B.length)) (by simp) hBm, ← b2] at hsplit
      rw [hsplit]
      cases b with
      | true => exact ⟨b', by simpa using b3, by simp⟩
      | false => exact ⟨false, by simp, by simp⟩
  | succ L ih =>
    intro pl pr A B fl fr idx hl hpl hsl hr hpr hsr hfl hA hfr hBl hBm
    obtain ⟨wl, el⟩ := hl.wf
    obtain ⟨wr, er⟩ := hr.wf
    simp only [equalsV]
    by_cases hrel : pl.isRel ∨ pr.isRel
    · rw [if_pos hrel]
      by_cases hs : same pl.node pr.node = true
      · rw [if_pos hs]
        have := hsame _ _ hs
        rw [this, er] at el
        rw [← el]
        exact ⟨true, rfl, by simpa using hBm⟩
      · rw [if_neg hs]
        obtain ⟨r, cs, hn, hne, -, hw, hAe, hc, -⟩ := hl.inner
        obtain ⟨r', ds, hn', hne', -, hw', hBe, hc', -⟩ := hr.inner
        have sl := hsl.kids wl
        have sr := hsr.kids wr
        rw [hn] at sl
        rw [hn'] at sr
        simp only [kids] at sl sr
        rw [hc]
        obtain ⟨b, b1, b2⟩ := relaxedLoop_spec hB hptr heq hu hl hpl hn hr hpr hn' (show idx + A.length ≤ m.length by omega) (equalsV c same samePtr eq u L) (by
          intro k x j y ql qr hx hy hkj q1 q2 q3 q4 q5 q6
          obtain ⟨hk, -⟩ := List.getElem?_eq_some_iff.1 hx
          obtain ⟨hj, -⟩ := List.getElem?_eq_some_iff.1 hy
          have e1 := split_at hx
          have e2 := split_at hy
          have s1 := sl _ _ _ e1
          have s2 := sr _ _ _ e2
          have k1 := before_succ L cs k x hx
          have k2 := before_succ L ds j y hy
          have k3 : before L cs (k + 1) ≤ A.length := by
            rw [hAe, ← before_all L cs cs.length (le_refl _)]; exact before_mono L cs (by omega)
          have k4 : before L ds (j + 1) ≤ B.length := by
            rw [hBe, ← before_all L ds ds.length (le_refl _)]; exact before_mono L ds (by omega)
          refine ih q1 q2 (by rw [q3]; exact s1) q4 q5 (by rw [q6]; exact s2) ?_ (by omega) ?_ (by omega) ?_
          · intro hf
            simp only [Bool.or_eq_false_iff, Bool.not_eq_false', List.isEmpty_iff, List.drop_eq_nil_iff] at hf
            have := hfl hf.1
            have k5 : before L cs (k + 1) = A.length := by rw [hAe, before_all L cs _ hf.2]
            omega
          · intro hf
            simp only [Bool.or_eq_false_iff, Bool.not_eq_false', List.isEmpty_iff, List.drop_eq_nil_iff] at hf
            have := hfr hf.1
            have k5 : before L ds (j + 1) = B.length := by rw [hBe, before_all L ds _ hf.2]
            omega
          · rw [hkj]
            rw [hBe, e2, List.flatMap_append, append_prefix_iff, List.flatMap_cons, append_prefix_iff, List.drop_drop] at hBm
            exact hBm.2.1) cs.length 0 0 0 (by omega) (List.length_pos_iff.2 hne') (Or.inr (Or.inl (before_zero _ _).symm))
        refine ⟨b, b1, ?_⟩
        rw [b2, List.drop_zero, before_zero, ← hAe]; rfl
    · rw [if_neg hrel]
      simp only [not_or, Bool.not_eq_true] at hrel
      obtain ⟨rl, cs, hn⟩ := reg_of_not_rel hl hpl hrel.1
      obtain ⟨rr, ds, hn'⟩ := reg_of_not_rel hr hpr hrel.2
      obtain ⟨l1, l2, l3⟩ := rl.len
      obtain ⟨r1, r2, r3⟩ := rr.len
      rw [el] at l1 l2 l3
      rw [er] at r1 r2 r3
      have hcapl : fl = true → A.length = cap c (L + 1) := by
        intro h; rw [h, hn] at hsl; rw [← el, hn]; exact (hsl rfl).len
      have hcapr : fr = true → B.length = cap c (L + 1) := by
        intro h; rw [h, hn'] at hsr; rw [← er, hn']; exact (hsr rfl).len
      have hp : 0 < 2 ^ c.BL := Nat.two_pow_pos _
      have hlen : A.length = B.length := by
        have a1 : A.length < B.length + 2 ^ c.BL := by
          cases fr with
          | false => have := hfr rfl; omega
          | true => have := hcapr rfl; omega
        have a2 : B.length < A.length + 2 ^ c.BL := by
          cases fl with
          | false => have := hfl rfl; omega
          | true => have := hcapl rfl; omega
        obtain ⟨x, hx⟩ := l3
        obtain ⟨y, hy⟩ := r3
        rw [hx, hy] at a1 a2 ⊢
        rw [← Nat.mul_succ] at a1 a2
        have b1 := Nat.lt_of_mul_lt_mul_left a1
        have b2 := Nat.lt_of_mul_lt_mul_left a2
        rw [show x = y by omega]
      split
      · obtain ⟨b, b1, b2⟩ := Vec.equalsReg_spec hB hsame heq (L + 1) hl rl rr (by rw [er]; exact hlen.symm)
        exact ⟨b, b1, by rw [b2, er]; exact eq_iff_prefix hlen hBm⟩
      · obtain ⟨b, b1, b2⟩ := Vec.equalsReg_spec hB hsame heq (L + 1) hr rr rl (by rw [el]; exact hlen)
        exact ⟨b, b1, by rw [b2, el, eq_comm]; exact eq_iff_prefix hlen hBm⟩

theorem equalsRrb_spec (hB : 0 < c.B) (hsame : ∀ a b, same a b = true → a = b)
    (hptr : ∀ a b, samePtr a b = true → a <+: b) (heq : ∀ x y, eq x y = true ↔ x = y)
    {u : Tree T} {m : List T} (hu : Inv c u m) {L : Nat} {root : Node T} {A : List T} (hroot : RootOK c L root A)
    {uoff : Nat} (ho1 : A.length < uoff + 2 ^ c.BL) (ho2 : uoff < A.length + 2 ^ c.BL) (ho3 : A.length ≤ m.length) :
    ∀ (k d : Nat), d < k → ∀ (pr : Pos T) (B : List T) (fr : Bool), PosOK c (L + d + 1) pr B → SubPos pr →
      Str c fr (L + d + 1) pr.node → LftOK (L + d) pr.node → (fr = false → B.length = uoff) → B.length ≤ uoff → B <+: m →
    ∃ b, equalsRrb c same samePtr eq u k pr root (c.BL + c.B * L) A.length = some b ∧ (b = true ↔ A <+: m)
  | 0, d, hd => by omega
  | k + 1, 0, _ => by
    intro pr B fr hp hpr hs _ hfr hBl hBm
    obtain ⟨r, cs, -, -, -, -, -, -, hsh⟩ := hp.inner
    obtain ⟨q, q1, q2, q3, q4⟩ := RootOK.sub hroot
    simp only [equalsRrb, hsh, if_pos, q1, Option.bind_eq_bind, Option.bind_some, levels_shift hB]
    obtain ⟨b, b1, b2⟩ := equalsV_spec (fl := false) (fr := fr) hB hsame hptr heq hu ho1 ho2 ho3 (L + 1) (idx := 0) q2 q4
      (by rw [q3]; exact hroot.str) hp hpr hs (by simp) (by simp) (by simpa using hfr) (by simpa using hBl) (by simpa using hBm)
    exact ⟨b, b1, by simpa using b2⟩
  | k + 1, d + 1, hd => by
    intro pr B fr hp hpr hs hlf hfr hBl hBm
    obtain ⟨r, cs, -, -, -, -, -, -, hsh⟩ := hp.inner
    obtain ⟨q, l', rest, f', q1, q2, q3, q4, q5, q6, q7⟩ := PosOK.firstSubInner (L := L + d) hB hp hpr hs hlf
    subst q4
    rw [List.length_append] at hBl
    have hne : ¬ (c.BL + c.B * L = pr.shift) := by
      rw [hsh]
      have : c.B * (L + (d + 1)) = c.B * L + c.B * (d + 1) := by ring
      have h2 : 0 < c.B * (d + 1) := Nat.mul_pos hB (by omega)
      omega
    obtain ⟨b, b1, b2⟩ := equalsRrb_spec hB hsame hptr heq hu hroot ho1 ho2 ho3 k d (by omega) _ _ f' q2 q3 q5 q6 (by
        intro hf
        obtain ⟨h1, rfl⟩ := q7 hf
        simpa using hfr h1) (by omega) ((List.prefix_append _ _).trans hBm)
    exact ⟨b, by simp only [equalsRrb, if_neg hne, q1, Option.bind_eq_bind, Option.bind_some]; exact b1, b2⟩

/-- both trees non-empty: the comparison of the trees -/
theorem equalsRrb_root (hB : 0 < c.B) (hsame : ∀ a b, same a b = true → a = b)
    (hptr : ∀ a b, samePtr a b = true → a <+: b) (heq : ∀ x y, eq x y = true ↔ x = y)
    {u : Tree T} {m : List T} (hu : Inv c u m) {L Lu : Nat} {root : Node T} {A Bu : List T} (hroot : RootOK c L root A)
    (hru : RootOK c Lu u.root Bu) (hBm : Bu <+: m) (hL : L ≤ Lu)
    (ho1 : A.length < Bu.length + 2 ^ c.BL) (ho2 : Bu.length < A.length + 2 ^ c.BL) (ho3 : A.length ≤ m.length) :
    ∃ p b, Pos.maybeRelaxedSub u.root (c.BL + c.B * Lu) Bu.length = some p ∧
      equalsRrb c same samePtr eq u (Lu + 1) p root (c.BL + c.B * L) A.length = some b ∧ (b = true ↔ A <+: m) := by
  obtain ⟨p, p1, p2, p3, p4⟩ := RootOK.sub hru
  obtain ⟨d, rfl⟩ := Nat.exists_eq_add_of_le hL
  obtain ⟨b, b1, b2⟩ := equalsRrb_spec hB hsame hptr heq hu hroot ho1 ho2 ho3 (L + d + 1) d (by omega) _ _ false p2 p4
    (by rw [p3]; exact hru.str) (by rw [p3]; exact hru.lft) (fun _ => rfl) (le_refl _) hBm
  exact ⟨p, b, p1, b1, b2⟩

theorem prefix_take {l m : List T} {k : Nat} (hk : k ≤ l.length) (hlm : l.length = m.length) :
    l.take k <+: m ↔ l.take k = m.take k := by
  rw [← prefix_iff_of_prefix (Q := m.take k) (by simp; omega) (List.take_prefix _ _)]
  exact ⟨fun h => h.eq_of_length (by simp; omega), fun h => h ▸ List.prefix_rfl⟩

/-- Exactly what `equals` compares: the sizes, the elements from the tail of the left operand on, and, when both trees are
non-empty, the tree of the operand of smaller height (the left one if equal) against the other operand. -/
theorem equals_spec (hB : 0 < c.B) (hsame : ∀ a b, same a b = true → a = b)
    (hptr : ∀ a b, samePtr a b = true → a <+: b) (heq : ∀ x y, eq x y = true ↔ x = y)
    {t u : Tree T} {l m : List T} (ht : Inv c t l) (hu : Inv c u m) :
    ∃ off uoff, tailOffset c t = some off ∧ tailOffset c u = some uoff ∧
    ∃ b, equals c same samePtr eq t u = some b ∧ (b = true ↔ l.length = m.length ∧ l.drop off = m.drop off ∧
      (0 < off → 0 < uoff → l.take (if t.shift ≤ u.shift then off else uoff) =
        m.take (if t.shift ≤ u.shift then off else uoff))) := by
  have ht0 := ht
  have hu0 := hu
  obtain ⟨pre, tl, rfl, hsz, htl, hl1, hl0, hroot⟩ := ht
  obtain ⟨pre', tl', rfl, hsz', htl', hl1', hl0', hroot'⟩ := hu
  have o1 := tailOffset_ok hsz hl1 hl0 hroot
  have o2 := tailOffset_ok hsz' hl1' hl0' hroot'
  refine ⟨_, _, o1, o2, ?_⟩
  simp only [equals]
  by_cases h1 : t.size = u.size
  swap
  · rw [if_pos h1]
    exact ⟨false, rfl, by simp only [Bool.false_eq_true, false_iff, not_and]; intro h; omega⟩
  rw [if_neg (by simpa using h1)]
  have hlm : (pre ++ tl).length = (pre' ++ tl').length := by omega
  by_cases h0 : t.size = 0
  · rw [if_pos h0]
    have e1 : (pre ++ tl).length = 0 := by omega
    have e2 : (pre' ++ tl').length = 0 := by omega
    rw [List.length_eq_zero_iff] at e1 e2
    exact ⟨true, rfl, by simp [e1, e2]⟩
  rw [if_neg h0, o1, o2]
  simp only [Option.bind_eq_bind, Option.bind_some]
  have hlm' := hlm
  simp only [List.length_append] at hlm' hsz hsz'
  have tne : 1 ≤ tl.length := by
    rcases Nat.eq_zero_or_pos tl.length with h | h
    · have := List.length_eq_zero_iff.1 h
      have := hl0 this
      subst this
      simp at hsz; omega
    · exact h
  have tne' : 1 ≤ tl'.length := by
    rcases Nat.eq_zero_or_pos tl'.length with h | h
    · have := List.length_eq_zero_iff.1 h
      have := hl0' this
      subst this
      simp at hsz'; omega
    · exact h
  -- the trees
  have htrees : ∃ b, (if 0 < pre.length ∧ 0 < pre'.length then
        if t.shift ≤ u.shift then (Pos.maybeRelaxedSub u.root u.shift pre'.length).bind fun p =>
          equalsRrb c same samePtr eq u (levels c u.shift) p t.root t.shift pre.length
        else (Pos.maybeRelaxedSub t.root t.shift pre.length).bind fun p =>
          equalsRrb c same samePtr eq t (levels c t.shift) p u.root u.shift pre'.length
      else some true) = some b ∧ (b = true ↔ (0 < pre.length → 0 < pre'.length →
        (pre ++ tl).take (if t.shift ≤ u.shift then pre.length else pre'.length) =
        (pre' ++ tl').take (if t.shift ≤ u.shift then pre.length else pre'.length))) := by
    by_cases hb : 0 < pre.length ∧ 0 < pre'.length
    · rw [if_pos hb]
      obtain ⟨L, hs, hr⟩ := hroot.cases (List.length_pos_iff.1 hb.1)
      obtain ⟨L', hs', hr'⟩ := hroot'.cases (List.length_pos_iff.1 hb.2)
      have hLL : t.shift ≤ u.shift ↔ L ≤ L' := by
        rw [hs, hs']
        constructor
        · intro h; exact Nat.le_of_mul_le_mul_left (by omega) hB
        · intro h; have := Nat.mul_le_mul_left c.B h; omega
      by_cases hsh : t.shift ≤ u.shift
      · simp only [if_pos hsh]
        obtain ⟨p, b, p1, p2, p3⟩ := equalsRrb_root hB hsame hptr heq hu0 hr hr' (List.prefix_append _ _) (hLL.1 hsh)
          (by omega) (by omega) (by simp only [List.length_append]; omega)
        refine ⟨b, by rw [hs', hs, p1, Option.bind_some, levels_shift hB]; exact p2, ?_⟩
        rw [p3]
        have := @prefix_take T (pre ++ tl) (pre' ++ tl') pre.length (by simp) hlm
        rw [List.take_left] at this
        rw [this, List.take_left]
        simp [hb]
      · simp only [if_neg hsh]
        obtain ⟨p, b, p1, p2, p3⟩ := equalsRrb_root hB hsame hptr heq ht0 hr' hr (List.prefix_append _ _)
          (by rw [hLL] at hsh; omega) (by omega) (by omega) (by simp only [List.length_append]; omega)
        refine ⟨b, by rw [hs', hs, p1, Option.bind_some, levels_shift hB]; exact p2, ?_⟩
        rw [p3]
        have := @prefix_take T (pre' ++ tl') (pre ++ tl) pre'.length (by simp) hlm.symm
        rw [List.take_left] at this
        rw [this, List.take_left, eq_comm]
        simp [hb]
    · rw [if_neg hb]
      refine ⟨true, rfl, ?_⟩
      simp only [true_iff]
      intro h1 h2; exact absurd ⟨h1, h2⟩ hb
  -- the tail
  have htail : ∃ b, (if pre.length = pre'.length then Vec.equalsReg c same eq 0 (.leafSub t.tail (t.size - pre.length)) u.tail
      else (t.tail.leaf?).bind fun xs => (slice xs 0 (t.size - pre.length)).bind fun xs =>
        if pre'.length < pre.length then (u.tail.leaf?).bind fun ys => Vec.stdEqual eq xs (ys.drop (pre.length - pre'.length))
        else stdEqualIter c eq u xs pre.length) = some b ∧
      (b = true ↔ (pre ++ tl).drop pre.length = (pre' ++ tl').drop pre.length) := by
    have hts : t.size - pre.length = tl.length := by omega
    rw [hts, List.drop_left, htl, htl']
    simp only [Node.leaf?, Option.bind_some, slice_all rfl]
    by_cases hpe : pre.length = pre'.length
    · rw [if_pos hpe, hpe, List.drop_left]
      obtain ⟨b, b1, b2⟩ := Vec.equalsLeaf_spec (c := c) hsame heq (p := .leafSub (.leaf tl) tl.length) (l := tl) (m := tl')
        ⟨rfl, rfl, tne, hl1⟩ (by omega)
      exact ⟨b, b1, b2⟩
    · rw [if_neg hpe]
      by_cases hlt : pre'.length < pre.length
      · rw [if_pos hlt]
        have : (pre' ++ tl').drop pre.length = tl'.drop (pre.length - pre'.length) := by
          rw [List.drop_append, List.drop_of_length_le (by omega), List.nil_append]
        rw [this]
        exact Vec.stdEqual_spec heq _ _ (by rw [List.length_drop]; omega)
      · rw [if_neg hlt]
        obtain ⟨b, b1, b2⟩ := stdEqualIter_spec hB heq hu0 tl pre.length (by rw [← hlm]; simp)
        refine ⟨b, b1, ?_⟩
        rw [b2, eq_iff_prefix (by rw [List.length_drop, ← hlm]; simp) List.prefix_rfl]
  obtain ⟨b, b1, b2⟩ := htrees
  obtain ⟨b', b3, b4⟩ := htail
  rw [← b2, ← b4]
  suffices h : ((if 0 < pre.length ∧ 0 < pre'.length then
        if t.shift ≤ u.shift then (Pos.maybeRelaxedSub u.root u.shift pre'.length).bind fun p =>
          equalsRrb c same samePtr eq u (levels c u.shift) p t.root t.shift pre.length
        else (Pos.maybeRelaxedSub t.root t.shift pre.length).bind fun p =>
          equalsRrb c same samePtr eq t (levels c t.shift) p u.root u.shift pre'.length
      else some true).bind fun b => if b = true then
        (if pre.length = pre'.length then Vec.equalsReg c same eq 0 (.leafSub t.tail (t.size - pre.length)) u.tail
      else (t.tail.leaf?).bind fun xs => (slice xs 0 (t.size - pre.length)).bind fun xs =>
        if pre'.length < pre.length then (u.tail.leaf?).bind fun ys => Vec.stdEqual eq xs (ys.drop (pre.length - pre'.length))
        else stdEqualIter c eq u xs pre.length) else some false) = some (b && b') by
    refine ⟨b && b', ?_, by simp [hlm]; tauto⟩
    rw [← h]
    split
    · split
      · rw [Option.bind_assoc]
      · rw [Option.bind_assoc]
    · rfl
  rw [b1, Option.bind_some, b3]
  cases b <;> rfl

end Flex
end Rrb
