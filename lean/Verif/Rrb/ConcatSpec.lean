import Verif.Rrb.MergeSpec

/-!
# Concatenation of trees is concatenation of lists
-/

namespace Rrb

variable {T : Type} {c : Cfg}

/-! ## Child positions -/

variable (c) in
/-- positions with exact sizes for the nodes `cs` -/
def SubKids (L : Nat) (ps : List (Pos T)) (cs : List (Node T)) : Prop :=
  List.Forall₂ (fun p x => PosOK c L p (els L x) ∧ p.node = x ∧ SubPos p) ps cs

theorem SubKids.append {L : Nat} {ps qs : List (Pos T)} {cs ds : List (Node T)} (h : SubKids c L ps cs)
    (h' : SubKids c L qs ds) : SubKids c L (ps ++ qs) (cs ++ ds) := List.rel_append h h'

theorem SubKids.full (hB : 0 < c.B) {L : Nat} {cs : List (Node T)} (h : ∀ x ∈ cs, Full c L x) :
    SubKids c L (cs.map (Pos.kidFull c (c.BL + c.B * L))) cs :=
  forall₂_map_id (fun x hx => ⟨kidFull_ok hB (h x hx), kidFull_node _ _, kidFull_sub _ _⟩)

theorem PosOK.isLeaf {L : Nat} {p : Pos T} {l : List T} (h : PosOK c L p l) : p.isLeaf = decide (L = 0) := by
  cases L <;> cases p <;> simp_all [PosOK, Pos.isLeaf]

/-- children of a relaxed position -/
theorem relKids_sub (hB : 0 < c.B) {L : Nat} {cs : List (Node T)} (hw : ∀ x ∈ cs, WF c L x) {i n : Nat}
    (hi : i ≤ n) (hn : n ≤ cs.length) :
    ∃ ps, Pos.relKids c (c.BL + c.B * L) (psums 0 (cs.map (fun x => (els L x).length))) cs i n = some ps ∧
      SubKids c L ps ((cs.drop i).take (n - i)) := by
  obtain ⟨ps, h1, h2⟩ := mapM_some (Pos.relKid c (c.BL + c.B * L) (psums 0 (cs.map (fun x => (els L x).length))) cs)
    (List.range' i (n - i)) (fun k q => ∃ x, cs[k]? = some x ∧ PosOK c L q (els L x) ∧ q.node = x ∧ SubPos q)
    (fun k hk => by
      simp only [List.mem_range'_1] at hk
      have hk' : k < cs.length := by omega
      obtain ⟨q, q1, q2, q3⟩ := relKid_ok hB hw k _ (List.getElem?_eq_getElem hk')
      exact ⟨q, q1, _, List.getElem?_eq_getElem hk', q2, q3, relKid_sub q1⟩)
  refine ⟨ps, h1, ?_⟩
  have hl := h2.length_eq
  simp at hl
  rw [SubKids, List.forall₂_iff_get]
  refine ⟨by simp; omega, ?_⟩
  intro k hk1 hk2
  rw [List.forall₂_iff_get] at h2
  obtain ⟨x, hx, h⟩ := h2.2 k (by simp; omega) hk1
  simp at hx
  obtain ⟨hx1, rfl⟩ := List.getElem?_eq_some_iff.1 hx
  simpa using h

/-- positions that can be left operands -/
def LeftPos : Pos T → Prop
  | .leafSub _ _ => True
  | .regSub _ _ _ => True
  | .rel _ _ _ => True
  | _ => False

theorem LeftPos.sub {p : Pos T} (h : LeftPos p) : SubPos p := by cases p <;> simp_all [LeftPos, SubPos]

theorem kidRegSub_left (s z : Nat) (x : Node T) : LeftPos (Pos.kidRegSub c s z x) := by
  unfold Pos.kidRegSub; split <;> trivial

theorem kidRel_left {s z : Nat} {x : Node T} {q : Pos T} (h : Pos.kidRel c s z x = some q) : LeftPos q := by
  unfold Pos.kidRel at h
  split at h
  · simp at h; subst h; trivial
  · unfold Pos.maybeRelaxedSub at h
    cases x with
    | leaf xs => simp [Node.relaxed?] at h
    | inner r cs => cases r <;> simp [Node.relaxed?] at h <;> subst h <;> trivial

theorem maybeRelaxedSub_left {s z : Nat} {x : Node T} {q : Pos T} (h : Pos.maybeRelaxedSub x s z = some q) : LeftPos q := by
  unfold Pos.maybeRelaxedSub at h
  cases x with
  | leaf xs => simp [Node.relaxed?] at h
  | inner r cs => cases r <;> simp [Node.relaxed?] at h <;> subst h <;> trivial

theorem count_regSub {L : Nat} {ds : List (Node T)} {e : Node T} {s size : Nat}
    (h : PosOK c (L + 1) (.regSub (.inner none (ds ++ [e])) s size) l) :
    Pos.count c (.regSub (.inner none (ds ++ [e])) s size) = ds.length + 1 := by
  obtain ⟨r, cs, hn, -, -, -, -, hc, -⟩ := h.inner
  simp only [Pos.node, Node.inner.injEq] at hn
  rw [hc, ← hn.2]; simp

theorem PosOK.lastSub (hB : 0 < c.B) {L : Nat} {p : Pos T} {l : List T} {r cs x} (h : PosOK c (L + 1) p l)
    (hp : LeftPos p) (hn : p.node = .inner r (cs ++ [x])) :
    ∃ q, p.lastSub c = some q ∧ PosOK c L q (els L x) ∧ q.node = x ∧ LeftPos q := by
  match p, h, hp with
  | .regSub n s size, h, _ =>
    have h' := h
    obtain ⟨rfl, hr, rfl, rfl⟩ := h
    obtain ⟨ds, e, rfl, hl, hd, he, hels, hlen⟩ := hr.decomp
    simp only [Pos.node, Node.inner.injEq] at hn
    obtain ⟨-, hn⟩ := hn
    obtain ⟨rfl, rfl⟩ : ds = cs ∧ e = x := by simpa using List.append_inj' hn rfl
    simp only [Pos.lastSub, Node.inner?, count_regSub h', Nat.add_sub_cancel, Option.bind_eq_bind, Option.bind_some]
    simp only [List.getElem?_append_right (le_refl _), Nat.sub_self, List.getElem?_cons_zero, Option.bind_some]
    refine ⟨_, rfl, kidRegSub_ok hB he ?_, kidRegSub_node _ _ _, kidRegSub_left _ _ _⟩
    rw [hlen, Nat.shiftLeft_eq]; simp only [cap]; omega
  | .rel n s sz, h, _ =>
    obtain ⟨rfl, hw, rfl, cs', rfl⟩ := h
    simp only [Pos.node, Node.inner.injEq] at hn
    obtain ⟨-, rfl⟩ := hn
    simp only [WF] at hw
    obtain ⟨-, -, hw, rfl⟩ := hw
    have e1 : (psums 0 ((cs ++ [x]).map (fun x => (els L x).length))).length - 1 = cs.length := by
      rw [psums_length]; simp
    have hx : (cs ++ [x])[cs.length]? = some x := by simp
    obtain ⟨q, q1, q2, q3⟩ := kidRel_ok hB (hw x (by simp)) rfl
    refine ⟨q, ?_, q2, q3, kidRel_left q1⟩
    simp only [Pos.lastSub, Node.inner?, e1, Option.bind_eq_bind, Option.bind_some, hx, sizeAt_rel hx, q1]

theorem PosOK.eachLeftSub (hB : 0 < c.B) {L : Nat} {p : Pos T} {l : List T} {r cs x} (h : PosOK c (L + 1) p l)
    (hp : LeftPos p) (hn : p.node = .inner r (cs ++ [x])) :
    ∃ ps, p.eachLeftSub c = some ps ∧ SubKids c L ps cs := by
  match p, h, hp with
  | .regSub n s size, h, _ =>
    have h' := h
    obtain ⟨rfl, hr, rfl, rfl⟩ := h
    obtain ⟨ds, e, rfl, hl, hd, he, hels, hlen⟩ := hr.decomp
    simp only [Pos.node, Node.inner.injEq] at hn
    obtain ⟨-, hn⟩ := hn
    obtain ⟨rfl, rfl⟩ : ds = cs ∧ e = x := by simpa using List.append_inj' hn rfl
    simp only [Pos.eachLeftSub, Pos.eachLeft, count_regSub h', Nat.add_sub_cancel, Node.inner?, Option.bind_eq_bind,
      Option.bind_some]
    rw [if_pos (by omega), slice_zero (by simp)]
    simp only [Option.bind_some]
    refine ⟨_, rfl, ?_⟩
    simp only [List.take_left']
    exact SubKids.full hB hd
  | .rel n s sz, h, _ =>
    obtain ⟨rfl, hw, rfl, cs', rfl⟩ := h
    simp only [Pos.node, Node.inner.injEq] at hn
    obtain ⟨-, rfl⟩ := hn
    simp only [WF] at hw
    obtain ⟨-, -, hw, rfl⟩ := hw
    have e1 : (psums 0 ((cs ++ [x]).map (fun x => (els L x).length))).length - 1 = cs.length := by
      rw [psums_length]; simp
    simp only [Pos.eachLeftSub, Pos.eachLeft, Node.inner?, e1, Option.bind_eq_bind, Option.bind_some]
    obtain ⟨ps, h1, h2⟩ := relKids_sub hB hw (i := 0) (n := cs.length) (by omega) (by simp)
    exact ⟨ps, h1, by simpa using h2⟩

theorem PosOK.firstSub (hB : 0 < c.B) {L : Nat} {p : Pos T} {l : List T} {r cs x} (h : PosOK c (L + 1) p l)
    (hp : SubPos p) (hn : p.node = .inner r (x :: cs)) :
    ∃ q, p.firstSub c = some q ∧ PosOK c L q (els L x) ∧ q.node = x ∧ SubPos q := by
  match p, h with
  | .regSub n s size, h =>
    have h' := h
    obtain ⟨rfl, hr, rfl, rfl⟩ := h
    obtain ⟨ds, e, rfl, hl, hd, he, hels, hlen⟩ := hr.decomp
    simp only [Pos.node, Node.inner.injEq] at hn
    obtain ⟨-, hn⟩ := hn
    simp only [Pos.firstSub, Node.inner?, hn, Option.bind_eq_bind, Option.bind_some, List.getElem?_cons_zero]
    rw [hn] at hlen
    cases ds with
    | nil =>
      simp at hn
      obtain ⟨rfl, rfl⟩ := hn
      simp only [List.length_nil, Nat.zero_mul, Nat.zero_add] at hlen
      split
      · rename_i hge
        have hf : Full c L e := he.full_of_len (by
          rw [hlen, Nat.shiftLeft_eq] at hge; have := he.len.2.1; simp only [cap] at this ⊢; omega)
        exact ⟨_, rfl, kidFull_ok hB hf, kidFull_node _ _, kidFull_sub _ _⟩
      · exact ⟨_, rfl, kidRegSub_ok hB he hlen, kidRegSub_node _ _ _, kidRegSub_sub _ _ _⟩
    | cons d ds =>
      simp at hn
      obtain ⟨rfl, rfl⟩ := hn
      rw [if_pos]
      · exact ⟨_, rfl, kidFull_ok hB (hd d (by simp)), kidFull_node _ _, kidFull_sub _ _⟩
      · rw [hlen, Nat.shiftLeft_eq]
        simp only [List.length_cons, Nat.add_mul, cap]; omega
  | .full n s, h =>
    obtain ⟨rfl, hr, rfl⟩ := h
    simp only [Pos.node] at hn
    subst hn
    cases r with
    | some _ => simp [Full] at hr
    | none =>
      simp only [Full] at hr
      exact ⟨Pos.kidFull c (c.BL + c.B * L) x, by simp [Pos.firstSub, Node.inner?], kidFull_ok hB (hr.2 x (by simp)), kidFull_node _ _, kidFull_sub _ _⟩
  | .rel n s sz, h =>
    obtain ⟨rfl, hw, rfl, cs', rfl⟩ := h
    simp only [Pos.node, Node.inner.injEq] at hn
    obtain ⟨-, rfl⟩ := hn
    simp only [WF] at hw
    obtain ⟨-, -, hw, rfl⟩ := hw
    obtain ⟨q, q1, q2, q3⟩ := kidRel_ok hB (hw x (by simp)) rfl
    refine ⟨q, ?_, q2, q3, kidRel_sub q1⟩
    simp [Pos.firstSub, Node.inner?, psums, q1]

theorem PosOK.firstSubLeaf {p : Pos T} {l : List T} {r cs x} (h : PosOK c 1 p l)
    (hp : SubPos p) (hn : p.node = .inner r (x :: cs)) :
    ∃ q, p.firstSubLeaf c = some q ∧ PosOK c 0 q (els 0 x) ∧ q.node = x ∧ SubPos q := by
  match p, h with
  | .regSub n s size, h =>
    have h' := h
    obtain ⟨rfl, hr, rfl, rfl⟩ := h
    obtain ⟨ds, e, rfl, hl, hd, he, hels, hlen⟩ := hr.decomp
    simp only [Pos.node, Node.inner.injEq] at hn
    obtain ⟨-, hn⟩ := hn
    have hx : Full c 0 x := by
      cases ds with
      | nil => simp at hn; rw [← hn.1]; match e, he with | .leaf xs, he => exact he
      | cons d ds => simp at hn; rw [← hn.1]; exact hd d (by simp)
    have hge : 2 ^ c.BL ≤ (els 1 (.inner none (ds ++ [e]))).length := by
      have hd2 := Reg.len hr
      exact Nat.le_of_dvd hd2.1 hd2.2.2
    simp only [Pos.firstSubLeaf, Node.inner?, hn, Option.bind_eq_bind, Option.bind_some, List.getElem?_cons_zero]
    rw [hn] at hge
    rw [if_pos hge]
    match x, hx with
    | .leaf xs, hx => exact ⟨_, rfl, ⟨rfl, hx⟩, rfl, trivial⟩
  | .full n s, h =>
    obtain ⟨rfl, hr, rfl⟩ := h
    simp only [Pos.node] at hn
    subst hn
    cases r with
    | some _ => simp [Full] at hr
    | none =>
      simp only [Full] at hr
      have hx : Full c 0 x := hr.2 x (by simp)
      refine ⟨.fullLeaf x, by simp [Pos.firstSubLeaf, Node.inner?], ?_, rfl, trivial⟩
      match x, hx with
      | .leaf xs, hx => exact ⟨rfl, hx⟩
  | .rel n s sz, h =>
    obtain ⟨rfl, hw, rfl, cs', rfl⟩ := h
    simp only [Pos.node, Node.inner.injEq] at hn
    obtain ⟨-, rfl⟩ := hn
    simp only [WF] at hw
    obtain ⟨-, -, hw, rfl⟩ := hw
    have hx := hw x (by simp)
    refine ⟨.leafSub x (els 0 x).length, by simp [Pos.firstSubLeaf, Node.inner?, psums], ?_, rfl, trivial⟩
    match x, hx with
    | .leaf xs, hx => exact ⟨rfl, rfl, hx.1, hx.2⟩

theorem PosOK.eachRightSub (hB : 0 < c.B) {L : Nat} {p : Pos T} {l : List T} {r cs x} (h : PosOK c (L + 1) p l)
    (hp : SubPos p) (h32 : l.length ≤ 2 ^ 32) (hs32 : c.BL + c.B * L < 32) (hn : p.node = .inner r (x :: cs)) :
    ∃ ps, p.eachRightSub c = some ps ∧ SubKids c L ps cs := by
  match p, h with
  | .regSub n s size, h =>
    have h' := h
    obtain ⟨rfl, hr, rfl, rfl⟩ := h
    obtain ⟨ds, e, rfl, hl, hd, he, hels, hlen⟩ := hr.decomp
    simp only [Pos.node, Node.inner.injEq] at hn
    obtain ⟨-, hn⟩ := hn
    simp only [Pos.eachRightSub, count_regSub h']
    cases ds with
    | nil =>
      simp at hn
      obtain ⟨rfl, rfl⟩ := hn
      exact ⟨[], by simp, .nil⟩
    | cons d ds =>
      simp at hn
      obtain ⟨rfl, rfl⟩ := hn
      rw [if_pos (by simp)]
      have hpos := he.len.1
      have hsh : Pos.shl32 (ds.length + 1) (c.BL + c.B * L) = some ((ds.length + 1) * cap c L) := by
        rw [Pos.shl32, if_pos hs32, Nat.shiftLeft_eq, Nat.mod_eq_of_lt]
        · rfl
        · have : (ds.length + 1) * cap c L = (ds.length + 1) * 2 ^ (c.BL + c.B * L) := rfl
          simp only [List.length_cons] at hlen
          omega
      have hx : (d :: ds ++ [e])[ds.length + 1]? = some e := by simp
      have hsl : slice (d :: ds ++ [e]) 1 (ds.length + 1) = some ds := by
        have := slice_snoc (d :: ds) e 1 (by simp)
        simpa using this
      simp only [Pos.eachRightSubI, count_regSub h', List.length_cons, Nat.add_sub_cancel, hsh, Node.inner?, hx, hsl,
        Option.bind_eq_bind, Option.bind_some]
      refine ⟨_, rfl, SubKids.append (SubKids.full hB (fun y hy => hd y (by simp [hy]))) (.cons ⟨kidRegSub_ok hB he ?_,
        kidRegSub_node _ _ _, kidRegSub_sub _ _ _⟩ .nil)⟩
      rw [hlen]; simp
  | .full n s, h =>
    obtain ⟨rfl, hr, rfl⟩ := h
    simp only [Pos.node] at hn
    subst hn
    cases r with
    | some _ => simp [Full] at hr
    | none =>
      simp only [Full] at hr
      obtain ⟨hl, hr⟩ := hr
      have hp1 := Nat.two_pow_pos c.B
      simp only [Pos.eachRightSub, Node.inner?, Option.bind_eq_bind, Option.bind_some]
      rw [slice_ok (by omega) (by omega), ← hl]
      simp only [Option.bind_some, List.length_cons, List.drop_succ_cons, List.drop_zero, Nat.add_sub_cancel,
        List.take_length]
      exact ⟨_, rfl, SubKids.full hB (fun y hy => hr y (by simp [hy]))⟩
  | .rel n s sz, h =>
    obtain ⟨rfl, hw, rfl, cs', rfl⟩ := h
    simp only [Pos.node, Node.inner.injEq] at hn
    obtain ⟨-, rfl⟩ := hn
    simp only [WF] at hw
    obtain ⟨-, -, hw, rfl⟩ := hw
    simp only [Pos.eachRightSub, Pos.eachRight, Node.inner?, Option.bind_eq_bind, Option.bind_some]
    rw [if_pos ⟨by omega, by simp [psums_length]⟩]
    obtain ⟨ps, h1, h2⟩ := relKids_sub hB hw (i := 1) (n := cs.length + 1) (by omega) (by simp)
    refine ⟨ps, by rw [psums_length]; simpa using h1, by simpa using h2⟩

/-! ## Centers -/

variable (c) in
/-- a center position of level `L`: up to three nodes of that level, relaxed unless they are leaves -/
structure CenterOK (L : Nat) (x : Center T) (ns : List (Node T)) : Prop where
  nodes : x.nodes = ns
  shift : x.shift = c.BL + c.B * L
  ne : ns ≠ []
  le : ns.length ≤ 3
  sizes : x.sizes = psums 0 (ns.map (fun n => (els L n).length))
  wf : ∀ n ∈ ns, WF c L n
  rel : ∀ L', L = L' + 1 → ∀ n ∈ ns, ∃ cs, n = relOf L' cs

theorem CenterOK.eachSub (hB : 0 < c.B) {L : Nat} {x : Center T} {ns} (h : CenterOK c L x ns) :
    ∃ ps, x.eachSub c = some ps ∧ SubKids c L ps ns := by
  obtain ⟨nodes, shift, ne, le, sizes, wf, rel⟩ := h
  have key : ∀ k, k ∈ List.range x.nodes.length → ∃ q, (do
      let n ← x.nodes[k]?
      if x.shift = c.BL then
        let b ← Pos.szBefore x.sizes k
        let e ← x.sizes[k]?
        some (.leafSub n (e - b))
      else
        match ← n.relaxed? with
        | some sz => some (.rel n (x.shift - c.B) sz)
        | none => none) = some q ∧ ∃ n, ns[k]? = some n ∧ PosOK c L q (els L n) ∧ q.node = n ∧ SubPos q := by
    intro k hk
    rw [nodes, List.mem_range] at hk
    have hx := List.getElem?_eq_getElem hk
    rw [nodes, hx]
    generalize ns[k] = n at hx
    have hn := wf n (List.mem_of_getElem? hx)
    simp only [Option.bind_eq_bind, Option.bind_some]
    cases L with
    | zero =>
      have := sizeAt_rel (L := 0) (n := n) (s := 0) hx
      simp only [Pos.sizeAt, ← sizes, Option.bind_eq_bind] at this
      have h0 : x.shift = c.BL := by simp [shift]
      rw [if_pos h0]
      obtain ⟨b, hb, e, he, hbe⟩ : ∃ b, Pos.szBefore x.sizes k = some b ∧ ∃ e, x.sizes[k]? = some e ∧
          e - b = (els 0 n).length := by
        simp only [Option.bind_eq_some_iff, Option.some.injEq] at this
        obtain ⟨b, hb, e, he, h⟩ := this
        exact ⟨b, hb, e, he, h⟩
      simp only [hb, he, Option.bind_some, hbe]
      refine ⟨_, rfl, n, rfl, ?_, rfl, trivial⟩
      match n, hn with
      | .leaf xs, hn => exact ⟨rfl, rfl, hn.1, hn.2⟩
    | succ L =>
      obtain ⟨cs, rfl⟩ := rel L rfl n (List.mem_of_getElem? hx)
      have : 0 < c.B * (L + 1) := Nat.mul_pos hB (by omega)
      rw [if_neg (by omega)]
      simp only [relOf, Node.relaxed?, Option.bind_some]
      refine ⟨_, rfl, _, rfl, ⟨?_, hn, rfl, cs, rfl⟩, rfl, trivial⟩
      rw [shift]
      have e : c.B * (L + 1) = c.B * L + c.B := by ring
      omega
  obtain ⟨ps, h1, h2⟩ := mapM_some _ (List.range x.nodes.length) _ key
  refine ⟨ps, h1, ?_⟩
  have hl := h2.length_eq
  rw [nodes] at h2 hl
  simp at hl
  rw [SubKids, List.forall₂_iff_get]
  refine ⟨by omega, ?_⟩
  intro k hk1 hk2
  rw [List.forall₂_iff_get] at h2
  obtain ⟨x, hx, h⟩ := h2.2 k (by simp; omega) hk1
  simp at hx
  obtain ⟨hx1, rfl⟩ := List.getElem?_eq_some_iff.1 hx
  simpa using h

end Rrb
