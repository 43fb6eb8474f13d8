import Verif.FlexHeap.Merge
import Verif.FlexHeap.Left

/-!
# Positions of children, read from memory
-/

namespace FlexHeap
open Mm Rrb VecHeap

variable {T : Type} {c : Cfg} {E : Env Dat T} {u : Toks E.gc} {O : List Nat} {L : List (Ref (Val T))}

section
variable {s : St Dat T} {m m' : Mem Dat T} {p q n i t l e k : Nat} {N R X x : Node T} {Ns cs : List (Node T)} {ks sz ss : List Nat} {sh : RShp} {rs : Option (List Nat)}

theorem rpos_isLeaf (sh : RShp) (N : Node T) : (sh.pos N).isLeaf = sh.isLeaf := by
  cases sh with
  | reg sh => cases sh <;> rfl
  | rel => rfl

theorem RFits.isLeaf (h : RFits c l sh N) : sh.isLeaf = decide (l = 0) := by
  rw [← rpos_isLeaf sh N]; exact PosOK.isLeaf h

/-- a child: it can be read and is referred to by a node -/
def Kd (c : Cfg) (E : Env Dat T) (u : Toks E.gc) (m : Mem Dat T) (L : List (Ref (Val T))) (q : Nat) (N : Node T) : Prop :=
  At (sys c E u) m L q (.node N) ∧ Held (sys c E u) m L q

theorem kds_of : ∀ {Lc : List (Ref (Val T))} {Ns : List (Node T)}, Lc.map Ref.val = Ns.map Val.node → (∀ x ∈ Lc, At (sys c E u) m L x.ptr x.val ∧ Held (sys c E u) m L x.ptr) →
    List.Forall₂ (Kd c E u m L) (Lc.map Ref.ptr) Ns
  | [], [], _, _ => .nil
  | r :: Lc, N :: Ns, hv, hk => by
    simp only [List.map_cons, List.cons.injEq] at hv
    have hr := hk r List.mem_cons_self
    rw [hv.1] at hr
    exact .cons hr (kds_of hv.2 fun x hx => hk x (List.mem_cons_of_mem _ hx))

theorem kids_of (h : Inv (sys c E u) s.mem O L) (ha : At (sys c E u) s.mem L p (.node (.inner rs Ns))) :
    ∃ ks, kids p s = .ok s ks ∧ (∀ i q, ks[i]? = some q → kid p i s = .ok s q) ∧ List.Forall₂ (Kd c E u s.mem L) ks Ns := by
  obtain ⟨cl, cap, rel, Lc, hc, hd, hv, _, hk, _⟩ := at_innerG h ha
  exact ⟨Lc.map Ref.ptr, kids_eq hc hd, fun i q hq => kid_eq hc hd hq, kds_of hv fun x hx => (hk x hx).2⟩

/-- nodes with regular positions -/
theorem pairUp_ok : ∀ {ks : List Nat} {Ns : List (Node T)} {shs : List Shp} (rest : List Nat), List.Forall₂ (Kd c E u m L) ks Ns →
    List.Forall₂ (fun sh x => RFits c l (.reg sh) x ∧ SubPos ((RShp.reg sh).pos x)) shs Ns → ∃ ps, pairUp (ks ++ rest) shs = some ps ∧ List.Forall₂ (PosR c E u m L l) ps Ns
  | _, _, _, rest, .nil, .nil => ⟨[], by cases rest <;> rfl, .nil⟩
  | q :: ks, x :: Ns, sh :: shs, rest, .cons h1 h2, .cons h3 h4 => by
    obtain ⟨ps, h5, h6⟩ := pairUp_ok rest h2 h4
    exact ⟨(q, .reg sh) :: ps, by simp [pairUp, h5], .cons ⟨h3.1, h3.2, h1.1, .inl h1.2⟩ h6⟩

theorem kidSh_sub (hB : 0 < c.B) (hw : WF c l x) : LeftPos ((kidSh c (c.BL + c.B * l) (els l x).length x).pos x) :=
  kidRel_left (kidRel_kidSh hB hw rfl)

/-- children of a relaxed node -/
theorem relSubs_ok (hB : 0 < c.B) : ∀ {ks : List Nat} {Ns : List (Node T)} (b : Nat) (rest : List Nat), List.Forall₂ (Kd c E u s.mem L) ks Ns → (∀ x ∈ Ns, WF c l x) →
    ∃ ps, relSubs c (c.BL + c.B * l) b (ks ++ rest) (psums b (Ns.map fun x => (els l x).length)) s = .ok s ps ∧ List.Forall₂ (PosR c E u s.mem L l) ps Ns
  | _, _, b, rest, .nil, _ => ⟨[], by cases rest <;> rfl, .nil⟩
  | q :: ks, x :: Ns, b, rest, .cons h1 h2, hw => by
    obtain ⟨ps, h5, h6⟩ := relSubs_ok hB (b + (els l x).length) rest h2 (fun y hy => hw y (List.mem_cons_of_mem _ hy))
    have hwx := hw x List.mem_cons_self
    refine ⟨(q, kidSh c (c.BL + c.B * l) (els l x).length x) :: ps, ?_, .cons ⟨kidSh_fits hB hwx rfl, (kidSh_sub hB hwx).sub, h1.1, .inl h1.2⟩ h6⟩
    simp only [List.map_cons, psums, List.cons_append, relSubs, Nat.add_sub_cancel_left]
    rw [bind_ok (kidRel_den hB h1.1.den hwx), bind_ok h5]
    rfl

theorem kidFull_fits (hB : 0 < c.B) (hf : Full c l x) : RFits c l (.reg (Shp.kidFull c (c.BL + c.B * l))) x ∧ SubPos ((RShp.reg (Shp.kidFull c (c.BL + c.B * l))).pos x) := by
  have h1 : (RShp.reg (Shp.kidFull c (c.BL + c.B * l))).pos x = Pos.kidFull c (c.BL + c.B * l) x := pos_kidFull _ _
  refine ⟨?_, by rw [h1]; exact kidFull_sub _ _⟩
  unfold RFits
  rw [h1]
  exact kidFull_ok hB hf

theorem kidRegSub_fits (hB : 0 < c.B) (hr : Reg c l x) (hn : n = (els l x).length) : RFits c l (.reg (kidRegSub c (c.BL + c.B * l) n)) x ∧ LeftPos ((RShp.reg (kidRegSub c (c.BL + c.B * l) n)).pos x) := by
  have h1 : (RShp.reg (kidRegSub c (c.BL + c.B * l) n)).pos x = Pos.kidRegSub c (c.BL + c.B * l) n x := (pos_kidRegSub _ _ _).symm
  refine ⟨?_, by rw [h1]; exact kidRegSub_left _ _ _⟩
  unfold RFits
  rw [h1]
  exact kidRegSub_ok hB hr hn

theorem fulls_fits (hB : 0 < c.B) (hf : ∀ x ∈ Ns, Full c l x) : List.Forall₂ (fun sh x => RFits c l (.reg sh) x ∧ SubPos ((RShp.reg sh).pos x)) (List.replicate Ns.length (Shp.kidFull c (c.BL + c.B * l))) Ns := by
  induction Ns with
  | nil => exact .nil
  | cons x Ns ih => exact .cons (kidFull_fits hB (hf x List.mem_cons_self)) (ih fun y hy => hf y (List.mem_cons_of_mem _ hy))

/-- a regular position with its exact size -/
theorem RFits.regSub (h : RFits c (l + 1) (.reg (.regSub i n)) N) : ∃ ds e, N = .inner none (ds ++ [e]) ∧ i = c.BL + c.B * l ∧ (∀ d ∈ ds, Full c l d) ∧ Reg c l e ∧
    n = ds.length * Rrb.cap c l + (els l e).length ∧ (Shp.regSub i n).count c = ds.length + 1 ∧ n = (els (l + 1) N).length ∧ Reg c (l + 1) N := by
  have h' : PosOK c (l + 1) (.regSub N i n) (els (l + 1) N) := h
  obtain ⟨rfl, hr, -, hn⟩ := h'
  obtain ⟨ds, e, rfl, hl, hd, he, hels, hlen⟩ := hr.decomp
  refine ⟨ds, e, rfl, rfl, hd, he, by rw [← hlen, hn], ?_, hn, hr⟩
  have := count_regSub (c := c) (l := els (l + 1) (.inner none (ds ++ [e]))) h
  exact this

theorem RFits.full (h : RFits c (l + 1) (.reg (.full i)) N) : ∃ Ns, N = .inner none Ns ∧ i = c.BL + c.B * l ∧ Ns.length = 2 ^ c.B ∧ ∀ d ∈ Ns, Full c l d := by
  have h' : PosOK c (l + 1) (.full N i) (els (l + 1) N) := h
  obtain ⟨rfl, hr, -⟩ := h'
  cases N with
  | leaf => cases hr
  | inner r Ns => cases r with
    | some _ => cases hr
    | none => exact ⟨Ns, rfl, rfl, hr.1, hr.2⟩

theorem forall₂_snoc {α β : Type} {P : α → β → Prop} {as : List α} {bs : List β} {b : β} (h : List.Forall₂ P as (bs ++ [b])) : ∃ as' a, as = as' ++ [a] ∧ List.Forall₂ P as' bs ∧ P a b := by
  induction bs generalizing as with
  | nil =>
    cases h with
    | cons h1 h2 => cases h2; exact ⟨[], _, rfl, .nil, h1⟩
  | cons b' bs ih =>
    cases h with
    | cons h1 h2 =>
      obtain ⟨as', a, rfl, h3, h4⟩ := ih h2
      exact ⟨_ :: as', a, rfl, .cons h1 h3, h4⟩

/-- `last_sub` -/
theorem lastSub_ok (hB : 0 < c.B) (h : Inv (sys c E u) s.mem O L) (hf : RFits c (l + 1) sh (.inner rs (cs ++ [x]))) (hp : LeftPos (sh.pos (.inner rs (cs ++ [x]))))
    (ha : At (sys c E u) s.mem L p (.node (.inner rs (cs ++ [x])))) :
    ∃ q, lastSub c p sh s = .ok s q ∧ PosR c E u s.mem L l q x ∧ LeftPos (q.2.pos x) := by
  obtain ⟨ks, hks, hkid, hk⟩ := kids_of h ha
  obtain ⟨ks', q, rfl, hk1, hk2⟩ := forall₂_snoc hk
  have hl := hk1.length_eq
  match sh, hf, hp with
  | .reg (.regSub i n), hf, _ =>
    obtain ⟨ds, e, h1, rfl, hd, he, hn, hcnt, -, -⟩ := hf.regSub
    simp only [Node.inner.injEq] at h1
    obtain ⟨rfl, h1⟩ := h1
    obtain ⟨rfl, rfl⟩ : cs = ds ∧ x = e := by simpa using List.append_inj' h1 rfl
    have hq : kid p ((Shp.regSub (c.BL + c.B * l) n).count c - 1) s = .ok s q := hkid _ _ (by rw [hcnt, Nat.add_sub_cancel, ← hl]; simp)
    have hfit := kidRegSub_fits hB he (n := n - (((Shp.regSub (c.BL + c.B * l) n).count c - 1) <<< (c.BL + c.B * l))) (by
      rw [hcnt, Nat.add_sub_cancel, Nat.shiftLeft_eq, hn]
      simp only [Rrb.cap]; omega)
    unfold lastSub
    simp only
    rw [bind_ok hq]
    exact ⟨_, rfl, ⟨hfit.1, hfit.2.sub, hk2.1, .inl hk2.2⟩, hfit.2⟩
  | .rel i sz, hf, _ =>
    obtain ⟨Ns, h1, rfl, -, -, hw, rfl⟩ := hf.rel
    simp only [Node.inner.injEq] at h1
    obtain ⟨rfl, rfl⟩ := h1
    have e1 : (psums 0 ((cs ++ [x]).map (fun x => (els l x).length))).length - 1 = cs.length := by
      rw [psums_length]; simp
    have hx : (cs ++ [x])[cs.length]? = some x := by simp
    have hwx := hw x (by simp)
    have hz : (RShp.rel (c.BL + c.B * l) (psums 0 ((cs ++ [x]).map (fun x => (els l x).length)))).sizeAt cs.length = some (els l x).length := by
      rw [← rpos_sizeAt _ (.leaf [] : Node T)]
      exact sizeAt_rel (n := .leaf []) hx
    unfold lastSub
    simp only
    rw [e1, bind_ok (hkid _ q (by rw [← hl]; simp)), bind_ok (liftO_eq hz), bind_ok (kidRel_den hB hk2.1.den hwx)]
    exact ⟨_, rfl, ⟨kidSh_fits hB hwx rfl, (kidSh_sub hB hwx).sub, hk2.1, .inl hk2.2⟩, kidSh_sub hB hwx⟩

/-- `each_left_sub` -/
theorem eachLeftSub_ok (hB : 0 < c.B) (h : Inv (sys c E u) s.mem O L) (hf : RFits c (l + 1) sh (.inner rs (cs ++ [x]))) (hp : LeftPos (sh.pos (.inner rs (cs ++ [x]))))
    (ha : At (sys c E u) s.mem L p (.node (.inner rs (cs ++ [x])))) :
    ∃ ps, eachLeftSub c p sh s = .ok s ps ∧ List.Forall₂ (PosR c E u s.mem L l) ps cs := by
  obtain ⟨ks, hks, hkid, hk⟩ := kids_of h ha
  obtain ⟨ks', q, rfl, hk1, hk2⟩ := forall₂_snoc hk
  match sh, hf, hp with
  | .reg (.regSub i n), hf, _ =>
    obtain ⟨ds, e, h1, rfl, hd, he, hn, hcnt, -, -⟩ := hf.regSub
    simp only [Node.inner.injEq] at h1
    obtain ⟨rfl, h1⟩ := h1
    obtain ⟨rfl, rfl⟩ : cs = ds ∧ x = e := by simpa using List.append_inj' h1 rfl
    obtain ⟨ps, h2, h3⟩ := pairUp_ok [q] hk1 (fulls_fits hB hd)
    refine ⟨ps, ?_, h3⟩
    unfold eachLeftSub
    simp only
    rw [bind_ok (liftO_eq (b := List.replicate cs.length (Shp.kidFull c (c.BL + c.B * l))) (by
      simp only [eachLeft, hcnt]; rw [if_pos (by omega)]; rfl)), bind_ok hks]
    exact liftO_eq h2
  | .rel i sz, hf, _ =>
    obtain ⟨Ns, h1, rfl, -, -, hw, rfl⟩ := hf.rel
    simp only [Node.inner.injEq] at h1
    obtain ⟨rfl, rfl⟩ := h1
    obtain ⟨ps, h2, h3⟩ := relSubs_ok (s := s) hB 0 [q] hk1 (fun y hy => hw y (by simp [hy]))
    refine ⟨ps, ?_, h3⟩
    have e1 : (psums 0 ((cs ++ [x]).map (fun x => (els l x).length))).length - 1 = cs.length := by
      rw [psums_length]; simp
    have e2 : slice (psums 0 ((cs ++ [x]).map (fun x => (els l x).length))) 0 cs.length = some (psums 0 (cs.map (fun x => (els l x).length))) := by
      rw [slice_zero (by rw [psums_length]; simp), psums_take]
      congr 2
      simp
    unfold eachLeftSub
    simp only
    rw [e1, bind_ok (liftO_eq e2), bind_ok hks]
    exact h2

/-- `first_sub` -/
theorem firstSub_ok (hB : 0 < c.B) (h : Inv (sys c E u) s.mem O L) (hf : RFits c (l + 1) sh (.inner rs (x :: cs))) (hp : SubPos (sh.pos (.inner rs (x :: cs))))
    (ha : At (sys c E u) s.mem L p (.node (.inner rs (x :: cs)))) :
    ∃ q, firstSub c p sh s = .ok s q ∧ PosR c E u s.mem L l q x := by
  obtain ⟨ks, hks, hkid, hk⟩ := kids_of h ha
  cases hk with
  | @cons q _ ks _ hk1 hk2 =>
  have hq := hkid 0 q rfl
  match sh, hf with
  | .reg (.reg i n), hf => exact hp.elim
  | .reg (.regSub i n), hf =>
    obtain ⟨ds, e, h1, rfl, hd, he, hn, hcnt, -, -⟩ := hf.regSub
    simp only [Node.inner.injEq] at h1
    obtain ⟨rfl, h1⟩ := h1
    unfold firstSub
    simp only
    rw [bind_ok hq]
    cases ds with
    | nil =>
      simp at h1
      obtain ⟨rfl, rfl⟩ := h1
      simp only [List.length_nil, Nat.zero_mul, Nat.zero_add] at hn
      split
      · rename_i hge
        have hfu : Full c l x := he.full_of_len (by
          rw [hn, Nat.shiftLeft_eq] at hge; have := he.len.2.1; simp only [Rrb.cap] at this ⊢; omega)
        exact ⟨_, rfl, (kidFull_fits hB hfu).1, (kidFull_fits hB hfu).2, hk1.1, .inl hk1.2⟩
      · have hfit := kidRegSub_fits hB he hn
        exact ⟨_, rfl, hfit.1, hfit.2.sub, hk1.1, .inl hk1.2⟩
    | cons d ds =>
      simp at h1
      obtain ⟨rfl, rfl⟩ := h1
      rw [if_pos]
      · have hfit := kidFull_fits hB (hd x (by simp))
        exact ⟨_, rfl, hfit.1, hfit.2, hk1.1, .inl hk1.2⟩
      · rw [hn, Nat.shiftLeft_eq]
        simp only [List.length_cons, Nat.add_mul, Rrb.cap]; omega
  | .reg (.full i), hf =>
    obtain ⟨Ns, h1, rfl, hl, hd⟩ := hf.full
    simp only [Node.inner.injEq] at h1
    obtain ⟨rfl, rfl⟩ := h1
    unfold firstSub
    simp only
    rw [bind_ok hq]
    have hfit := kidFull_fits hB (hd x (by simp))
    exact ⟨_, rfl, hfit.1, hfit.2, hk1.1, .inl hk1.2⟩
  | .rel i sz, hf =>
    obtain ⟨Ns, h1, rfl, -, -, hw, rfl⟩ := hf.rel
    simp only [Node.inner.injEq] at h1
    obtain ⟨rfl, rfl⟩ := h1
    have hwx := hw x (by simp)
    unfold firstSub
    simp only
    rw [bind_ok hq, bind_ok (liftO_eq (b := (els l x).length) (by simp [psums])), bind_ok (kidRel_den hB hk1.1.den hwx)]
    exact ⟨_, rfl, kidSh_fits hB hwx rfl, (kidSh_sub hB hwx).sub, hk1.1, .inl hk1.2⟩

/-- `first_sub_leaf` -/
theorem firstSubLeaf_ok (h : Inv (sys c E u) s.mem O L) (hf : RFits c 1 sh (.inner rs (x :: cs))) (hp : SubPos (sh.pos (.inner rs (x :: cs))))
    (ha : At (sys c E u) s.mem L p (.node (.inner rs (x :: cs)))) :
    ∃ q, firstSubLeaf c p sh s = .ok s q ∧ PosR c E u s.mem L 0 q x := by
  obtain ⟨ks, hks, hkid, hk⟩ := kids_of h ha
  cases hk with
  | @cons q _ ks _ hk1 hk2 =>
  have hq := hkid 0 q rfl
  have hleaf : Full c 0 x → RFits c 0 (.reg .fullLeaf) x := by
    intro hx
    match x, hx with
    | .leaf xs, hx => exact ⟨rfl, hx⟩
  match sh, hf with
  | .reg (.reg i n), hf => exact hp.elim
  | .reg (.regSub i n), hf =>
    obtain ⟨ds, e, h1, rfl, hd, he, hn, hcnt, hn', hr⟩ := hf.regSub
    have hge : 2 ^ c.BL ≤ n := by
      have hd2 := Reg.len hr
      rw [hn']
      exact Nat.le_of_dvd hd2.1 hd2.2.2
    simp only [Node.inner.injEq] at h1
    obtain ⟨rfl, h1⟩ := h1
    have hx : Full c 0 x := by
      cases ds with
      | nil => simp at h1; rw [h1.1]; match e, he with | .leaf xs, he => exact he
      | cons d ds => simp at h1; rw [h1.1]; exact hd d (by simp)
    unfold firstSubLeaf
    simp only
    rw [bind_ok hq, if_pos hge]
    exact ⟨_, rfl, hleaf hx, trivial, hk1.1, .inl hk1.2⟩
  | .reg (.full i), hf =>
    obtain ⟨Ns, h1, rfl, hl, hd⟩ := hf.full
    simp only [Node.inner.injEq] at h1
    obtain ⟨rfl, rfl⟩ := h1
    unfold firstSubLeaf
    simp only
    rw [bind_ok hq]
    exact ⟨_, rfl, hleaf (hd x (by simp)), trivial, hk1.1, .inl hk1.2⟩
  | .rel i sz, hf =>
    obtain ⟨Ns, h1, rfl, -, -, hw, rfl⟩ := hf.rel
    simp only [Node.inner.injEq] at h1
    obtain ⟨rfl, rfl⟩ := h1
    have hwx := hw x (by simp)
    unfold firstSubLeaf
    simp only
    rw [bind_ok hq, bind_ok (liftO_eq (b := (els 0 x).length) (by simp [psums]))]
    refine ⟨_, rfl, ?_, trivial, hk1.1, .inl hk1.2⟩
    match x, hwx with
    | .leaf xs, hx => exact ⟨rfl, rfl, hx.1, hx.2⟩

/-- `each_right_sub` -/
theorem eachRightSub_ok (hB : 0 < c.B) (h : Inv (sys c E u) s.mem O L) (hf : RFits c (l + 1) sh (.inner rs (x :: cs))) (hp : SubPos (sh.pos (.inner rs (x :: cs))))
    (h32 : (els (l + 1) (.inner rs (x :: cs))).length ≤ 2 ^ 32) (hs32 : c.BL + c.B * l < 32) (ha : At (sys c E u) s.mem L p (.node (.inner rs (x :: cs)))) :
    ∃ ps, eachRightSub c p sh s = .ok s ps ∧ List.Forall₂ (PosR c E u s.mem L l) ps cs := by
  obtain ⟨ks, hks, hkid, hk⟩ := kids_of h ha
  cases hk with
  | @cons q _ ks _ hk1 hk2 =>
  match sh, hf with
  | .reg (.reg i n), hf => exact hp.elim
  | .reg (.regSub i n), hf =>
    obtain ⟨ds, e, h1, rfl, hd, he, hn, hcnt, hn', hr⟩ := hf.regSub
    rw [← hn'] at h32
    simp only [Node.inner.injEq] at h1
    obtain ⟨rfl, h1⟩ := h1
    unfold eachRightSub
    simp only
    rw [hcnt]
    cases ds with
    | nil =>
      simp at h1
      obtain ⟨rfl, rfl⟩ := h1
      rw [if_neg (by simp)]
      exact ⟨[], rfl, .nil⟩
    | cons d ds =>
      simp at h1
      obtain ⟨rfl, rfl⟩ := h1
      rw [if_pos (by simp)]
      have hpos := he.len.1
      have hsh : Pos.shl32 (ds.length + 1) (c.BL + c.B * l) = some ((ds.length + 1) * Rrb.cap c l) := by
        rw [Pos.shl32, if_pos hs32, Nat.shiftLeft_eq, Nat.mod_eq_of_lt]
        · rfl
        · have : (ds.length + 1) * Rrb.cap c l = (ds.length + 1) * 2 ^ (c.BL + c.B * l) := rfl
          simp only [List.length_cons] at hn
          omega
      simp only [List.length_cons, Nat.add_sub_cancel]
      rw [bind_ok (liftO_eq hsh), bind_ok hks]
      have hfit := kidRegSub_fits hB he (n := n - (ds.length + 1) * Rrb.cap c l) (by rw [hn]; simp)
      obtain ⟨ps, h2, h3⟩ := pairUp_ok (shs := List.replicate ds.length (Shp.kidFull c (c.BL + c.B * l)) ++ [kidRegSub c (c.BL + c.B * l) (n - (ds.length + 1) * Rrb.cap c l)]) [] hk2
        (List.rel_append (fulls_fits hB (fun y hy => hd y (by simp [hy]))) (.cons ⟨hfit.1, hfit.2.sub⟩ .nil))
      rw [List.append_nil] at h2
      exact ⟨ps, liftO_eq h2, h3⟩
  | .reg (.full i), hf =>
    obtain ⟨Ns, h1, rfl, hl, hd⟩ := hf.full
    simp only [Node.inner.injEq] at h1
    obtain ⟨rfl, rfl⟩ := h1
    unfold eachRightSub
    simp only
    rw [bind_ok hks, ← hl]
    simp only [List.length_cons, Nat.add_sub_cancel, List.drop_succ_cons, List.drop_zero]
    obtain ⟨ps, h2, h3⟩ := pairUp_ok [] hk2 (fulls_fits hB (fun y hy => hd y (by simp [hy])))
    rw [List.append_nil] at h2
    exact ⟨ps, liftO_eq h2, h3⟩
  | .rel i sz, hf =>
    obtain ⟨Ns, h1, rfl, -, -, hw, rfl⟩ := hf.rel
    simp only [Node.inner.injEq] at h1
    obtain ⟨rfl, rfl⟩ := h1
    obtain ⟨ps, h2, h3⟩ := relSubs_ok (s := s) hB (els l x).length [] hk2 (fun y hy => hw y (by simp [hy]))
    rw [List.append_nil] at h2
    unfold eachRightSub
    simp only
    rw [if_pos (by rw [psums_length]; simp), bind_ok (liftO_eq (b := (els l x).length) (by
      rw [szBefore_psums _ _ (by simp)]; simp)), bind_ok hks]
    simp only [List.map_cons, psums, List.drop_succ_cons, List.drop_zero, Nat.zero_add]
    exact ⟨ps, h2, h3⟩

end
end FlexHeap
