import Verif.FlexHeap.Model
import Verif.VecHeap.Build
import Verif.VecHeap.Steps
import Verif.Rrb.FlexSpec

/-!
# Positions of relaxed nodes, and how they are read from memory
-/

namespace FlexHeap
open Mm Rrb VecHeap

variable {T : Type} {c : Cfg} {L k idx s size : Nat} {sh : RShp} {N x : Node T} {Ns : List (Node T)} {sz : List Nat}

theorem rpos_count (sh : RShp) (N : Node T) : (sh.pos N).count c = sh.count c := by
  cases sh with
  | reg sh => cases sh <;> rfl
  | rel => rfl
theorem rpos_shift (sh : RShp) (N : Node T) : (sh.pos N).shift = sh.shift := by
  cases sh with
  | reg sh => cases sh <;> rfl
  | rel => rfl
theorem rpos_size (sh : RShp) (N : Node T) : (sh.pos N).size c = sh.size c := by
  cases sh with
  | reg sh => cases sh <;> rfl
  | rel => rfl
theorem rpos_index (sh : RShp) (N : Node T) (i : Nat) : (sh.pos N).index c i = sh.index c i := by
  cases sh with
  | reg sh => cases sh <;> rfl
  | rel => rfl
theorem rpos_subindex (sh : RShp) (N : Node T) (i : Nat) : (sh.pos N).subindex i = sh.subindex i := by
  cases sh with
  | reg sh => cases sh <;> rfl
  | rel => rfl
theorem rpos_sizeBefore (sh : RShp) (N : Node T) (i : Nat) : (sh.pos N).sizeBefore i = sh.sizeBefore i := by
  cases sh with
  | reg sh => cases sh <;> rfl
  | rel => rfl
theorem rpos_sizeAt (sh : RShp) (N : Node T) (i : Nat) : (sh.pos N).sizeAt i = sh.sizeAt i := by
  cases sh with
  | reg sh => cases sh <;> rfl
  | rel => rfl
theorem rpos_copySizes (sh : RShp) (N : Node T) (a b i : Nat) : Rrb.copySizes (sh.pos N) a b i = sh.copySizes a b i := by
  cases sh with
  | reg sh => cases sh <;> rfl
  | rel => rfl
theorem rpos_node (sh : RShp) (N : Node T) : (sh.pos N).node = N := by
  cases sh with
  | reg sh => cases sh <;> rfl
  | rel => rfl

/-- the position describes the node -/
def RFits (c : Cfg) (L : Nat) (sh : RShp) (N : Node T) : Prop := PosOK c L (sh.pos N) (els L N)

theorem RFits.rel (h : RFits c (L + 1) (.rel s sz) N) : ∃ Ns, N = .inner (some sz) Ns ∧ s = c.BL + c.B * L ∧ Ns ≠ [] ∧ Ns.length ≤ 2 ^ c.B ∧ (∀ x ∈ Ns, WF c L x) ∧
    sz = psums 0 (Ns.map (fun x => (els L x).length)) := by
  obtain ⟨h1, h2, _, cs, rfl⟩ := h
  obtain ⟨h3, h4, h5, h6⟩ := h2
  exact ⟨cs, rfl, h1, h3, h4, h5, h6⟩

theorem RFits.rel0 (h : RFits c 0 (.rel s sz) N) : False := h

theorem RFits.of (h2 : Ns ≠ []) (h3 : Ns.length ≤ 2 ^ c.B) (h4 : ∀ x ∈ Ns, WF c L x) (h5 : sz = psums 0 (Ns.map (fun x => (els L x).length))) :
    RFits c (L + 1) (.rel (c.BL + c.B * L) sz) (.inner (some sz) Ns) :=
  ⟨rfl, ⟨h2, h3, h4, h5⟩, rfl, Ns, rfl⟩

theorem RFits.wf (h : RFits c L sh N) : WF c L N := by
  have h' : PosOK c L (sh.pos N) (els L N) := h
  cases L with
  | zero =>
    obtain ⟨h1, h2, h3, h4, _⟩ := PosOK.leaf h'
    rw [rpos_node] at h1
    rw [h1]
    exact ⟨h3, h4⟩
  | succ L =>
    cases sh with
    | rel => exact h'.2.1
    | reg sh =>
      cases sh with
      | reg => exact Reg.wf h'.2.1
      | regSub => exact Reg.wf h'.2.1
      | full => exact Reg.wf (Full.reg h'.2.1)
      | leaf => exact h'.elim
      | leafSub => exact h'.elim
      | fullLeaf => exact h'.elim

/-- the position that `visit_maybe_relaxed_sub` makes -/
def subSh (s size : Nat) : Node T → RShp
  | .inner (some sz) _ => .rel s sz
  | _ => .reg (.regSub s size)

/-- the position of a child of a relaxed node -/
def kidSh (c : Cfg) (s size : Nat) (x : Node T) : RShp := if s = c.BL then .reg (.leafSub size) else subSh (s - c.B) size x

theorem subSh_pos {q : Pos T} (h : Pos.maybeRelaxedSub x s size = some q) : q = (subSh s size x).pos x := by
  match x, h with
  | .inner (some sz) cs, h => cases h; rfl
  | .inner none cs, h => cases h; rfl

theorem kidSh_pos {q : Pos T} (h : Pos.kidRel c s size x = some q) : q = (kidSh c s size x).pos x := by
  unfold Pos.kidRel at h
  unfold kidSh
  split
  · rename_i h1
    rw [if_pos h1] at h
    cases h; rfl
  · rename_i h1
    rw [if_neg h1] at h
    exact subSh_pos h

theorem subSh_fits (hw : WF c (L + 1) x) (hs : size = (els (L + 1) x).length) : RFits c (L + 1) (subSh (c.BL + c.B * L) size x) x := by
  obtain ⟨q, h1, h2, _⟩ := maybeRelaxedSub_ok hw hs
  rw [subSh_pos h1] at h2
  exact h2

theorem kidSh_fits (hB : 0 < c.B) (hw : WF c L x) (hs : size = (els L x).length) : RFits c L (kidSh c (c.BL + c.B * L) size x) x := by
  obtain ⟨q, h1, h2⟩ := kidRel_ok hB hw hs
  rw [kidSh_pos h1] at h2
  exact h2.1

theorem kidRel_kidSh (hB : 0 < c.B) (hw : WF c L x) (hs : size = (els L x).length) : Pos.kidRel c (c.BL + c.B * L) size x = some ((kidSh c (c.BL + c.B * L) size x).pos x) := by
  obtain ⟨q, h1, h2⟩ := kidRel_ok hB hw hs
  rw [h1, kidSh_pos h1]

/-! ### What nodes look like in memory -/

section
variable {gc : Bool} {d : Dat} {es : List (Slot T)} {vs : List (Val T)} {rs : Option (List Nat)}

theorem okD_innerG (h : okD c gc d es vs (.node (.inner rs Ns))) : ∃ cap r ks, d = .inner cap r ks ∧ es = [] ∧ (gc = false → cap = 2 ^ c.B) ∧
    ks.length ≤ cap ∧ ks.length = Ns.length ∧ r.isSome = rs.isSome ∧ vs = rs.toList.map Val.table ++ Ns.map Val.node := by
  cases d with
  | leaf => obtain ⟨_, _, _, _, h⟩ := h; cases h
  | inner cap r ks =>
    obtain ⟨h1, h2, h3, rs, Ns', h4, h5, h6, h7⟩ := h
    cases h4
    exact ⟨cap, r, ks, rfl, h1, h2, h3, h5, h6, h7⟩
  | table => obtain ⟨_, _, _, _, h⟩ := h; cases h

theorem okD_table (h : okD c gc d es vs (.table sz)) : ∃ cap, d = .table cap sz ∧ es = [] ∧ (gc = false → cap = 2 ^ c.B) ∧ sz.length ≤ cap ∧ vs = [] := by
  cases d with
  | leaf => obtain ⟨_, _, _, _, h⟩ := h; cases h
  | inner => obtain ⟨_, _, _, _, _, h, _⟩ := h; cases h
  | table cap sz' =>
    obtain ⟨h1, h2, h3, h4, h5⟩ := h
    cases h5
    exact ⟨cap, rfl, h1, h2, h3, h4⟩

/-- the references of a relaxed node -/
theorem okD_innerR {Lo : List (Ref (Val T))} (h : okD c gc d es (Lo.map Ref.val) (.node (.inner (some sz) Ns))) (ho : outsD d = Lo.map Ref.ptr) :
    ∃ (cap : Nat) (tr : Ref (Val T)) (Lc : List (Ref (Val T))), Lo = tr :: Lc ∧ d = .inner cap (some tr.ptr) (Lc.map Ref.ptr) ∧ es = [] ∧ (gc = false → cap = 2 ^ c.B) ∧ Lc.length ≤ cap ∧
      tr.val = .table sz ∧ Lc.map Ref.val = Ns.map Val.node := by
  obtain ⟨cap, r, ks, rfl, h1, h2, h3, h4, h5, h6⟩ := okD_innerG h
  cases r with
  | none => cases h5
  | some t =>
    cases Lo with
    | nil => cases ho
    | cons tr Lc =>
      simp only [outsD, Option.toList_some, List.cons_append, List.nil_append, List.map_cons, List.cons.injEq] at ho h6
      obtain ⟨rfl, rfl⟩ := ho
      refine ⟨cap, tr, Lc, rfl, rfl, h1, h2, by simpa using h3, h6.1, h6.2⟩

theorem okD_innerR' {cap t : Nat} {ks : List Nat} (h1 : gc = false → cap = 2 ^ c.B) (h2 : ks.length ≤ cap) (h3 : ks.length = Ns.length) :
    okD c gc (.inner cap (some t) ks) ([] : List (Slot T)) (Val.table sz :: Ns.map Val.node) (.node (.inner (some sz) Ns)) :=
  ⟨rfl, h1, h2, some sz, Ns, rfl, h3, rfl, rfl⟩

theorem okD_table' {cap : Nat} (h1 : gc = false → cap = 2 ^ c.B) (h2 : sz.length ≤ cap) : okD c gc (.table cap sz) ([] : List (Slot T)) [] (.table sz) :=
  ⟨rfl, h1, h2, rfl, rfl⟩

end

variable {E : Env Dat T} {u : Toks E.gc} {st : St Dat T} {p q t : Nat} {rs : Option (List Nat)}

theorem sizesOf_eq {ct : Cell Dat T} {cap : Nat} (hc : st.mem t = some ct) (hd : ct.data = .table cap sz) : sizesOf (T := T) t st = .ok st sz := by
  unfold sizesOf
  rw [bind_ok (cell_eq hc), hd]; rfl

theorem tableOf_eq {cl : Cell Dat T} {cap : Nat} {r : Option Nat} {ks : List Nat} (hc : st.mem p = some cl) (hd : cl.data = .inner cap r ks) : tableOf (T := T) p st = .ok st r := by
  unfold tableOf
  rw [bind_ok (cell_eq hc), hd]; rfl

theorem theTable_eq {cl : Cell Dat T} {cap : Nat} {ks : List Nat} (hc : st.mem p = some cl) (hd : cl.data = .inner cap (some t) ks) : theTable (T := T) p st = .ok st t := by
  unfold theTable
  rw [bind_ok (tableOf_eq hc hd)]; rfl

theorem setTable_eq {cl : Cell Dat T} {cap : Nat} {r r' : Option Nat} {ks : List Nat} (hc : st.mem p = some cl) (hd : cl.data = .inner cap r ks) :
    setTable (T := T) p r' st = .ok { st with mem := upd st.mem p (some { cl with data := .inner cap r' ks }) } () := by
  unfold setTable
  rw [bind_ok (cell_eq hc), hd]
  exact modify_eq hc

theorem setSizes_eq {ct : Cell Dat T} {cap : Nat} {ss ss' : List Nat} (hc : st.mem t = some ct) (hd : ct.data = .table cap ss) (hl : ss'.length ≤ cap) :
    setSizes (T := T) t ss' st = .ok { st with mem := upd st.mem t (some { ct with data := .table cap ss' }) } () := by
  unfold setSizes
  rw [bind_ok (cell_eq hc), hd]
  simp only
  rw [if_pos hl]
  exact modify_eq hc

theorem den_table (h : Den (sys c E u) st.mem t (.table sz)) : ∃ ct cap, st.mem t = some ct ∧ ct.data = .table cap sz := by
  obtain ⟨ct, g, hc, hok, _⟩ := h.cell
  obtain ⟨cap, hd, _⟩ := okD_table hok
  exact ⟨ct, cap, hc, hd⟩

theorem sizesOf_den (h : Den (sys c E u) st.mem t (.table sz)) : sizesOf (T := T) t st = .ok st sz := by
  obtain ⟨ct, cap, hc, hd⟩ := den_table h
  exact sizesOf_eq hc hd

theorem den_inner (h : Den (sys c E u) st.mem p (.node (.inner rs Ns))) : ∃ (cl : Cell Dat T) (cap : Nat) (r : Option Nat) (ks : List Nat), st.mem p = some cl ∧ cl.data = .inner cap r ks ∧
    ks.length = Ns.length ∧ r.isSome = rs.isSome ∧ (∀ t ∈ r, ∀ sz ∈ rs, Den (sys c E u) st.mem t (.table sz)) ∧
    ∀ (k : Nat) (x : Node T), Ns[k]? = some x → ∃ q, ks[k]? = some q ∧ Den (sys c E u) st.mem q (.node x) := by
  obtain ⟨cl, g, hc, hok, hk⟩ := h.cell
  obtain ⟨cap, r, ks, hd, _, _, _, h4, h5, h6⟩ := okD_innerG hok
  have hk : ∀ o ∈ outsD cl.data, Den (sys c E u) st.mem o (g o) := hk
  have h6 : (outsD cl.data).map g = _ := h6
  rw [hd] at hk h6
  simp only [outsD] at hk h6
  refine ⟨cl, cap, r, ks, hc, hd, h4, h5, ?_, ?_⟩
  · intro t ht sz hsz
    cases ht
    cases hsz
    simp only [Option.toList_some, List.map_append, List.map_cons, List.map_nil, List.cons_append, List.nil_append, List.cons.injEq] at h6
    have := hk t (by simp)
    rwa [h6.1] at this
  · intro k x hx
    have h7 : ks.map g = Ns.map Val.node := by
      cases r with
      | none => cases rs with
        | none => exact h6
        | some => cases h5
      | some t => cases rs with
        | none => cases h5
        | some sz =>
          simp only [Option.toList_some, List.map_append, List.map_cons, List.map_nil, List.cons_append, List.nil_append, List.cons.injEq] at h6
          exact h6.2
    have h8 := congrArg (fun l => l[k]?) h7
    simp only [List.getElem?_map, hx, Option.map_some, Option.map_eq_some_iff] at h8
    obtain ⟨q, hq, hgq⟩ := h8
    refine ⟨q, hq, ?_⟩
    have := hk q (List.mem_append_right _ (List.mem_of_getElem? hq))
    rwa [hgq] at this

theorem maybeRel_den (h : Den (sys c E u) st.mem p (.node (.inner rs Ns))) : maybeRel (T := T) p s size st = .ok st (subSh s size (.inner rs Ns)) := by
  obtain ⟨cl, cap, r, ks, hc, hd, _, h5, h6, _⟩ := den_inner h
  unfold maybeRel
  rw [bind_ok (tableOf_eq hc hd)]
  cases r with
  | none => cases rs with
    | none => rfl
    | some => cases h5
  | some t => cases rs with
    | none => cases h5
    | some sz =>
      simp only
      rw [bind_ok (sizesOf_den (h6 t rfl sz rfl))]
      rfl

theorem wf_inner (hw : WF c (L + 1) x) : ∃ rs Ns, x = .inner rs Ns := by
  cases x with
  | leaf => cases hw
  | inner rs Ns => exact ⟨rs, Ns, rfl⟩

theorem maybeRel_wf (h : Den (sys c E u) st.mem p (.node x)) (hw : WF c (L + 1) x) : maybeRel (T := T) p s size st = .ok st (subSh s size x) := by
  obtain ⟨rs, Ns, rfl⟩ := wf_inner hw
  exact maybeRel_den h

/-- the position of a child, read from memory -/
theorem kidRel_den (hB : 0 < c.B) (h : Den (sys c E u) st.mem q (.node x)) (hw : WF c L x) : kidRel (T := T) c (c.BL + c.B * L) size q st = .ok st (kidSh c (c.BL + c.B * L) size x) := by
  unfold kidRel kidSh
  cases L with
  | zero => rw [if_pos (by simp), if_pos (by simp)]; rfl
  | succ L =>
    have hne : ¬ (c.BL + c.B * (L + 1) = c.BL) := by rw [shiftL hB]; omega
    rw [if_neg hne, if_neg hne]
    exact maybeRel_wf h hw

/-- going to a child of a relaxed node -/
theorem relTowards_eq (hB : 0 < c.B) {cl : Cell Dat T} {cap off : Nat} {r : Option Nat} {ks : List Nat} (hc : st.mem p = some cl) (hd : cl.data = .inner cap r ks) (hq : ks[off]? = some q)
    (hx : Ns[off]? = some x) (hw : WF c L x) (hden : Den (sys c E u) st.mem q (.node x)) (hsz : sz = psums 0 (Ns.map (fun x => (els L x).length))) :
    relTowards (T := T) c p (c.BL + c.B * L) sz idx off st = .ok st (q, kidSh c (c.BL + c.B * L) (els L x).length x, idx - before L Ns off) := by
  have hk := (List.getElem?_eq_some_iff.mp hx).1
  have h1 : Pos.szBefore sz off = some (before L Ns off) := by
    rw [hsz, szBefore_psums _ _ (by simp; omega), before_eq_sum]
  have h2 : sz[off]? = some (before L Ns off + (els L x).length) := by
    rw [hsz, psums_get _ _ _ (by simpa using hk), Nat.zero_add, ← before_eq_sum, before_succ L Ns off x hx]
  unfold relTowards
  rw [bind_ok (liftO_eq h1), bind_ok (liftO_eq h2), bind_ok (kid_eq hc hd hq), Nat.add_sub_cancel_left, bind_ok (kidRel_den hB hden hw)]
  rfl

/-- the same on values -/
theorem towardsOh_eq (hB : 0 < c.B) {off : Nat} (hx : Ns[off]? = some x) (hw : WF c L x) (hsz : sz = psums 0 (Ns.map (fun x => (els L x).length))) :
    Pos.towardsOh c (.rel (.inner (some sz) Ns) (c.BL + c.B * L) sz) idx off = some ((kidSh c (c.BL + c.B * L) (els L x).length x).pos x, idx - before L Ns off) := by
  have hk := (List.getElem?_eq_some_iff.mp hx).1
  have h1 : Pos.szBefore sz off = some (before L Ns off) := by
    rw [hsz, szBefore_psums _ _ (by simp; omega), before_eq_sum]
  have h2 : sz[off]? = some (before L Ns off + (els L x).length) := by
    rw [hsz, psums_get _ _ _ (by simpa using hk), Nat.zero_add, ← before_eq_sum, before_succ L Ns off x hx]
  simp only [Pos.towardsOh, Node.inner?, Option.bind_eq_bind, Option.bind_some, h1, Pos.relKid, hx, h2, Nat.add_sub_cancel_left, kidRel_kidSh hB hw rfl]

end FlexHeap
