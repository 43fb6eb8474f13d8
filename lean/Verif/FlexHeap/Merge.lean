import Verif.FlexHeap.Concat
import Verif.FlexHeap.Build
import Verif.FlexHeap.CalmConcat
import Verif.Rrb.ConcatTrees

/-!
# `concat_merger` on memory computes the one on values: parents
-/

namespace Mm
variable {D T V : Type} {S : Sys D T V} {m m' : Mem D T} {O : List Nat} {L L' : List (Ref V)} {p : Nat}

/-- a node that may get one more reference -/
def Sh (S : Sys D T V) (m : Mem D T) (L : List (Ref V)) (p : Nat) : Prop := Held S m L p ∨ ∃ r ∈ L, r.ptr = p ∧ r.uniq = false

theorem Sh.kept (h : Sh S m L p) (hk : Kept S O L m m') : Sh S m' L p := h.imp (fun h => h.kept hk) id

theorem Sh.mono (hL : ∀ r ∈ L, r ∈ L') (h : Sh S m L p) : Sh S m L' p :=
  h.imp (fun h => h.mono hL) fun ⟨r, h1, h2⟩ => ⟨r, hL r h1, h2⟩

theorem Inv.dupS (R : Ranked S) (h : Inv S m O L) {Li : List (Ref V)} (hi : ∀ x ∈ Li, x.uniq = false ∧ At S m L x.ptr x.val ∧ Sh S m L x.ptr) :
    Inv S (Mm.incs S.gc m (Li.map Ref.ptr)) O (Li ++ L) := by
  obtain ⟨A, J, g, hJ, h⟩ := h
  refine ⟨A, J, g, hJ, h.incs ?_ ?_ ?_⟩
  · intro x hx
    obtain ⟨_, h2, _⟩ := hi x hx
    exact ⟨h.reach h2.reach, h2.den.unique R (h.den h2.reach), h2.unowned⟩
  · exact fun x hx => (hi x hx).1
  · intro x hx y hy hyu he
    have h1 := h.uniq y hy hyu
    obtain ⟨_, _, ⟨a, c, ha, hc, ho⟩ | ⟨r, hr, hp, hu⟩⟩ := hi x hx
    · have h2 := ref_out (S := S) hy (h.reach ha) hc (he ▸ ho)
      omega
    · have h2 := two_refs (S := S) (m := m) (A := A) hy hr (fun hyr => by rw [hyr, hu] at hyu; cases hyu) (he.trans hp.symm)
      omega

end Mm

namespace FlexHeap
open Mm Rrb VecHeap

variable {T : Type} {c : Cfg} {E : Env Dat T} {u : Toks E.gc} {O : List Nat} {L : List (Ref (Val T))}

section
variable {s : St Dat T} {m m' : Mem Dat T} {p q n i t l e : Nat} {N : Node T} {Ns : List (Node T)} {ks sz ss : List Nat} {cl ct : Cell Dat T} {r tr : Ref (Val T)} {cap capT : Nat}
  {rel : Option Nat} {Lo : List (Ref (Val T))} {rs : Option (List Nat)}

theorem dupS_refs (h : Inv (sys c E u) m O L) {Lc : List (Ref (Val T))} (hx : ∀ x ∈ Lc, x.uniq = false ∧ At (sys c E u) m L x.ptr x.val ∧ Sh (sys c E u) m L x.ptr) :
    Inv (sys c E u) (incs E.gc m (Lc.map Ref.ptr)) O (Lc ++ L) ∧ Kept (sys c E u) O L m (incs E.gc m (Lc.map Ref.ptr)) ∧ (∀ x ∈ Lc, ∃ cl, m x.ptr = some cl) := by
  refine ⟨h.dupS (ranked c E u) hx, Kept.incs h _ ?_, ?_⟩
  · intro a ha
    obtain ⟨x, hxm, rfl⟩ := List.mem_map.mp ha
    exact h.reach_notin (hx x hxm).2.1.reach
  · intro x hxm
    exact h.reach_cell (hx x hxm).2.1.reach

theorem incS_ref {w : Val T} (h : Inv (sys c E u) s.mem O L) (ha : At (sys c E u) s.mem L p w) (hh : Sh (sys c E u) s.mem L p) (k : Nat) :
    Out (inc E p s) (fun s' _ => Inv (sys c E u) s'.mem O (⟨p, w, k, false⟩ :: L) ∧ Kept (sys c E u) O L s.mem s'.mem) (fun _ => False) := by
  obtain ⟨cl, hc⟩ := h.reach_cell ha.reach
  rw [inc_eq hc]
  obtain ⟨hi2, hk2, _⟩ := dupS_refs h (Lc := [⟨p, w, k, false⟩]) (by
    intro w hw
    rw [List.mem_singleton] at hw
    subst hw
    exact ⟨rfl, ha, hh⟩)
  exact ⟨hi2, hk2⟩

/-! ### Releasing lists of nodes -/

/-- `dec_visitor` on a relaxed node, with any number of children -/
theorem decRel_out (hB : 0 < c.B) (hr : r.val = .node (relOf l Ns)) (hw : ∀ x ∈ Ns, WF c l x) (h : Inv (sys c E u) s.mem O (r :: L)) :
    Out (decR c E (l + 1) r.ptr (.rel (c.BL + c.B * l) (psums 0 (Ns.map fun x => (els l x).length))) s) (fun s' _ => Gone c E u O L s.mem s'.mem) (fun _ => False) := by
  unfold decR
  refine dec_ref h ?_
  intro s1 cl Lo hg hc ho hok hi
  rw [hr] at hok
  obtain ⟨cap, tr, Lc, rfl, hd, he, hcap, hl, htr, hv⟩ := okD_innerR hok ho
  rw [hcap hg] at hd
  rw [bind_ok (kids_eq hc hd)]
  have hp : (tr :: Lc ++ L).Perm (Lc ++ tr :: L) := List.perm_middle.symm
  have hrel := relEach_out hB (fun s L r sh N a b h => decR_out hB l _ L s r sh N a b h) Lc Ns [] 0 s1 hv hw (hi.permL hp)
  rw [List.append_nil] at hrel
  refine out_bind hrel ?_
  intro s2 _ hg2
  have hc2 : s2.mem r.ptr = some cl := (hg2.2.2 r.ptr List.mem_cons_self).trans hc
  refine out_mono (delInnerR_rc hg hg2.1 hc2 hd he htr) ?_ (fun _ h => h)
  intro s3 _ hg3
  exact ⟨hg3.1, (Kept.tail (Kept.open hg2.2)).trans hg3.2⟩

theorem decAll_out {l : Nat} {P : RShp → Node T → Prop}
    (hP : ∀ (L : List (Ref (Val T))) (s : St Dat T) (r : Ref (Val T)) (sh : RShp) (N : Node T), r.val = .node N → P sh N → Inv (sys c E u) s.mem O (r :: L) →
      Out (decR c E l r.ptr sh s) (fun s' _ => Gone c E u O L s.mem s'.mem) (fun _ => False)) :
    ∀ (R : List (Ref (Val T))) (Ns : List (Node T)) (ps : List HPos) (s : St Dat T), R.map Ref.val = Ns.map Val.node → List.Forall₂ (fun (r : Ref (Val T)) (p : HPos) => p.1 = r.ptr) R ps →
      List.Forall₂ (fun (p : HPos) N => P p.2 N) ps Ns → Inv (sys c E u) s.mem O (R ++ L) →
      Out (decAll c E l ps s) (fun s' _ => Gone c E u O L s.mem s'.mem) (fun _ => False)
  | [], [], _, s, _, .nil, .nil, h => gone_of_eq h rfl
  | r :: R, N :: Ns, p :: ps, s, hv, .cons h1 h2, .cons h3 h4, h => by
    simp only [List.map_cons, List.cons.injEq] at hv
    unfold decAll
    rw [h1]
    refine out_bind (hP (R ++ L) s r p.2 N hv.1 h3 h) ?_
    intro s1 _ hg1
    refine out_mono (decAll_out hP R Ns ps s1 hv.2 h2 h4 hg1.1) ?_ (fun _ h => h)
    intro s2 _ hg2
    exact ⟨hg2.1, (hg1.2.mono (fun x hx => List.mem_append_right _ hx) (fun _ h => h)).trans hg2.2⟩

theorem relNodes_eq {k l : Nat} : ∀ (R : List (Ref (Val T))) (gs : List (List (Node T))) (_ : R.map Ref.val = gs.map fun g => Val.node (relOf l g)) (_ : ∀ r ∈ R, Den (sys c E u) s.mem r.ptr r.val),
    ∃ ps, relNodes k (R.map Ref.ptr) s = .ok s ps ∧ List.Forall₂ (fun (r : Ref (Val T)) (p : HPos) => p.1 = r.ptr) R ps ∧
      List.Forall₂ (fun (p : HPos) g => p.2 = .rel k (psums 0 (g.map fun x => (els l x).length))) ps gs
  | [], [], _, _ => ⟨[], rfl, .nil, .nil⟩
  | r :: R, g :: gs, hv, hd => by
    simp only [List.map_cons, List.cons.injEq] at hv
    obtain ⟨ps, h1, h2, h3⟩ := relNodes_eq (k := k) R gs hv.2 (fun x hx => hd x (List.mem_cons_of_mem _ hx))
    have hden := hd r List.mem_cons_self
    rw [hv.1] at hden
    obtain ⟨cl, cap, rr, ks, hc, hdt, _, hs, ht, _⟩ := den_inner hden
    cases rr with
    | none => cases hs
    | some t =>
      have hT := ht t rfl _ rfl
      refine ⟨(r.ptr, _) :: ps, ?_, .cons rfl h2, .cons rfl h3⟩
      unfold relNodes
      rw [List.map_cons]
      simp only
      rw [bind_ok (theTable_eq hc hdt), bind_ok (sizesOf_den hT), bind_ok h1]
      rfl

/-- releasing relaxed nodes -/
theorem dropRel_out (hB : 0 < c.B) {R : List (Ref (Val T))} {gs : List (List (Node T))} (hv : R.map Ref.val = gs.map fun g => Val.node (relOf l g)) (hw : ∀ g ∈ gs, ∀ x ∈ g, WF c l x)
    (h : Inv (sys c E u) s.mem O (R ++ L)) :
    Out (((relNodes (c.BL + c.B * l) (R.map Ref.ptr)).bind fun ps => decAll c E (l + 1) ps) s) (fun s' _ => Gone c E u O L s.mem s'.mem) (fun _ => False) := by
  obtain ⟨ps, h1, h2, h3⟩ := relNodes_eq (c := c) (E := E) (u := u) (k := c.BL + c.B * l) (s := s) R gs hv (fun r hr => h.den (List.mem_append_left _ hr))
  rw [bind_ok h1]
  refine decAll_out (P := fun sh N => ∃ g, N = relOf l g ∧ sh = .rel (c.BL + c.B * l) (psums 0 (g.map fun x => (els l x).length)) ∧ ∀ x ∈ g, WF c l x) ?_ R (gs.map (relOf l)) ps s ?_ h2 ?_ h
  · rintro L s r sh N hr ⟨g, rfl, rfl, hg⟩ hi
    exact decRel_out hB hr hg hi
  · rw [hv, List.map_map]; rfl
  · rw [List.forall₂_map_right_iff]
    clear h1 h2 hv
    induction h3 with
    | nil => exact .nil
    | cons a b ih =>
      exact .cons ⟨_, rfl, a, hw _ List.mem_cons_self⟩ (ih fun g hg => hw g (List.mem_cons_of_mem _ hg))

/-! ### The parents -/

/-- an open inner node, apart from the rest of the memory -/
structure OpC (c : Cfg) (E : Env Dat T) (m : Mem Dat T) (p : Nat) (cl : Cell Dat T) (cap : Nat) (rel : Option Nat) (Lo : List (Ref (Val T))) (Ns : List (Node T)) : Prop where
  cell : m p = some cl
  data : cl.data = .inner cap rel (Lo.map Ref.ptr)
  els : cl.els = []
  rc : E.gc = false → cl.rc = 1
  capRc : E.gc = false → cap = 2 ^ c.B
  tk : cl.tok ≠ 0 → cap = 2 ^ c.B
  len : Lo.length ≤ cap
  val : Lo.map Ref.val = Ns.map Val.node
  tok : E.gc = true → ∀ x ∈ Lo, x.tok = cl.tok

theorem OpG.opc (h : OpG c E u m O L p cl cap rel Lo Ns) : OpC c E m p cl cap rel Lo Ns :=
  ⟨h.cell, h.data, h.els, h.rc, h.capRc, h.tk, h.len, h.val, h.tok⟩

theorem OpC.g (h : OpC c E m p cl cap rel Lo Ns) (hi : Inv (sys c E u) m (p :: O) (Lo ++ L)) : OpG c E u m O L p cl cap rel Lo Ns :=
  ⟨h.cell, h.data, h.els, h.rc, h.capRc, h.tk, h.len, h.val, h.tok, hi⟩

theorem OpC.mem (h : OpC c E m p cl cap rel Lo Ns) (hc : m' p = m p) : OpC c E m' p cl cap rel Lo Ns := { h with cell := hc.trans h.cell }

/-- the parents `Pr`, the open parent `p` with its table `t`: those of the merger of values -/
structure ParC (c : Cfg) (E : Env Dat T) (l : Nat) (m : Mem Dat T) (hm : HMerger) (vm : Merger T) (p t : Nat) (cl ct : Cell Dat T) (cap : Nat) (Lp Pr : List (Ref (Val T))) : Prop where
  op : OpC c E m p cl cap (some t) Lp vm.cs
  tb : Tb c E m t ct cap vm.sz
  room : min vm.n (2 ^ c.B) ≤ cap
  clt : cl.tok = 0
  ctt : ct.tok = 0
  nodes : hm.nodes = Pr.map Ref.ptr ++ [p]
  prev : Pr.map Ref.val = vm.prev.map Val.node
  ptok : ∀ x ∈ Pr, x.tok = 0
  sizes : hm.sizes = vm.prevSizes ++ [vm.size]
  curr : hm.curr = vm.curr
  n : hm.n = vm.n
  shift : hm.shift = c.BL + c.B * (l + 1)

/-- the merger in memory has the parents of the merger of values -/
def Par (c : Cfg) (E : Env Dat T) (u : Toks E.gc) (l : Nat) (m : Mem Dat T) (O : List Nat) (L : List (Ref (Val T))) (hm : HMerger) (vm : Merger T) : Prop :=
  ∃ p t cl ct cap Lp Pr, ParC c E l m hm vm p t cl ct cap Lp Pr ∧ Inv (sys c E u) m (p :: t :: O) (Lp ++ (Pr ++ L))

variable {hm : HMerger} {vm vm' : Merger T}

theorem ParC.g (h : ParC c E l m hm vm p t cl ct cap Lo L) {Q : List (Ref (Val T))} (hi : Inv (sys c E u) m (p :: t :: O) (Lo ++ Q)) : OpG c E u m (t :: O) Q p cl cap (some t) Lo vm.cs := h.op.g hi

theorem Par.kept (h : Par c E u l m O L hm vm) : ∃ O' L', Inv (sys c E u) m O' L' ∧ (∀ a ∈ O, a ∈ O') ∧ ∀ x ∈ L, x ∈ L' := by
  obtain ⟨p, t, cl, ct, cap, Lp, Pr, _, h⟩ := h
  exact ⟨_, _, h, fun a ha => by simp [ha], fun x hx => by simp [hx]⟩

/-- what is not of the parents may change -/
theorem Par.frame (h : Par c E u l m O L hm vm) {O' : List Nat} {L' : List (Ref (Val T))} (hi : ∀ O1 L1, Inv (sys c E u) m (O1 ++ O) (L1 ++ L) → Inv (sys c E u) m' (O1 ++ O') (L1 ++ L'))
    (hc : ∀ a, a ∉ O → m a ≠ none → m' a = m a) : Par c E u l m' O' L' hm vm := by
  obtain ⟨p, t, cl, ct, cap, Lp, Pr, hp, h⟩ := h
  have hn := h.open_nodup
  simp only [List.nodup_cons, List.mem_cons, not_or] at hn
  have h1 : m' p = m p := hc p hn.1.2 (by rw [hp.op.cell]; simp)
  have h2 : m' t = m t := hc t hn.2.1 (by rw [hp.tb.cell]; simp)
  refine ⟨p, t, cl, ct, cap, Lp, Pr, { hp with op := hp.op.mem h1, tb := hp.tb.mem h2 }, ?_⟩
  have := hi [p, t] (Lp ++ Pr) (by simpa [List.append_assoc] using h)
  simpa [List.append_assoc] using this

/-- other fields -/
theorem Par.fields (h : Par c E u l m O L hm vm) {hm' : HMerger} {vm' : Merger T} (h1 : hm'.nodes = hm.nodes) (h2 : hm'.sizes = hm.sizes) (h3 : hm'.curr = hm.curr) (h4 : hm'.n = hm.n) (h5 : hm'.shift = hm.shift)
    (h6 : vm'.cs = vm.cs) (h7 : vm'.sz = vm.sz) (h8 : vm'.n = vm.n) (h9 : vm'.prev = vm.prev) (h10 : vm'.prevSizes = vm.prevSizes) (h11 : vm'.size = vm.size) (h12 : vm'.curr = vm.curr) :
    Par c E u l m O L hm' vm' := by
  obtain ⟨p, t, cl, ct, cap, Lp, Pr, hp, h⟩ := h
  refine ⟨p, t, cl, ct, cap, Lp, Pr, ?_, h⟩
  exact ⟨h6 ▸ hp.op, h7 ▸ hp.tb, h8 ▸ hp.room, hp.clt, hp.ctt, h1.trans hp.nodes, h9 ▸ hp.prev, hp.ptok, by rw [h2, h10, h11]; exact hp.sizes, by rw [h3, h12]; exact hp.curr,
    by rw [h4, h8]; exact hp.n, h5.trans hp.shift⟩

/-- what `abort` needs to know of the values -/
structure PVals (c : Cfg) (l : Nat) (vm : Merger T) : Prop where
  prev : ∃ gs : List (List (Node T)), vm.prev = gs.map (relOf l) ∧ ∀ g ∈ gs, ∀ x ∈ g, WF c l x
  sz : vm.sz = psums 0 (vm.cs.map fun x => (els l x).length)
  wf : ∀ x ∈ vm.cs, WF c l x

theorem PVals.len (h : PVals c l vm) : vm.sz.length = vm.cs.length := by rw [h.sz, psums_length, List.length_map]

theorem PVals.of {N : Nat} {out : List (Node T)} (h : MCore c l N vm out) : PVals c l vm := by
  obtain ⟨⟨gs, g1, g2, g3, -⟩, hsz, -, -, -, hw⟩ := h
  refine ⟨⟨gs, g1, fun g hg x hx => hw x ?_⟩, hsz, fun x hx => hw x ?_⟩
  · rw [g3]; exact List.mem_append_left _ (List.mem_flatten.mpr ⟨g, hg, hx⟩)
  · rw [g3]; exact List.mem_append_right _ hx

theorem shift_sub : c.BL + c.B * (l + 1) - c.B = c.BL + c.B * l := by
  rw [Nat.mul_add, Nat.mul_one]; omega

/-- the parents are released -/
theorem Par.abort (hB : 0 < c.B) (h : Par c E u l s.mem O L hm vm) (hv : PVals c l vm) :
    Out (((relNodes (hm.shift - c.B) hm.nodes).bind fun ps => decAll c E (levels c hm.shift - 1) ps) s) (fun s' _ => Gone c E u O L s.mem s'.mem) (fun _ => False) := by
  obtain ⟨p, t, cl, ct, cap, Lp, Pr, hp, h⟩ := h
  obtain ⟨gs, g1, g2⟩ := hv.prev
  have hi := OpG.closeT (hp.g h) hp.tb (fun _ => by rw [hp.clt, hp.ctt]) (k := 0) (fun _ => hp.clt)
  have hi : Inv (sys c E u) s.mem O ((Pr ++ [⟨p, .node (relOf l vm.cs), 0, true⟩]) ++ L) := by
    have : (⟨p, .node (.inner (some vm.sz) vm.cs), 0, true⟩ : Ref (Val T)) = ⟨p, .node (relOf l vm.cs), 0, true⟩ := by rw [hv.sz]; rfl
    rw [this] at hi
    exact hi.permL (by simpa using List.perm_middle.symm)
  rw [hp.shift, shift_sub, levels_shift hB, hp.nodes, show Pr.map Ref.ptr ++ [p] = (Pr ++ [(⟨p, .node (relOf l vm.cs), 0, true⟩ : Ref (Val T))]).map Ref.ptr by simp]
  refine dropRel_out hB (gs := gs ++ [vm.cs]) ?_ ?_ hi
  · simp [hp.prev, g1]
  · intro g hg
    rcases List.mem_append.mp hg with hg | hg
    · exact g2 g hg
    · rw [List.mem_singleton] at hg; subst hg; exact hv.wf

/-- first half of `add_child` on values -/
def Merger.room' (c : Cfg) (m : Merger T) : Option (Merger T) :=
  if m.sz.length = 2 ^ c.B then
    if m.prev.length + 1 < 3 then
      some { m with curr := m.curr.tail, n := m.n - 2 ^ c.B, prev := m.prev ++ [.inner (some m.sz) m.cs], prevSizes := m.prevSizes ++ [m.size], sz := [], cs := [] }
    else none
  else some { m with curr := m.curr.tail }

theorem addChild_room (vm : Merger T) (p : Node T) (n : Nat) : Merger.addChild c vm p n = (Merger.room' c vm).bind fun m => Merger.put c m p n := by
  unfold Merger.addChild Merger.room'
  simp only
  split
  · split <;> rfl
  · rfl

/-- `add_child` makes room -/
theorem mkRoom_out (hE : E.Fresh) (h : Par c E u l s.mem O L hm vm) (hr : Merger.room' c vm = some vm') :
    Out (hm.mkRoom c E s) (fun s' hm' => Par c E u l s'.mem O L hm' vm' ∧ Kept (sys c E u) O L s.mem s'.mem ∧ hm'.dst = hm.dst ∧ hm'.toOff = hm.toOff ∧ hm'.toSize = hm.toSize) (fun s' => s'.mem = s.mem) := by
  obtain ⟨p, t, cl, ct, cap, Lp, Pr, hp, h⟩ := h
  unfold HMerger.mkRoom
  rw [bind_ok (liftO_eq (b := p) (by rw [hp.nodes]; simp)), bind_ok (theTable_eq hp.op.cell hp.op.data), bind_ok (sizesOf_eq hp.tb.cell hp.tb.data)]
  unfold Merger.room' at hr
  have hlen : hm.nodes.length = vm.prev.length + 1 := by
    have := congrArg List.length hp.prev
    simp only [List.length_map] at this
    rw [hp.nodes]; simp [this]
  split at hr
  · rename_i hfull
    rw [if_pos hfull, hlen]
    split at hr
    · rename_i h3
      rw [if_pos h3, bind_ok (liftO_eq (b := vm.size) (by rw [hp.sizes]; simp))]
      cases hr
      have hi := OpG.closeT (hp.g h) hp.tb (fun _ => by rw [hp.clt, hp.ctt]) (k := 0) (fun _ => hp.clt)
      have hi : Inv (sys c E u) s.mem O ((Pr ++ [⟨p, .node (.inner (some vm.sz) vm.cs), 0, true⟩]) ++ L) := hi.permL (by simpa using List.perm_middle.symm)
      refine out_bind (newInnerR_out (own := none) hE hi) ?_
      rintro s1 q ⟨t1, cl1, ct1, ho, hT, hcl, hct, hk, -⟩
      rw [tk_none] at hcl hct
      refine ⟨⟨q, t1, cl1, ct1, _, [], Pr ++ [⟨p, .node (.inner (some vm.sz) vm.cs), 0, true⟩], ⟨ho.opc, hT, ?_, hcl, hct, ?_, ?_, ?_, ?_, ?_, ?_, hp.shift⟩, ho.inv⟩, ?_, rfl, rfl, rfl⟩
      · have := capI_le (c := c) (E := E) (own := none) (n := min (hm.n - 2 ^ c.B) (2 ^ c.B)) (Nat.min_le_right _ _)
        rw [hp.n] at this ⊢
        omega
      · simp [hp.nodes]
      · simp [hp.prev]
      · intro x hx
        rcases List.mem_append.mp hx with hx | hx
        · exact hp.ptok x hx
        · rw [List.mem_singleton] at hx; subst hx; rfl
      · simp [hp.sizes]
      · simp [hp.curr]
      · simp [hp.n]
      · exact hk.mono (fun x hx => List.mem_append_right _ hx) (fun _ h => h)
    · cases hr
  · rename_i hfull
    rw [if_neg hfull]
    cases hr
    refine ⟨⟨p, t, cl, ct, cap, Lp, Pr, ⟨hp.op, hp.tb, hp.room, hp.clt, hp.ctt, hp.nodes, hp.prev, hp.ptok, hp.sizes, ?_, hp.n, hp.shift⟩, h⟩, .of_eq rfl, rfl, rfl, rfl⟩
    simp [hp.curr]

/-- `add_child` puts the child -/
theorem put_out (h : Par c E u l s.mem O (r :: L) hm vm) (hr : r.val = .node N) (ht : E.gc = true → r.tok = 0) (hl : vm.sz.length = vm.cs.length) (hv : Merger.put c vm N n = some vm') :
    Out (hm.put r.ptr n s) (fun s' hm' => Par c E u l s'.mem O L hm' vm' ∧ Kept (sys c E u) O (r :: L) s.mem s'.mem ∧ hm'.dst = hm.dst ∧ hm'.toOff = hm.toOff ∧ hm'.toSize = hm.toSize) (fun _ => False) := by
  obtain ⟨p, t, cl, ct, cap, Lp, Pr, hp, h⟩ := h
  unfold Merger.put at hv
  split at hv
  · rename_i hlt
    obtain ⟨b, hb, hv⟩ := Option.bind_eq_some_iff.mp hv
    cases hv
    unfold HMerger.put
    rw [bind_ok (liftO_eq (b := p) (by rw [hp.nodes]; simp)), bind_ok (theTable_eq hp.op.cell hp.op.data), bind_ok (sizesOf_eq hp.tb.cell hp.tb.data),
      bind_ok (liftO_eq (b := vm.size) (by rw [hp.sizes]; simp)), bind_ok (liftO_eq hb)]
    have hcap := hp.room
    have hle : (vm.sz ++ [n + b]).length ≤ cap := by simp; omega
    rw [bind_ok (setSizes_eq hp.tb.cell hp.tb.data hle)]
    have ho := hp.g (Q := Pr ++ r :: L) h
    obtain ⟨h1, hk1⟩ := ho.sizes { ct with data := .table cap (vm.sz ++ [n + b]) }
    have h1' : OpG c E u (upd s.mem t (some { ct with data := .table cap (vm.sz ++ [n + b]) })) (t :: O) (r :: (Pr ++ L)) p cl cap (some t) Lp vm.cs :=
      h1.mem (h1.inv.permL (List.Perm.append_left _ List.perm_middle)) rfl
    have hll := h1'.length
    obtain ⟨cl', he, htk, h2, hk2⟩ := OpG.push (s := { s with mem := upd s.mem t (some { ct with data := .table cap (vm.sz ++ [n + b]) }) }) (n := vm.sz.length) h1' hr (fun hg => by rw [ht hg, hp.clt]) (by omega) (by omega)
    rw [bind_ok he]
    have hne := ho.ne
    refine ⟨⟨p, t, cl', _, cap, Lp ++ [r], Pr, ⟨h2.opc, (hp.tb.set (m' := s.mem) hle).mem (upd_ne hne.symm), hp.room, htk.trans hp.clt, hp.ctt, hp.nodes, hp.prev, hp.ptok, ?_, hp.curr, hp.n, hp.shift⟩, ?_⟩, ?_, rfl, rfl, rfl⟩
    · simp [hp.sizes]
    · exact h2.inv
    · refine (hk1.mono (fun x hx => List.mem_append_right _ hx) (fun _ h => h)).trans (hk2.mono ?_ (fun _ h => List.mem_cons_of_mem _ h))
      intro x hx
      rcases List.mem_cons.mp hx with rfl | hx
      · exact List.mem_cons_self
      · exact List.mem_cons_of_mem _ (List.mem_append_right _ hx)
  · cases hv

/-- a node that is merged: what its position says is true, it may be read and may get one more reference -/
structure PosR (c : Cfg) (E : Env Dat T) (u : Toks E.gc) (m : Mem Dat T) (L : List (Ref (Val T))) (l : Nat) (p : HPos) (N : Node T) : Prop where
  fits : RFits c l p.2 N
  sub : SubPos (p.2.pos N)
  at_ : At (sys c E u) m L p.1 (.node N)
  sh : Sh (sys c E u) m L p.1

theorem PosR.kept {x : HPos} (h : PosR c E u m L l x N) (hk : Kept (sys c E u) O L m m') : PosR c E u m' L l x N := ⟨h.fits, h.sub, h.at_.kept hk, h.sh.kept hk⟩

theorem PosR.mono {x : HPos} {L' : List (Ref (Val T))} (hL : ∀ r ∈ L, r ∈ L') (h : PosR c E u m L l x N) : PosR c E u m L' l x N := ⟨h.fits, h.sub, h.at_.mono hL, h.sh.mono hL⟩

end
end FlexHeap
