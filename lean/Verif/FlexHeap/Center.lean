import Verif.FlexHeap.MergeInner
import Verif.FlexHeap.Subs

/-!
# `concat_rebalance` on memory
-/

namespace FlexHeap
open Mm Rrb VecHeap

variable {T : Type} {c : Cfg} {E : Env Dat T} {u : Toks E.gc} {O : List Nat} {L : List (Ref (Val T))}

section
variable {s : St Dat T} {m m' : Mem Dat T} {p q n i t k l e : Nat} {N : Node T} {hm : HMerger} {vm vm' : Merger T} {ps : List HPos} {xs ns : List (Node T)}

/-- the positions on values -/
def posv (ps : List HPos) (xs : List (Node T)) : List (Pos T) := List.zipWith (fun p N => p.2.pos N) ps xs

abbrev PosRs (c : Cfg) (E : Env Dat T) (u : Toks E.gc) (m : Mem Dat T) (L : List (Ref (Val T))) (l : Nat) (ps : List HPos) (xs : List (Node T)) : Prop := List.Forall₂ (PosR c E u m L l) ps xs

theorem PosRs.kept (h : PosRs c E u m L l ps xs) (hk : Kept (sys c E u) O L m m') : PosRs c E u m' L l ps xs := h.imp fun _ _ h => h.kept hk

theorem PosRs.mono {L' : List (Ref (Val T))} (hL : ∀ r ∈ L, r ∈ L') (h : PosRs c E u m L l ps xs) : PosRs c E u m L' l ps xs := h.imp fun _ _ h => h.mono hL

theorem PosRs.sub (h : PosRs c E u m L l ps xs) : SubKids c l (posv ps xs) xs := by
  induction h with
  | nil => exact .nil
  | cons h _ ih => exact .cons ⟨h.fits, rpos_node _ _, h.sub⟩ ih

theorem posv_append {ps ps' : List HPos} {xs xs' : List (Node T)} (h : ps.length = xs.length) : posv (ps ++ ps') (xs ++ xs') = posv ps xs ++ posv ps' xs' :=
  List.zipWith_append h

theorem PosRs.counts (h : PosRs c E u m L l ps xs) : (posv ps xs).map (·.count c) = ps.map (fun p => p.2.count c) := by
  induction h with
  | nil => rfl
  | cons h _ ih =>
    simp only [posv, List.zipWith_cons_cons, List.map_cons, rpos_count] at ih ⊢
    rw [ih]

/-- `concat_merger_visitor` on leaves -/
theorem visitLeaves (hB : 0 < c.B) (hE : E.Fresh) {M : Nat} : ∀ (ps : List HPos) (xs : List (Node T)) (hm : HMerger) (vm : Merger T) (out : List (Node T)) (part : List T) (rem : Nat) (s : St Dat T),
    PosRs c E u s.mem L 0 ps xs → MLeaf c M vm out part rem → DstL c E u s.mem O L hm vm part → tot 0 xs ≤ rem → (E.gc = true → NoCopyFault s) →
    Out (HMerger.visitAll c E hm ps s) (fun s' hm' => ∃ vm' out' part', (posv ps xs).foldlM (Merger.visit c) vm = some vm' ∧ MLeaf c M vm' out' part' (rem - tot 0 xs) ∧
      DstL c E u s'.mem O L hm' vm' part' ∧ Kept (sys c E u) O L s.mem s'.mem) (fun s' => Gone c E u O L s.mem s'.mem)
  | _, _, hm, vm, out, part, rem, s, .nil, h, hd, _, _ => ⟨vm, out, part, rfl, by simpa [tot] using h, hd, .refl⟩
  | p :: ps, x :: xs, hm, vm, out, part, rem, s, .cons hp hps, h, hd, hle, hcf => by
    have e : tot 0 (x :: xs) = (els 0 x).length + tot 0 xs := by simp [tot]
    rw [e] at hle
    have hleaf : p.2.isLeaf = true := by rw [hp.fits.isLeaf]; rfl
    unfold HMerger.visitAll
    rw [show HMerger.visit c E hm p = HMerger.mergeLeaf c E hm p.1 p.2 by unfold HMerger.visit; rw [if_pos hleaf]]
    refine out_bind (out_noCopy (calm_mergeLeaf c E hm p.1 p.2) (mergeLeaf_out hB hE h hd hp (by omega) hcf)) ?_
    rintro s1 hm1 ⟨⟨vm1, out1, part1, hv1, h1, hd1, hk1⟩, hn1⟩
    refine out_mono (visitLeaves hB hE ps xs hm1 vm1 out1 part1 _ s1 (PosRs.kept hps hk1) h1 hd1 (by omega) (fun hg => hn1 (hcf hg))) ?_ (fun s' hg => Gone.trans hk1 hg)
    rintro s2 hm2 ⟨vm2, out2, part2, hv2, h2, hd2, hk2⟩
    refine ⟨vm2, out2, part2, ?_, by rw [e, Nat.sub_add_eq]; exact h2, hd2, hk1.trans hk2⟩
    simp only [posv, List.zipWith_cons_cons, List.foldlM_cons, Merger.visit, rpos_isLeaf, hleaf, if_true, hv1, Option.bind_eq_bind, Option.bind_some]
    exact hv2

/-- `concat_merger_visitor` on inner nodes -/
theorem visitInners (hB : 0 < c.B) (hE : E.Fresh) {M : Nat} : ∀ (ps : List HPos) (xs : List (Node T)) (hm : HMerger) (vm : Merger T) (out : List (Node T)) (part : List (Node T)) (rem : Nat) (s : St Dat T),
    PosRs c E u s.mem L (l + 1) ps xs → MInner c l M vm out part rem → DstI c E u l s.mem O L hm vm part → (xs.flatMap Rrb.kids).length ≤ rem →
    Out (HMerger.visitAll c E hm ps s) (fun s' hm' => ∃ vm' out' part', (posv ps xs).foldlM (Merger.visit c) vm = some vm' ∧ MInner c l M vm' out' part' (rem - (xs.flatMap Rrb.kids).length) ∧
      DstI c E u l s'.mem O L hm' vm' part' ∧ Kept (sys c E u) O L s.mem s'.mem) (fun s' => Gone c E u O L s.mem s'.mem)
  | _, _, hm, vm, out, part, rem, s, .nil, h, hd, _ => ⟨vm, out, part, rfl, by simpa using h, hd, .refl⟩
  | p :: ps, x :: xs, hm, vm, out, part, rem, s, .cons hp hps, h, hd, hle => by
    have e : ((x :: xs).flatMap Rrb.kids).length = (Rrb.kids x).length + (xs.flatMap Rrb.kids).length := by simp
    rw [e] at hle
    have hleaf : p.2.isLeaf = false := by rw [hp.fits.isLeaf]; rfl
    unfold HMerger.visitAll
    rw [show HMerger.visit c E hm p = HMerger.mergeInner c E hm p.1 p.2 by unfold HMerger.visit; rw [hleaf, if_neg Bool.false_ne_true]]
    refine out_bind (mergeInner_out hB hE h hd hp (by omega)) ?_
    rintro s1 hm1 ⟨vm1, out1, part1, hv1, h1, hd1, hk1⟩
    refine out_mono (visitInners hB hE ps xs hm1 vm1 out1 part1 _ s1 (PosRs.kept hps hk1) h1 hd1 (by omega)) ?_ (fun s' hg => Gone.trans hk1 hg)
    rintro s2 hm2 ⟨vm2, out2, part2, hv2, h2, hd2, hk2⟩
    refine ⟨vm2, out2, part2, ?_, by rw [e, Nat.sub_add_eq]; exact h2, hd2, hk1.trans hk2⟩
    simp only [posv, List.zipWith_cons_cons, List.foldlM_cons, Merger.visit, rpos_isLeaf, hleaf, Bool.false_eq_true, if_false, hv1, Option.bind_eq_bind, Option.bind_some]
    exact hv2

/-- the constructor of the merger -/
theorem init_out (hE : E.Fresh) (h : Inv (sys c E u) s.mem O L) (counts : List Nat) :
    Out (HMerger.init c E (c.BL + c.B * l) counts s) (fun s' hm => Par c E u l s'.mem O L hm (Merger.init counts) ∧ hm.dst = none ∧ Kept (sys c E u) O L s.mem s'.mem) (fun s' => s'.mem = s.mem) := by
  unfold HMerger.init
  refine out_bind (newInnerR_out (own := none) hE h) ?_
  rintro s1 q ⟨t, cl, ct, ho, hT, hcl, hct, hk, -⟩
  rw [tk_none] at hcl hct
  refine ⟨⟨q, t, cl, ct, _, [], [], ⟨ho.opc, hT, ?_, hcl, hct, rfl, rfl, by simp, rfl, rfl, rfl, ?_⟩, ho.inv⟩, rfl, hk⟩
  · exact capI_le (Nat.min_le_right _ _)
  · show c.BL + c.B * l + c.B = _
    rw [Nat.mul_add, Nat.mul_one, Nat.add_assoc]

/-- `merge` (1794-1813) -/
theorem merge_out (hB : 0 < c.B) (hE : E.Fresh) (hp : PosRs c E u s.mem L l ps xs) {counts : List Nat} (hc : Plan.CountsOK (2 ^ Plan.slotBits c l) counts) (hs : counts.sum = (xs.map (slotCount l)).sum)
    (h3 : counts.length ≤ 3 * 2 ^ c.B) (h : Inv (sys c E u) s.mem O L) (hcf : E.gc = true → NoCopyFault s) :
    Out (((HMerger.init c E (c.BL + c.B * l) counts).bind fun m => HMerger.visitAll c E m ps) s) (fun s' hm => ∃ vm, (posv ps xs).foldlM (Merger.visit c) (Merger.init counts) = some vm ∧
      Par c E u l s'.mem O L hm vm ∧ hm.dst = none ∧ Kept (sys c E u) O L s.mem s'.mem) (fun s' => Gone c E u O L s.mem s'.mem) := by
  refine out_bind (out_mono (out_noCopy (calm_init c E _ _) (init_out hE h counts)) (fun _ _ h => h) (fun s' he => gone_of_eq h he)) ?_
  rintro s1 hm ⟨⟨hpar, hd, hk⟩, hn⟩
  cases l with
  | zero =>
    have hs' : (xs.map (slotCount 0)).sum = tot 0 xs := by
      have : slotCount (T := T) 0 = fun x => (els 0 x).length := by funext x; simp [slotCount]
      rw [this, sum_els]; rfl
    simp only [Plan.slotBits, if_true] at hc
    refine out_mono (visitLeaves hB hE (M := counts.length) ps xs hm (Merger.init counts) [] [] counts.sum s1 (PosRs.kept hp hk)
      ⟨MCore.init rfl h3, by simp [Merger.init], hc, by simp [Merger.init], rfl, rfl, by simp⟩ (.inl ⟨rfl, hd, hpar⟩) (by omega) (fun hg => hn (hcf hg))) ?_ (fun s' hg => Gone.trans hk hg)
    rintro s2 hm2 ⟨vm2, out2, part2, hv2, h2, hd2, hk2⟩
    refine ⟨vm2, hv2, ?_⟩
    rcases hd2 with ⟨-, h3, h4⟩ | ⟨hne, -⟩
    · exact ⟨h4, h3, hk.trans hk2⟩
    · obtain ⟨k, ks, g1, g2⟩ := h2.room hne
      have := h2.sum; rw [g1] at this; simp at this; omega
  | succ l =>
    have hs' : (xs.map (slotCount (l + 1))).sum = (xs.flatMap Rrb.kids).length := by
      have : slotCount (T := T) (l + 1) = fun x => (Rrb.kids x).length := by funext x; simp [slotCount]
      rw [this, List.length_flatMap]
    simp only [Plan.slotBits, Nat.add_eq_zero_iff, one_ne_zero, and_false, if_false] at hc
    refine out_mono (visitInners hB hE (M := counts.length) ps xs hm (Merger.init counts) [] [] counts.sum s1 (PosRs.kept hp hk)
      ⟨MCore.init rfl h3, by simp [Merger.init], hc, by simp [Merger.init], rfl, rfl, by simp, by simp⟩ (.inl ⟨rfl, hd, hpar⟩) (by omega)) ?_ (fun s' hg => Gone.trans hk hg)
    rintro s2 hm2 ⟨vm2, out2, part2, hv2, h2, hd2, hk2⟩
    refine ⟨vm2, hv2, ?_⟩
    rcases hd2 with ⟨-, h3, h4⟩ | ⟨hne, -⟩
    · exact ⟨h4, h3, hk.trans hk2⟩
    · obtain ⟨k, ks, g1, g2⟩ := h2.room hne
      have := h2.sum; rw [g1, ← hs', hs, Nat.sub_self] at this; simp at this; omega

/-! ### Centres -/

/-- a reference that more may join -/
def shr (r : Ref (Val T)) : Ref (Val T) := ⟨r.ptr, r.val, 0, false⟩

theorem shrAll : ∀ (R Q : List (Ref (Val T))), (∀ r ∈ R, r.tok = 0) → Inv (sys c E u) m O (Q ++ (R ++ L)) → Inv (sys c E u) m O (Q ++ (R.map shr ++ L))
  | [], Q, _, h => h
  | r :: R, Q, ht, h => by
    have h1 : Inv (sys c E u) m O (r :: (Q ++ (R ++ L))) := h.permL List.perm_middle
    have h2 : Inv (sys c E u) m O (shr r :: (Q ++ (R ++ L))) := retok (p := r.ptr) (v := r.val) (t := r.tok) (b := r.uniq) h1 (fun _ => ht r List.mem_cons_self) false (by simp)
    have h3 := shrAll R (shr r :: Q) (fun x hx => ht x (List.mem_cons_of_mem _ hx)) h2
    exact h3.permL List.perm_middle.symm

/-- the references of a centre of level `l` with the nodes `ns` -/
structure HCen (c : Cfg) (E : Env Dat T) (u : Toks E.gc) (l : Nat) (m : Mem Dat T) (O : List Nat) (L : List (Ref (Val T))) (x : HCenter) (C : List (Ref (Val T))) (ns : List (Node T)) : Prop where
  nodes : x.nodes = C.map Ref.ptr
  val : C.map Ref.val = ns.map Val.node
  tok : ∀ r ∈ C, r.tok = 0 ∧ r.uniq = false
  ok : CenterOK c l ⟨x.shift, ns, x.sizes⟩ ns
  inv : Inv (sys c E u) m O (C ++ L)

theorem HCen.frame {x : HCenter} {C : List (Ref (Val T))} (h : HCen c E u l m O L x C ns) {O' : List Nat} {L' : List (Ref (Val T))} (hi : Inv (sys c E u) m' O' (C ++ L')) : HCen c E u l m' O' L' x C ns :=
  { h with inv := hi }

theorem leafSubs_ok : ∀ (C : List (Ref (Val T))) (ns : List (Node T)) (b : Nat), C.map Ref.val = ns.map Val.node → (∀ r ∈ C, At (sys c E u) m L r.ptr r.val ∧ Sh (sys c E u) m L r.ptr) → (∀ n ∈ ns, WF c 0 n) →
    ∃ ps, leafSubs b (C.map Ref.ptr) (psums b (ns.map fun n => (els 0 n).length)) = some ps ∧ List.Forall₂ (fun (r : Ref (Val T)) (p : HPos) => p.1 = r.ptr) C ps ∧ PosRs c E u m L 0 ps ns
  | [], [], b, _, _, _ => ⟨[], rfl, .nil, .nil⟩
  | r :: C, N :: ns, b, hv, hr, hw => by
    simp only [List.map_cons, List.cons.injEq] at hv
    obtain ⟨ps, h1, h2, h3⟩ := leafSubs_ok C ns (b + (els 0 N).length) hv.2 (fun x hx => hr x (List.mem_cons_of_mem _ hx)) (fun x hx => hw x (List.mem_cons_of_mem _ hx))
    have hrr := hr r List.mem_cons_self
    rw [hv.1] at hrr
    refine ⟨(r.ptr, .reg (.leafSub (els 0 N).length)) :: ps, ?_, .cons rfl h2, .cons ⟨?_, trivial, hrr.1, hrr.2⟩ h3⟩
    · simp only [List.map_cons, psums, leafSubs, h1, Option.map_some, Nat.add_sub_cancel_left]
    · have hwx := hw N List.mem_cons_self
      match N, hwx with
      | .leaf xs, hn => exact ⟨rfl, rfl, hn.1, hn.2⟩

theorem relPos_ok : ∀ (C : List (Ref (Val T))) (gs : List (List (Node T))) (ps : List HPos), C.map Ref.val = (gs.map fun g => Val.node (relOf l g)) →
    List.Forall₂ (fun (r : Ref (Val T)) (p : HPos) => p.1 = r.ptr) C ps → List.Forall₂ (fun (p : HPos) g => p.2 = .rel (c.BL + c.B * l) (psums 0 (g.map fun x => (els l x).length))) ps gs →
    (∀ r ∈ C, At (sys c E u) m L r.ptr r.val ∧ Sh (sys c E u) m L r.ptr) → (∀ n ∈ gs.map (relOf l), WF c (l + 1) n) → PosRs c E u m L (l + 1) ps (gs.map (relOf l))
  | [], [], _, _, .nil, .nil, _, _ => .nil
  | r :: C, g :: gs, p :: ps, hv, .cons h1 h2, .cons h3 h4, hr, hw => by
    simp only [List.map_cons, List.cons.injEq] at hv
    have hrr := hr r List.mem_cons_self
    rw [hv.1] at hrr
    obtain ⟨w1, w2, w3, w4⟩ := hw (relOf l g) (by simp)
    refine .cons ⟨?_, ?_, by rw [h1]; exact hrr.1, by rw [h1]; exact hrr.2⟩ (relPos_ok C gs ps hv.2 h2 h4 (fun x hx => hr x (List.mem_cons_of_mem _ hx)) fun x hx => hw x (List.mem_cons_of_mem _ hx))
    · rw [h3]; exact RFits.of w1 w2 w3 rfl
    · rw [h3]; trivial

/-- `each_sub` -/
theorem HCen.subs (hB : 0 < c.B) {x : HCenter} {C : List (Ref (Val T))} (h : HCen c E u l s.mem O L x C ns) :
    ∃ ps, x.subs c s = .ok s ps ∧ List.Forall₂ (fun (r : Ref (Val T)) (p : HPos) => p.1 = r.ptr) C ps ∧ PosRs c E u s.mem (C ++ L) l ps ns := by
  have hAt : ∀ r ∈ C, At (sys c E u) s.mem (C ++ L) r.ptr r.val ∧ Sh (sys c E u) s.mem (C ++ L) r.ptr := by
    intro r hr
    have hm : r ∈ C ++ L := List.mem_append_left _ hr
    exact ⟨h.inv.at0 hm (by rw [(h.tok r hr).1]; exact u.live0), .inr ⟨r, hm, rfl, (h.tok r hr).2⟩⟩
  have hshift : x.shift = c.BL + c.B * l := h.ok.shift
  have hsizes : x.sizes = psums 0 (ns.map fun n => (els l n).length) := h.ok.sizes
  unfold HCenter.subs
  cases l with
  | zero =>
    rw [if_pos (by simp [hshift]), h.nodes, hsizes]
    obtain ⟨ps, h1, h2, h3⟩ := leafSubs_ok C ns 0 h.val hAt h.ok.wf
    exact ⟨ps, liftO_eq h1, h2, h3⟩
  | succ l =>
    have hpos : 0 < c.B * (l + 1) := Nat.mul_pos hB (by omega)
    rw [if_neg (by omega), h.nodes, hshift, shift_sub]
    obtain ⟨gs, rfl⟩ : ∃ gs, ns = List.map (relOf l) gs := by
      have hrel := h.ok.rel l rfl
      clear h hsizes
      induction ns with
      | nil => exact ⟨[], rfl⟩
      | cons n ns ih =>
        obtain ⟨g, rfl⟩ := hrel n List.mem_cons_self
        obtain ⟨gs, rfl⟩ := ih fun x hx => hrel x (List.mem_cons_of_mem _ hx)
        exact ⟨g :: gs, rfl⟩
    have hv : C.map Ref.val = gs.map fun g => Val.node (relOf l g) := by rw [h.val, List.map_map]; rfl
    obtain ⟨ps, h1, h2, h3⟩ := relNodes_eq (c := c) (E := E) (u := u) (k := c.BL + c.B * l) (s := s) C gs hv (fun r hr => (hAt r hr).1.den)
    refine ⟨ps, h1, h2, ?_⟩
    exact relPos_ok C gs ps hv h2 h3 hAt h.ok.wf

/-- releasing the nodes of a centre -/
theorem HCen.release (hB : 0 < c.B) {C : List (Ref (Val T))} {ps : List HPos} {L0 : List (Ref (Val T))} {m0 : Mem Dat T} (hv : C.map Ref.val = ns.map Val.node) (h2 : List.Forall₂ (fun (r : Ref (Val T)) (p : HPos) => p.1 = r.ptr) C ps)
    (h3 : PosRs c E u m0 L0 l ps ns) (h : Inv (sys c E u) s.mem O (C ++ L)) : Out (decAll c E l ps s) (fun s' _ => Gone c E u O L s.mem s'.mem) (fun _ => False) :=
  decAll_out (P := fun sh N => RFits c l sh N) (fun L s r sh N hr hf hi => decR_out hB l O L s r sh N hr hf hi) C ns ps s hv h2 (h3.imp fun _ _ h => h.fits) h

/-- `finish` closes the parents -/
theorem Par.finish (h : Par c E u l m O L hm vm) : ∃ C, hm.nodes = C.map Ref.ptr ∧ C.map Ref.val = (vm.prev ++ [Node.inner (some vm.sz) vm.cs]).map Val.node ∧ (∀ r ∈ C, r.tok = 0 ∧ r.uniq = false) ∧
    Inv (sys c E u) m O (C ++ L) ∧ hm.shift = c.BL + c.B * (l + 1) ∧ hm.sizes = vm.prevSizes ++ [vm.size] := by
  obtain ⟨p, t, cl, ct, cap, Lp, Pr, hp, h⟩ := h
  have hi := OpG.closeT (hp.g h) hp.tb (fun _ => by rw [hp.clt, hp.ctt]) (k := 0) (fun _ => hp.clt)
  have hi : Inv (sys c E u) m O ([] ++ ((Pr ++ [⟨p, .node (.inner (some vm.sz) vm.cs), 0, true⟩]) ++ L)) := hi.permL (by simpa using List.perm_middle.symm)
  refine ⟨(Pr ++ [(⟨p, .node (.inner (some vm.sz) vm.cs), 0, true⟩ : Ref (Val T))]).map shr, ?_, ?_, ?_, shrAll _ [] ?_ hi, hp.shift, hp.sizes⟩
  · rw [hp.nodes]
    simp only [List.map_append, List.map_map, List.map_cons, List.map_nil]
    rfl
  · have : (Pr.map shr).map Ref.val = Pr.map Ref.val := by rw [List.map_map]; rfl
    rw [List.map_append, List.map_append, this, hp.prev, List.map_append]
    rfl
  · intro r hr
    obtain ⟨x, _, rfl⟩ := List.mem_map.mp hr
    exact ⟨rfl, rfl⟩
  · intro r hr
    rcases List.mem_append.mp hr with hr | hr
    · exact hp.ptok r hr
    · rw [List.mem_singleton] at hr; subst hr; rfl

/-- what is known of the result of joining `xs` at level `l` -/
def Joined (c : Cfg) (E : Env Dat T) (u : Toks E.gc) (l : Nat) (O : List Nat) (L : List (Ref (Val T))) (m0 : Mem Dat T) (l0 : Nat) (xs : List (Node T)) (s' : St Dat T) (z : HCenter) : Prop :=
  ∃ C ms, HCen c E u l s'.mem O L z C ms ∧ ms.flatMap (els l) = xs.flatMap (els l0) ∧ (∀ f, SL c f l0 xs → SL c f l ms) ∧ (LftL l0 xs → LftL l ms) ∧ Kept (sys c E u) O L m0 s'.mem

/-- `concat_rebalance` -/
theorem concatRebalance_out (hB : 0 < c.B) (hE : E.Fresh) {x : HCenter} {C : List (Ref (Val T))} {ls rs : List HPos} {ys : List (Node T)} (h : HCen c E u l s.mem O L x C ns) (hl' : PosRs c E u s.mem (C ++ L) l ls xs)
    (hr' : PosRs c E u s.mem (C ++ L) l rs ys) (hxl : xs.length + 1 ≤ 2 ^ c.B) (hyl : ys.length + 1 ≤ 2 ^ c.B) (hcf : E.gc = true → NoCopyFault s) :
    Out (concatRebalance c E ls x rs s) (fun s' z => Joined c E u (l + 1) O L s.mem l (xs ++ ns ++ ys) s' z) (fun s' => Gone c E u O L s.mem s'.mem) := by
  obtain ⟨qs, hqs, hq1, hq2⟩ := h.subs hB
  have hmono : ∀ r ∈ L, r ∈ C ++ L := fun r hr => List.mem_append_right _ hr
  have hall : PosRs c E u s.mem (C ++ L) l (ls ++ qs ++ rs) (xs ++ ns ++ ys) := List.rel_append (List.rel_append hl' hq2) hr'
  have hlen1 := hl'.length_eq
  have hlen2 := hq2.length_eq
  have hpv : posv (ls ++ qs ++ rs) (xs ++ ns ++ ys) = posv ls xs ++ posv qs ns ++ posv rs ys := by
    rw [posv_append (by simp [hlen1, hlen2]), posv_append hlen1]
  obtain ⟨counts, vm, z, ms, c1, c2, c3, c4, c5, c6, c7, c8, ⟨out, c9⟩, c10, c11, c12, c13, c14⟩ := rebalance_ok hB h.ok hl'.sub hq2.sub hr'.sub hxl hyl
  rw [← hpv] at c1 c2 c6
  rw [hall.counts] at c2
  have hlv : (posv (ls ++ qs ++ rs) (xs ++ ns ++ ys)).length = (ls ++ qs ++ rs).length := by
    rw [posv, List.length_zipWith, hall.length_eq, Nat.min_self]
  rw [hlv] at c1
  have hshift : x.shift = c.BL + c.B * l := h.ok.shift
  unfold concatRebalance
  rw [bind_ok hqs, bind_ok (liftO_eq (b := counts) (by unfold planOf; rw [if_pos c1, ← c2])), hshift]
  have hlv0 : levels c (c.BL + c.B * l) - 1 = l := by rw [levels_shift hB]; rfl
  rw [hlv0]
  refine out_bind (Q := fun s' hm => (∃ vm, (posv (ls ++ qs ++ rs) (xs ++ ns ++ ys)).foldlM (Merger.visit c) (Merger.init counts) = some vm ∧
      Par c E u l s'.mem O (C ++ L) hm vm ∧ hm.dst = none ∧ Kept (sys c E u) O (C ++ L) s.mem s'.mem))
    (out_guard (merge_out hB hE hall c3 c4 c5 h.inv hcf) ?_) ?_
  · intro s1 hg
    refine out_mono (HCen.release hB h.val hq1 hq2 hg.1) ?_ (fun _ h => h)
    intro s2 _ hg2
    exact ⟨hg2.1, (hg.2.mono hmono (fun _ h => h)).trans hg2.2⟩
  · rintro s1 hm ⟨vm', hv, hpar, hdst, hk1⟩
    have : vm' = vm := by
      have := hv.symm.trans c6
      simpa using this
    subst this
    obtain ⟨p, t, cl, ct, cap, Lp, Pr, hp, hi⟩ := hpar
    have hi1 : Inv (sys c E u) s1.mem (p :: t :: O) (C ++ (Lp ++ (Pr ++ L))) := hi.permL (by
      rw [← List.append_assoc, ← List.append_assoc, ← List.append_assoc Lp Pr L, ← List.append_assoc C]
      exact List.Perm.append_right _ List.perm_append_comm)
    refine out_bind (out_mono (HCen.release hB h.val hq1 hq2 hi1) (fun _ _ h => h) (fun _ h => h.elim)) ?_
    intro s2 _ hg2
    have h1 : s2.mem p = s1.mem p := hg2.2.2 p (by simp)
    have h2 : s2.mem t = s1.mem t := hg2.2.2 t (by simp)
    have hpar2 : Par c E u l s2.mem O L hm vm' := ⟨p, t, cl, ct, cap, Lp, Pr, { hp with op := hp.op.mem h1, tb := hp.tb.mem h2 }, hg2.1⟩
    obtain ⟨C', f1, f2, f3, f4, f5, f6⟩ := hpar2.finish
    unfold HMerger.finish
    rw [hdst]
    have hz : z = ⟨x.shift + c.B, vm'.prev ++ [Node.inner (some vm'.sz) vm'.cs], vm'.prevSizes ++ [vm'.size]⟩ := by
      simp [Merger.finish, c7, c8] at c10
      exact c10.symm
    have hms : vm'.prev ++ [Node.inner (some vm'.sz) vm'.cs] = ms := by rw [← c11.nodes, hz]
    refine ⟨C', ms, ⟨f1, by rw [f2, hms], f3, ?_, f4⟩, c12, c13, c14, (hk1.mono hmono (fun _ h => h)).trans (hg2.2.mono ?_ ?_)⟩
    · rw [hz] at c11
      have : (⟨x.shift + c.B, vm'.prev ++ [Node.inner (some vm'.sz) vm'.cs], vm'.prevSizes ++ [vm'.size]⟩ : Center T) = ⟨hm.shift, ms, hm.sizes⟩ := by
        rw [hms, f5, f6, hshift, Nat.mul_add, Nat.mul_one, Nat.add_assoc]
      rwa [this] at c11
    · intro r hr; simp [hr]
    · intro a ha; simp [ha]

end
end FlexHeap
