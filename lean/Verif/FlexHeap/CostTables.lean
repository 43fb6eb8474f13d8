import Verif.FlexHeap.CostGc

/-!
# Tables of sizes that concatenation makes for nodes that are changed in place (C50)

These are counted apart from other allocations (`Kind.table`).  Only the push of a full tail makes them, one for each level at most.
-/

namespace FlexHeap
open Mm Rrb VecHeap

variable {T β δ : Type} (c : Cfg) (E : Env Dat T)

/-- none is made -/
def Zt (x : HM T β) : Prop := Uses .table 0 x

theorem tab {k : Nat} {x : HM T β} (h : Uses .table k x) (hk : k = 0 := by rfl) : Zt x := by subst hk; exact h
theorem tab_ret (b : β) : Zt (M.ret b : HM T β) := uses_ret _
theorem tab_undef : Zt (undef : HM T β) := uses_undef
theorem tab_bind {x : HM T β} {f : β → HM T δ} (hx : Zt x) (hf : ∀ b, Zt (f b)) : Zt (x.bind f) := uses_bind hx (Nat.le_refl _) hf
theorem tab_guard {x : HM T β} {y : HM T Unit} (hx : Zt x) : Zt (x.guard y) := uses_guard hx
theorem tab_ite {p : Prop} [Decidable p] {x y : HM T β} (hx : Zt x) (hy : Zt y) : Zt (if p then x else y) := uses_ite hx hy

/-- what is known -/
syntax "tab0" : tactic
macro_rules | `(tactic| tab0) => `(tactic| (refine tab (k := ?_) ?_ ?_; rotate_left; (focus uses0); rfl))

/-- one step -/
macro "tab1" : tactic => `(tactic| first
  | with_reducible exact tab_ret _
  | with_reducible exact tab_undef
  | with_reducible assumption
  | tab0
  | with_reducible refine tab_bind ?_ (fun _ => ?_)
  | with_reducible refine tab_guard ?_
  | with_reducible refine tab_ite ?_ ?_
  | split)

macro "tabs" : tactic => `(tactic| repeat' tab1)

namespace HMerger

theorem tab_mkRoom (m : HMerger) : Zt (m.mkRoom c E) := by unfold mkRoom; tabs
theorem tab_put (m : HMerger) (q size : Nat) : Zt (m.put q size : HM T HMerger) := by unfold put; tabs
macro_rules | `(tactic| tab0) => `(tactic| with_reducible first | exact tab_mkRoom _ _ _ | exact tab_put _ _ _)
theorem tab_addDst (m : HMerger) (q size : Nat) : Zt (m.addDst c E q size) := by unfold addDst; tabs
theorem tab_addShared (m : HMerger) (q size : Nat) : Zt (m.addShared c E q size) := by unfold addShared; tabs

macro_rules | `(tactic| tab0) => `(tactic| with_reducible first | exact tab_addDst _ _ _ _ _ | exact tab_addShared _ _ _ _ _)

theorem tab_leafLoop (q : Nat) : ∀ fuel (m : HMerger) off rem, Zt (leafLoop c E q fuel m off rem)
  | 0, _, _, _ => tab_undef
  | fuel + 1, m, off, rem => by
    have ih := tab_leafLoop q fuel
    unfold leafLoop
    tabs
    all_goals exact ih _ _ _

macro_rules | `(tactic| uses0) => `(tactic| with_reducible exact uses_takeKids _ _ _ _ _ _ _)

theorem tab_innerLoop (q : Nat) (sh : RShp) : ∀ fuel (m : HMerger) off rem, Zt (innerLoop c E q sh fuel m off rem)
  | 0, _, _, _ => tab_undef
  | fuel + 1, m, off, rem => by
    have ih := tab_innerLoop q sh fuel
    unfold innerLoop
    tabs
    all_goals exact ih _ _ _


theorem tab_mergeLeaf (m : HMerger) (q : Nat) (sh : RShp) : Zt (mergeLeaf c E m q sh) := by
  have h := tab_leafLoop c E q (sh.count c + 1) m 0 (sh.count c)
  unfold mergeLeaf; tabs

theorem tab_mergeInner (m : HMerger) (q : Nat) (sh : RShp) : Zt (mergeInner c E m q sh) := by
  have h := tab_innerLoop c E q sh (sh.count c + 1) m 0 (sh.count c)
  unfold mergeInner; tabs

theorem tab_visitAll : ∀ (ps : List HPos) (m : HMerger), Zt (visitAll c E m ps)
  | [], _ => tab_ret _
  | p :: ps, m => tab_bind (tab_ite (tab_mergeLeaf c E m p.1 p.2) (tab_mergeInner c E m p.1 p.2)) fun m => tab_visitAll ps m

theorem tab_init (shift : Nat) (counts : List Nat) : Zt (init c E shift counts) := by unfold init; tabs

end HMerger

theorem tab_concatRebalance (ls : List HPos) (x : HCenter) (rs : List HPos) : Zt (concatRebalance c E ls x rs) := by
  unfold concatRebalance
  exact tab_bind (tab (uses_subs _ _)) fun _ => tab_bind (tab (uses_liftO _)) fun _ =>
    tab_bind (tab_guard (tab_bind (HMerger.tab_init c E _ _) fun _ => HMerger.tab_visitAll c E _ _)) fun _ =>
    tab_bind (tab (uses_decAll _ _ _ _)) fun _ => tab (HMerger.uses_finish _)
macro_rules | `(tactic| tab0) => `(tactic| with_reducible first | exact tab_concatRebalance _ _ _ _ _ | exact tab (uses_concatLeafs _ _ _ _ _))

theorem tab_concatInners : ∀ fuel l t r, Zt (concatInners c E fuel l t r)
  | 0, _, _, _ => tab_undef
  | fuel + 1, l, t, r => by
    have ih := tab_concatInners fuel
    unfold concatInners
    tabs
    all_goals exact ih _ _ _

macro_rules | `(tactic| tab0) => `(tactic| with_reducible first | exact tab_concatInners _ _ _ _ _ _)
macro_rules | `(tactic| uses0) => `(tactic| with_reducible exact uses_realize _ _ _)

theorem tab_concatTrees (lroot lshift lsize ltail ltcount rroot rshift rsize : Nat) : Zt (concatTrees c E lroot lshift lsize ltail ltcount rroot rshift rsize) := by
  unfold concatTrees; tabs

theorem tab_concatTreesTail (ltail ltcount rroot rshift rsize : Nat) : Zt (concatTreesTail c E ltail ltcount rroot rshift rsize) := by
  unfold concatTreesTail; tabs

theorem tab_trees (l : Vc) (o : Nat) (r : Vc) (ro : Nat) :
    Zt (if o = 0 then concatTreesTail c E l.tail (l.size - o) r.root r.shift ro else concatTrees c E l.root l.shift o l.tail (l.size - o) r.root r.shift ro) :=
  tab_ite (tab_concatTreesTail c E _ _ _ _ _) (tab_concatTrees c E _ _ _ _ _ _ _ _)

theorem tab_concatTail (own : Option Nat) (share : Bool) (l : Vc) (o : Nat) (r : Vc) : Zt (Fc.concatTail c E own share l o r) := by
  unfold Fc.concatTail
  tabs

theorem tab_concat (l r : Vc) : Zt (Fc.concat c E l r) := by
  unfold Fc.concat
  split
  · tabs
  split
  · tabs
  refine tab_bind (tab (uses_off c r)) fun ro => tab_bind (tab (uses_off c l)) fun o => ?_
  split
  · exact tab_bind (tab_concatTail c E _ _ _ _ _) fun _ => tab_ret _
  · exact tab_bind (tab_trees c E l o r ro) fun x => tab_bind (tab (uses_inc _ _)) fun _ => tab_ret _


theorem tab_concatMutR (share : Bool) (e : Nat) (l r : Vc) : Zt (Fc.concatMutR c E share e l r) := by
  unfold Fc.concatMutR
  split
  · tabs
  split
  · tabs
  refine tab_bind (tab (uses_off c r)) fun ro => tab_bind (tab (uses_off c l)) fun o => ?_
  refine tab_bind ?_ fun x => tab_bind (tab (uses_fdrop c E r)) fun _ => tab_ret _
  split
  · exact tab_concatTail c E _ _ _ _ _
  · exact tab_bind (tab_trees c E l o r ro) fun x => tab_bind (tab (uses_inc _ _)) fun _ => tab_ret _

/-- one table for each level -/
theorem tables_pushTailMut (e root shift size tail ts : Nat) : Uses .table (levels c shift) (Fc.pushTailMut c E e root shift size tail ts) :=
  uses_fpushTailMut c E e root shift size tail ts

theorem tables_fillTail (mv : Bool) (e : Nat) (l r : Vc) (o : Nat) : Uses .table (levels c l.shift)
    ((canMutate E e r.tail).bind fun b =>
      (attempt
        ((if mv && b then uninitMove r.tail 0 (min r.size (2 ^ c.BL - (l.size - o))) l.tail (l.size - o) else uninitCopy r.tail 0 (min r.size (2 ^ c.BL - (l.size - o))) l.tail (l.size - o)).bind fun _ =>
          if l.size - o + r.size ≤ 2 ^ c.BL then M.ret { l with size := l.size + r.size }
          else
            ((copyLeafI c E (some e) r.tail (min r.size (2 ^ c.BL - (l.size - o))) r.size).bind fun nt =>
              ((Fc.pushTailMut c E e l.root l.shift o l.tail (2 ^ c.BL)).bind fun x =>
                M.ret (Vc.mk (l.size + r.size) x.1 x.2 nt)).guard (delLeaf c E nt (r.size - min r.size (2 ^ c.BL - (l.size - o))))).guard
            (destroyN r.tail (l.size - o) (min r.size (2 ^ c.BL - (l.size - o)))))).bind fun x =>
      match x with
      | some l' => M.ret (l', false)
      | none => M.ret (l, true)) := by
  refine uses_bind (uses_canMutate _ _ _) (Nat.zero_le _) fun b => uses_attempt_bind (k := levels c l.shift) ?_ (Nat.le_refl _) fun _ => uses_ret _
  refine uses_bind (k := 0) ?_ (Nat.zero_le _) fun _ => ?_
  · uses
  · uses

theorem tables_concatMutL (mv : Bool) (e : Nat) (l r : Vc) : Uses .table (levels c l.shift) (Fc.concatMutL c E mv e l r) := by
  unfold Fc.concatMutL
  split
  · uses
  split
  · uses
  refine uses_bind (uses_off c r) (Nat.zero_le _) fun ro => uses_bind (uses_off c l) (Nat.zero_le _) fun o => ?_
  split
  · split
    · exact uses_bind (tables_pushTailMut c E _ _ _ _ _ _) (Nat.le_refl _) fun x => uses_bind (uses_inc _ _) (Nat.zero_le _) fun _ => uses_ret _
    · unfold Vc.mutableTail
      rw [assoc_eq]
      refine uses_bind (uses_canMutate _ _ _) (Nat.zero_le _) fun b => ?_
      split
      · exact uses_mono (tables_fillTail c E mv e l r o) (by omega)
      · rw [assoc_eq]
        refine uses_bind (uses_copyLeaf c E _ _ _) (Nat.zero_le _) fun t => ?_
        rw [assoc_eq]
        exact uses_bind (uses_decLeaf c E _ _) (Nat.zero_le _) fun _ => uses_mono (tables_fillTail c E mv e { l with tail := t } r o) (Nat.le_refl _)
  · exact uses_mono (tab_bind (tab_trees c E l o r ro) fun x => tab_bind (tab (uses_inc _ _)) fun _ => tab_bind (tab (uses_fdrop c E l)) fun _ => tab_ret _) (Nat.zero_le _)

/-! ### Under the collector -/

namespace Gc

macro_rules | `(tactic| uses0) => `(tactic| with_reducible first | exact uses_can _ _ _ | exact uses_mutTable _ _ _ _ _ | exact uses_putSize _ _ _ | exact uses_cutSizes _ _ | exact uses_construct _ _ _ | exact uses_slide _ _ _ _ | exact uses_forget _ _ | exact uses_theLeaf _ | exact uses_putKids _ _ _ _ _ | exact uses_withTable _ | exact uses_usable _ _ _ | exact uses_leafs _ _ _ _ | exact uses_realize _ _ _ _)

theorem tab_fill (mv : Bool) (src : Nat) : ∀ i n dst o, Zt (fill mv src i n dst o : HM T Unit)
  | _, 0, _, _ => tab_ret _
  | i, n + 1, dst, o => by
    have ih := tab_fill mv src (i + 1) n dst (o + 1)
    unfold fill
    tabs
macro_rules | `(tactic| tab0) => `(tactic| with_reducible exact tab_fill _ _ _ _ _ _)

theorem tab_init (ec shift : Nat) (counts : List Nat) (cand : Option (Option Nat × Nat)) : Zt (init c E ec shift counts cand) := by unfold init; tabs
theorem tab_addChild (m : Merger) (q size : Nat) : Zt (addChild c E m q size) := by unfold addChild; tabs
macro_rules | `(tactic| tab0) => `(tactic| with_reducible first | exact tab_init _ _ _ _ _ _ | exact tab_addChild _ _ _ _ _)

theorem tab_leafLoop (q : Nat) (b : Bool) : ∀ fuel (m : Merger) off rem, Zt (leafLoop c E q b fuel m off rem)
  | 0, _, _, _ => tab_undef
  | fuel + 1, m, off, rem => by
    have ih := tab_leafLoop q b fuel
    unfold leafLoop
    tabs
    all_goals exact ih _ _ _

theorem tab_innerLoop (q : Nat) (sh : RShp) (e : Option Nat) (b : Bool) : ∀ fuel (m : Merger) off rem, Zt (innerLoop c E q sh e b fuel m off rem)
  | 0, _, _, _ => tab_undef
  | fuel + 1, m, off, rem => by
    have ih := tab_innerLoop q sh e b fuel
    unfold innerLoop
    tabs
    all_goals exact ih _ _ _
macro_rules | `(tactic| tab0) => `(tactic| with_reducible first | exact tab_leafLoop _ _ _ _ _ _ _ _ | exact tab_innerLoop _ _ _ _ _ _ _ _ _ _)

theorem tab_mergeLeaf (e : Option Nat) (m : Merger) (q : Nat) (sh : RShp) : Zt (mergeLeaf c E e m q sh) := by unfold mergeLeaf; tabs
theorem tab_mergeInner (e : Option Nat) (m : Merger) (q : Nat) (sh : RShp) : Zt (mergeInner c E e m q sh) := by unfold mergeInner; tabs
theorem tab_visit (e : Option Nat) (m : Merger) (q : Nat) (sh : RShp) : Zt (visit c E e m q sh) := tab_ite (tab_mergeLeaf c E e m q sh) (tab_mergeInner c E e m q sh)
macro_rules | `(tactic| tab0) => `(tactic| with_reducible exact tab_visit _ _ _ _ _ _)

theorem tab_eachReg (e : Option Nat) (p : Nat) : ∀ i shs (m : Merger), Zt (eachReg c E e p i shs m)
  | _, [], _ => tab_ret _
  | i, sh :: shs, m => by
    have ih := tab_eachReg e p (i + 1) shs
    unfold eachReg
    tabs
    all_goals exact ih _
theorem tab_eachRel (e : Option Nat) (p t s : Nat) : ∀ k i prev (m : Merger), Zt (eachRel c E e p t s k i prev m)
  | 0, _, _, _ => tab_ret _
  | k + 1, i, prev, m => by
    have ih := tab_eachRel e p t s k
    unfold eachRel
    tabs
    all_goals exact ih _ _ _
macro_rules | `(tactic| tab0) => `(tactic| with_reducible first | exact tab_eachReg _ _ _ _ _ _ _ | exact tab_eachRel _ _ _ _ _ _ _ _ _ _)

theorem tab_eachLeftSub (e : Option Nat) (m : Merger) (l : Option MLeft) : Zt (eachLeftSub c E e m l) := by unfold eachLeftSub; tabs
theorem tab_eachRightSub (e : Option Nat) (m : Merger) (r : Option MPos) : Zt (eachRightSub c E e m r) := by unfold eachRightSub; tabs
theorem tab_centreLeaves (e : Option Nat) : ∀ ps (m : Merger), Zt (centreLeaves c E e ps m)
  | [], _ => tab_ret _
  | p :: ps, m => tab_bind (tab_visit c E e m p.1 p.2) fun m => tab_centreLeaves e ps m
theorem tab_centreNodes (e : Option Nat) (s : Nat) : ∀ ps (m : Merger), Zt (centreNodes c E e s ps m)
  | [], _ => tab_ret _
  | p :: ps, m => tab_bind (tab (uses_theTable _)) fun t => tab_bind (tab (uses_sizesOf _)) fun sz => tab_bind (tab_visit c E e m p (.rel s sz)) fun m => tab_centreNodes e s ps m
macro_rules | `(tactic| tab0) => `(tactic| with_reducible first | exact tab_eachLeftSub _ _ _ _ _ | exact tab_eachRightSub _ _ _ _ _ | exact tab_centreLeaves _ _ _ _ _ | exact tab_centreNodes _ _ _ _ _ _)

theorem tab_rebalance (ec : Nat) (el : Option Nat) (l : Option MLeft) (x : HCenter) (er : Option Nat) (r : Option MPos) : Zt (rebalance c E ec el l x er r) := by
  unfold rebalance; tabs
macro_rules | `(tactic| tab0) => `(tactic| with_reducible exact tab_rebalance _ _ _ _ _ _ _ _)

theorem tab_inners (ec : Nat) (el er : Option Nat) : ∀ fuel l t r, Zt (inners c E ec el er fuel l t r)
  | 0, _, _, _ => tab_undef
  | fuel + 1, l, t, r => by
    have ih := tab_inners ec el er fuel
    unfold inners
    tabs
    all_goals exact ih _ _ _
macro_rules | `(tactic| tab0) => `(tactic| with_reducible exact tab_inners _ _ _ _ _ _ _ _ _)

theorem tab_trees (ec : Nat) (el : Option Nat) (lroot lshift lsize ltail ltcount : Nat) (er : Option Nat) (rroot rshift rsize : Nat) :
    Zt (trees c E ec el lroot lshift lsize ltail ltcount er rroot rshift rsize) := by unfold trees; tabs
theorem tab_treesTail (ec : Nat) (el : Option Nat) (ltail ltcount : Nat) (er : Option Nat) (rroot rshift rsize : Nat) :
    Zt (treesTail c E ec el ltail ltcount er rroot rshift rsize) := by unfold treesTail; tabs
macro_rules | `(tactic| tab0) => `(tactic| with_reducible first | exact tab_trees _ _ _ _ _ _ _ _ _ _ _ _ _ | exact tab_treesTail _ _ _ _ _ _ _ _ _ _)

theorem tables_intoTail (b : Bool) (el : Nat) (l r : Vc) (o : Nat) : Uses .table (levels c l.shift)
    ((fill b r.tail 0 (min r.size (2 ^ c.BL - (l.size - o))) l.tail (l.size - o)).bind fun _ =>
      if l.size - o + r.size ≤ 2 ^ c.BL then M.ret { l with size := l.size + r.size }
      else
        (copyLeafI c E (some el) r.tail (min r.size (2 ^ c.BL - (l.size - o))) r.size).bind fun nt =>
          (Fc.pushTailMut c E el l.root l.shift o l.tail (2 ^ c.BL)).bind fun x =>
            M.ret (Vc.mk (l.size + r.size) x.1 x.2 nt)) := by
  refine uses_bind (tab_fill _ _ _ _ _ _) (Nat.zero_le _) fun _ => ?_
  split
  · exact uses_ret _
  · exact uses_bind (uses_copyLeafI c E _ _ _ _) (Nat.zero_le _) fun nt => uses_bind (tables_pushTailMut c E _ _ _ _ _ _) (Nat.le_refl _) fun x => uses_ret _

theorem tables_concatMutL (el : Nat) (er : Option Nat) (l r : Vc) : Uses .table (levels c l.shift) (concatMutL c E el er l r) := by
  unfold concatMutL
  split
  · exact uses_ret _
  split
  · exact uses_ret _
  refine uses_bind (uses_off c r) (Nat.zero_le _) fun ro => uses_bind (uses_off c l) (Nat.zero_le _) fun o => ?_
  split
  · split
    · exact uses_bind (tables_pushTailMut c E _ _ _ _ _ _) (Nat.le_refl _) fun x => uses_ret _
    · unfold Vc.mutableTail
      rw [assoc_eq]
      refine uses_bind (uses_canMutate _ _ _) (Nat.zero_le _) fun b => ?_
      have key : ∀ v : Vc, v.shift = l.shift → Uses .table (levels c l.shift) ((can E er r.tail).bind fun b => (attempt
                ((fill b r.tail 0 (min r.size (2 ^ c.BL - (v.size - o))) v.tail (v.size - o)).bind fun _ =>
                  if v.size - o + r.size ≤ 2 ^ c.BL then M.ret { v with size := v.size + r.size }
                  else
                    (copyLeafI c E (some el) r.tail (min r.size (2 ^ c.BL - (v.size - o))) r.size).bind fun nt =>
                      (Fc.pushTailMut c E el v.root v.shift o v.tail (2 ^ c.BL)).bind fun x =>
                        M.ret (Vc.mk (v.size + r.size) x.1 x.2 nt))).bind fun x =>
              match x with
              | some l' => M.ret (l', false)
              | none => M.ret (v, true)) := by
        intro v hv
        refine uses_bind (uses_can _ _ _) (Nat.zero_le _) fun b => uses_attempt_bind (tables_intoTail c E b el v r o) (by rw [hv]; exact Nat.le_refl _) fun _ => uses_ret _
      split
      · exact key l rfl
      · rw [assoc_eq]
        refine uses_bind (uses_copyLeaf c E _ _ _) (Nat.zero_le _) fun t => ?_
        rw [assoc_eq]
        exact uses_bind (uses_decLeaf c E _ _) (Nat.zero_le _) fun _ => key { l with tail := t } rfl
  · refine uses_mono (k := 0) ?_ (Nat.zero_le _)
    refine tab_bind ?_ fun x => tab_ret _
    tabs

theorem tab_concatMutR (el : Option Nat) (er : Nat) (l r : Vc) : Zt (concatMutR c E el er l r) := by
  have h := fun o => FlexHeap.tab_concatTail c E (some er) true l o r
  unfold concatMutR
  tabs
  all_goals exact h _

theorem wtables_change (b : Bin) (i j : Nat) (h h' : Obj) : WUses .table (levels c h.v.shift) (change c E b i j h h') := by
  have ht : WUses .table 0 (newTok (T := T) E) := wuses_newTok E
  unfold change
  split
  · exact wuses_ret _
  cases b with
  | plus => exact wuses_ret _
  | appendTo =>
    exact wuses_bind ht (Nat.zero_le _) fun t => wuses_bind (wuses_setOwner _ _) (Nat.zero_le _) fun _ => wuses_honest (tables_concatMutL c E _ _ _ _) (honest_concatMutL c E _ _ _ _) (Nat.le_refl _) fun v =>
      wuses_bind (wuses_setVc _ _) (Nat.zero_le _) fun _ => wuses_pure fun _ => ⟨rfl, rfl, rfl⟩
  | prependTo =>
    exact wuses_bind ht (Nat.zero_le _) fun t => wuses_bind (wuses_setOwner _ _) (Nat.zero_le _) fun _ => wuses_bind (wuses_lift (tab_concatMutR c E _ _ _ _)) (Nat.zero_le _) fun v => wuses_mono (wuses_setVc _ _) (Nat.zero_le _)
  | appendMove =>
    exact wuses_honest (tables_concatMutL c E _ _ _ _) (honest_concatMutL c E _ _ _ _) (Nat.le_refl _) fun v => wuses_bind (wuses_setVc _ _) (Nat.zero_le _) fun _ => wuses_pure fun _ => ⟨rfl, rfl, rfl⟩
  | prependMove => exact wuses_bind (wuses_lift (tab_concatMutR c E _ _ _ _)) (Nat.zero_le _) fun v => wuses_bind (wuses_setVc _ _) (Nat.zero_le _) fun _ => wuses_pure fun _ => ⟨rfl, rfl, rfl⟩

end Gc

section
variable {c : Cfg} {E : Env Dat T} {w : World T}

theorem wtables_changeBin (b : Bin) (i j : Nat) (h h' : Obj) : WUses .table (levels c h.v.shift) (changeBin c E b i j h h') := by
  unfold changeBin
  split
  · exact wuses_ret _
  cases b with
  | plus => exact wuses_ret _
  | appendTo => exact wuses_honest (tables_concatMutL c E _ _ _ _) (honest_concatMutL _ _ _ _) (Nat.le_refl _) fun v => wuses_bind (wuses_setVc _ _) (Nat.zero_le _) fun _ => wuses_pure fun _ => ⟨rfl, rfl, rfl⟩
  | prependTo => exact wuses_bind (wuses_lift (tab_concatMutR c E _ _ _ _)) (Nat.zero_le _) fun v => wuses_mono (wuses_setVc _ _) (Nat.zero_le _)
  | appendMove =>
    exact wuses_honest (tables_concatMutL c E _ _ _ _) (honest_concatMutL _ _ _ _) (Nat.le_refl _) fun v => wuses_bind (wuses_setVc _ _) (Nat.zero_le _) fun _ => by
      rw [if_neg Bool.false_ne_true]
      exact wuses_bind (wuses_lift (uses_fdrop c E _)) (Nat.zero_le _) fun _ => wuses_pure fun _ => ⟨rfl, rfl, rfl⟩
  | prependMove => exact wuses_bind (wuses_lift (tab_concatMutR c E _ _ _ _)) (Nat.zero_le _) fun v => wuses_mono (wuses_setVc _ _) (Nat.zero_le _)

/-- **C50**, the tables of sizes that are made for nodes that are changed in place, which `C50_bound` does not count: at most one for
each level of the first operand, in any of the five ways, with reference counting and under the collector.  With that many, a join
does not throw because of them. -/
theorem C50_tables {X : Elem T} {er et : Nat} {b : Bin} {i j : Nat} {oi oj : Obj} (hi : w.objs[i]? = some oi) (hj : w.objs[j]? = some oj) {l : Nat}
    (hl : levels c oi.v.shift ≤ l) {n : Nat} (hn : l ≤ n) :
    (∃ w' n', joinCall c E X er et (some (.table, n)) b i j w = .ok w' () ∧ w'.st.fault = some (.table, n') ∧ n ≤ n' + l ∧
      joinCall c E X er et none b i j w = .ok w'.calm ()) ∨
    (joinCall c E X er et (some (.table, n)) b i j w = .ub ∧ joinCall c E X er et none b i j w = .ub) := by
  have h2 : Within .table (levels c oi.v.shift) n (joinCall c E X er et (some (.table, n)) b i j w) (joinCall c E X er et none b i j w) := by
    unfold joinCall
    split
    · have h3 := Gc.wtables_change c E b i j oi oj { w with st := { w.st with fault := some (.table, n) } } n rfl (by omega)
      simp only [Gc.call, withObj, hi, hj]
      split
      · split
        · exact h3
        · exact ⟨n, rfl, by omega, rfl⟩
      · exact ⟨n, rfl, by omega, rfl⟩
    · have hu : WUses .table (levels c oi.v.shift)
          (if b = .plus ∨ (E.gc = true ∧ oi.kd = .value) then (lift (Fc.concat c E oi.v oj.v)).bind fun x => push ⟨.value, x, 0⟩ else changeBin c E b i j oi oj) := by
        split
        · exact wuses_bind (wuses_lift (tab_concat c E _ _)) (Nat.zero_le _) fun x => wuses_mono (wuses_push _) (Nat.zero_le _)
        · exact wtables_changeBin b i j oi oj
      have h3 := hu { w with st := { w.st with fault := some (.table, n) } } n rfl (by omega)
      simp only [ccall, fstep, stepBin, withObj, hi, hj]
      split
      · split
        · exact h3
        · exact ⟨n, rfl, by omega, rfl⟩
      · exact ⟨n, rfl, by omega, rfl⟩
  cases hx : joinCall c E X er et (some (.table, n)) b i j w with
  | ub => rw [hx] at h2; exact .inr ⟨rfl, h2⟩
  | thrown _ => rw [hx] at h2; exact h2.elim
  | ok w' u =>
    rw [hx] at h2
    obtain ⟨n', h3, h4, h5⟩ := h2
    exact .inl ⟨w', n', rfl, h3, by omega, h5⟩

end
end FlexHeap
