import Verif.FlexHeap.Concat
import Verif.FlexHeap.Calm

/-!
# Only what is asked to throws, for concatenation
-/

namespace Mm
variable {D T β : Type}

theorem Later.noCopy {s s' : St D T} (h : Later s.fault s'.fault) (hn : NoCopyFault s) : NoCopyFault s' := by
  intro n hf
  rcases h with h | h
  · rw [h] at hf; cases hf
  · rw [hf] at h
    cases hs : s.fault with
    | none => rw [hs] at h; cases h
    | some x =>
      rw [hs] at h
      obtain ⟨k, j⟩ := x
      simp only [Option.map_some, Option.some.injEq] at h
      exact hn j (by rw [hs, ← h])

/-- copies that do not throw will not throw -/
theorem out_noCopy {x : M D T β} {s : St D T} {Q : St D T → β → Prop} {F : St D T → Prop} (hx : Calm x) (h : Out (x s) Q F) :
    Out (x s) (fun s' b => Q s' b ∧ (NoCopyFault s → NoCopyFault s')) F := by
  have hc := hx s
  cases hxs : x s with
  | ok s' b =>
    rw [hxs] at h hc
    exact ⟨h, Later.noCopy hc⟩
  | thrown s' => rw [hxs] at h; exact h
  | ub => rw [hxs] at h; exact h

end Mm

namespace FlexHeap
open Mm Rrb VecHeap

variable {T : Type} (c : Cfg) (E : Env Dat T)

theorem calm_mkRoom (m : HMerger) : Calm (m.mkRoom c E) := by unfold HMerger.mkRoom; calm
theorem calm_put (m : HMerger) (q n : Nat) : Calm (m.put q n : HM T HMerger) := by unfold HMerger.put; calm
macro_rules | `(tactic| calm1) => `(tactic| with_reducible first | exact calm_mkRoom _ _ _ | exact calm_put _ _ _)
theorem calm_addDst (m : HMerger) (q n : Nat) : Calm (m.addDst c E q n) := by unfold HMerger.addDst; calm
theorem calm_addShared (m : HMerger) (q n : Nat) : Calm (m.addShared c E q n) := by unfold HMerger.addShared; calm
macro_rules | `(tactic| calm1) => `(tactic| with_reducible first | exact calm_addDst _ _ _ _ _ | exact calm_addShared _ _ _ _ _)
theorem calm_leafLoop (q : Nat) : ∀ fuel m off rem, Calm (HMerger.leafLoop c E q fuel m off rem)
  | 0, _, _, _ => calm_undef
  | fuel + 1, m, off, rem => by
    have ih := calm_leafLoop q fuel
    unfold HMerger.leafLoop
    cases m.dst <;> (calm <;> exact ih _ _ _)
theorem calm_takeKids (m : HMerger) (q : Nat) (sh : RShp) (d off k : Nat) : Calm (HMerger.takeKids E m q sh d off k) := by unfold HMerger.takeKids; calm
macro_rules | `(tactic| calm1) => `(tactic| with_reducible first | exact calm_leafLoop _ _ _ _ _ _ _ | exact calm_takeKids _ _ _ _ _ _ _)
theorem calm_innerLoop (q : Nat) (sh : RShp) : ∀ fuel m off rem, Calm (HMerger.innerLoop c E q sh fuel m off rem)
  | 0, _, _, _ => calm_undef
  | fuel + 1, m, off, rem => by
    have ih := calm_innerLoop q sh fuel
    unfold HMerger.innerLoop
    cases m.dst <;> (calm <;> exact ih _ _ _)
macro_rules | `(tactic| calm1) => `(tactic| with_reducible exact calm_innerLoop _ _ _ _ _ _ _ _)
theorem calm_mergeLeaf (m : HMerger) (q : Nat) (sh : RShp) : Calm (m.mergeLeaf c E q sh) := by unfold HMerger.mergeLeaf; calm
theorem calm_mergeInner (m : HMerger) (q : Nat) (sh : RShp) : Calm (m.mergeInner c E q sh) := by unfold HMerger.mergeInner; calm
macro_rules | `(tactic| calm1) => `(tactic| with_reducible first | exact calm_mergeLeaf _ _ _ _ _ | exact calm_mergeInner _ _ _ _ _)
theorem calm_visit (m : HMerger) (p : HPos) : Calm (m.visit c E p) := by unfold HMerger.visit; calm
macro_rules | `(tactic| calm1) => `(tactic| with_reducible exact calm_visit _ _ _ _)
theorem calm_visitAll : ∀ (ps : List HPos) (m : HMerger), Calm (HMerger.visitAll c E m ps)
  | [], _ => calm_ret _
  | p :: ps, m => calm_bind (calm_visit c E m p) fun m => calm_visitAll ps m
theorem calm_init (k : Nat) (cs : List Nat) : Calm (HMerger.init c E k cs) := by unfold HMerger.init; calm
theorem calm_relNodes (s : Nat) : ∀ ps, Calm (relNodes s ps : HM T (List HPos))
  | [] => calm_ret _
  | p :: ps => by
    have ih := calm_relNodes s ps
    unfold relNodes; calm
    exact ih
theorem calm_decAll (L : Nat) : ∀ ps, Calm (decAll c E L ps)
  | [] => calm_ret _
  | p :: ps => calm_bind (calm_decR c E L p.1 p.2) fun _ => calm_decAll L ps
macro_rules | `(tactic| calm1) => `(tactic| with_reducible first | exact calm_visitAll _ _ _ _ | exact calm_init _ _ _ _ | exact calm_relNodes _ _ | exact calm_decAll _ _ _ _)
theorem calm_subs (x : HCenter) : Calm (x.subs c : HM T (List HPos)) := by unfold HCenter.subs; calm
theorem calm_finish (m : HMerger) : Calm (m.finish : HM T HCenter) := by unfold HMerger.finish; cases m.dst <;> calm
macro_rules | `(tactic| calm1) => `(tactic| with_reducible first | exact calm_subs _ _ | exact calm_finish _)
theorem calm_realize (x : HCenter) : Calm (x.realize c E) := by unfold HCenter.realize; calm
theorem calm_concatRebalance (ls : List HPos) (x : HCenter) (rs : List HPos) : Calm (concatRebalance c E ls x rs) := by unfold concatRebalance; calm
theorem calm_concatLeafs (l : HPos) (t : Option HPos) (r : HPos) : Calm (concatLeafs c E l t r) := by unfold concatLeafs; cases t <;> (simp only; calm)
theorem calm_relSubs (s : Nat) : ∀ prev ks es, Calm (relSubs c s prev ks es : HM T (List HPos))
  | _, _, [] => by unfold relSubs; exact calm_ret _
  | _, q :: qs, e :: es => by
    have ih := calm_relSubs s e qs es
    unfold relSubs; calm
    exact ih
  | _, [], _ :: _ => calm_undef
macro_rules | `(tactic| calm1) => `(tactic| with_reducible first | exact calm_realize _ _ _ | exact calm_concatRebalance _ _ _ _ _ | exact calm_concatLeafs _ _ _ _ _ | exact calm_relSubs _ _ _ _ _)
theorem calm_eachLeftSub (p : Nat) (sh : RShp) : Calm (eachLeftSub c p sh : HM T (List HPos)) := by
  unfold eachLeftSub; split <;> calm
theorem calm_eachRightSub (p : Nat) (sh : RShp) : Calm (eachRightSub c p sh : HM T (List HPos)) := by
  unfold eachRightSub; split <;> calm
theorem calm_lastSub (p : Nat) (sh : RShp) : Calm (lastSub c p sh : HM T HPos) := by
  unfold lastSub; split <;> calm
theorem calm_firstSub (p : Nat) (sh : RShp) : Calm (firstSub c p sh : HM T HPos) := by
  unfold firstSub; split <;> calm
theorem calm_firstSubLeaf (p : Nat) (sh : RShp) : Calm (firstSubLeaf c p sh : HM T HPos) := by
  unfold firstSubLeaf; split <;> calm
macro_rules | `(tactic| calm1) => `(tactic| with_reducible first | exact calm_eachLeftSub _ _ _ | exact calm_eachRightSub _ _ _ | exact calm_lastSub _ _ _ | exact calm_firstSub _ _ _ | exact calm_firstSubLeaf _ _ _)
theorem calm_lLast (l : HLeft) : Calm (l.lastSub c : HM T HPos) := by unfold HLeft.lastSub; split <;> calm
theorem calm_lEach (l : HLeft) : Calm (l.eachLeftSub c : HM T (List HPos)) := by unfold HLeft.eachLeftSub; split <;> calm
macro_rules | `(tactic| calm1) => `(tactic| with_reducible first | exact calm_lLast _ _ | exact calm_lEach _ _)
theorem calm_concatInners : ∀ fuel l t r, Calm (concatInners c E fuel l t r)
  | 0, _, _, _ => calm_undef
  | fuel + 1, l, t, r => by
    have ih := calm_concatInners fuel
    unfold concatInners
    cases l <;> (calm <;> first | exact ih _ _ _ | (simp only; calm))
macro_rules | `(tactic| calm1) => `(tactic| with_reducible exact calm_concatInners _ _ _ _ _ _)
theorem calm_concatTrees (a b d e f g h i : Nat) : Calm (concatTrees c E a b d e f g h i) := by unfold concatTrees; calm
theorem calm_concatTreesTail (a b d e f : Nat) : Calm (concatTreesTail c E a b d e f) := by unfold concatTreesTail; calm
theorem calm_copyLeaf2 (own : Option Nat) (a b d e : Nat) : Calm (copyLeaf2 c E own a b d e) := by unfold copyLeaf2; calm
macro_rules | `(tactic| calm1) => `(tactic| with_reducible first | exact calm_concatTrees _ _ _ _ _ _ _ _ _ _ | exact calm_concatTreesTail _ _ _ _ _ _ _ | exact calm_copyLeaf2 _ _ _ _ _ _ _)
theorem calm_concatTail (own : Option Nat) (b : Bool) (l : Vc) (o : Nat) (r : Vc) : Calm (Fc.concatTail c E own b l o r) := by unfold Fc.concatTail; calm
macro_rules | `(tactic| calm1) => `(tactic| with_reducible exact calm_concatTail _ _ _ _ _ _ _)
theorem calm_concat (l r : Vc) : Calm (Fc.concat c E l r) := by unfold Fc.concat; calm

end FlexHeap
