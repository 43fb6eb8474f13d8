import Verif.ChampHeap.Model
import Verif.Mem.Elems

/-!
# Without faults, nothing throws
-/

namespace ChampHeap
open Mm Champ

variable {w : Nat} {T : Type}

theorem calm_liftO {β : Type} (o : Option β) : Calm (liftO o : HM w T β) := by
  cases o
  · exact calm_undef
  · exact calm_ret _

theorem calm_getI (p : Nat) : Calm (getI p : HM w T (Inner w)) := by
  unfold getI
  refine calm_bind (calm_cell p) fun c => ?_
  split
  · exact calm_ret _
  · exact calm_undef

theorem calm_setI (p : Nat) (f : Inner w → Inner w) : Calm (setI p f : HM w T Unit) := by
  unfold setI
  refine calm_bind (calm_cell p) fun c => ?_
  split
  · exact calm_modify _ _
  · exact calm_undef

theorem calm_collCount (p : Nat) : Calm (collCount p : HM w T Nat) := by
  unfold collCount
  refine calm_bind (calm_cell p) fun c => ?_
  split
  · exact calm_ret _
  · exact calm_undef

theorem calm_writeKids (p o : Nat) (ys : List Nat) : Calm (writeKids p o ys : HM w T Unit) := by
  unfold writeKids
  exact calm_bind (calm_getI p) fun c => calm_ite (calm_setI _ _) calm_undef

theorem calm_valuesPtr (p : Nat) : Calm (valuesPtr p : HM w T Nat) := calm_bind (calm_getI p) fun _ => calm_liftO _

theorem calm_each {f : Nat → HM w T Unit} (hf : ∀ q, Calm (f q)) : ∀ ys, Calm (each f ys)
  | [] => calm_ret _
  | y :: ys => calm_bind (hf y) fun _ => calm_each hf ys

theorem calm_incNodes (E : Env (Dat w) T) (ys : List Nat) : Calm (incNodes E ys) := calm_each (fun q => calm_inc E q) ys

theorem calm_tickU : Calm (tick .user : HM w T Unit) := calm_tick _

/-- apply the rules -/
syntax "calm" : tactic
macro_rules
  | `(tactic| calm) => `(tactic| repeat (first
      | exact calm_ret _ | exact calm_undef | exact calm_liftO _ | exact calm_getI _ | exact calm_setI _ _ | exact calm_collCount _ | exact calm_writeKids _ _ _
      | exact calm_valuesPtr _ | exact calm_incNodes _ _ | exact calm_inc _ _ | exact calm_dec _ _ | exact calm_canMutate _ _ _ | exact calm_setTok _ _ _
      | exact calm_readEl _ _ | exact calm_copyEl _ _ | exact calm_moveEl _ _ | exact calm_construct _ _ _ | exact calm_assignEl _ _ _ | exact calm_destroy1 _ _
      | exact calm_destroyN _ _ _ | exact calm_uninitCopy _ _ _ _ _ | exact calm_uninitMove _ _ _ _ _ | exact calm_alloc _ _ _ | exact calm_dealloc _ _ _ _ | exact calm_tickU
      | refine calm_bind ?_ fun _ => ?_ | refine calm_guard ?_ | refine calm_ite ?_ ?_ | split))

section
variable (E : Env (Dat w) T)

theorem calm_deallocInnerV (p n nv : Nat) : Calm (deallocInnerV p n nv : HM w T Unit) := by
  unfold deallocInnerV deallocEls deallocInner; calm

theorem calm_deleteValues (v n : Nat) : Calm (deleteValues v n : HM w T Unit) := by
  unfold deleteValues deallocEls; calm

theorem calm_deleteInner (p : Nat) : Calm (deleteInner E p) := by
  unfold deleteInner deallocInner deleteValues deallocEls; calm

theorem calm_deleteCollision (p : Nat) : Calm (deleteCollision p : HM w T Unit) := by
  unfold deleteCollision deallocEls; calm

theorem calm_deleteDeep : ∀ d p, Calm (deleteDeep E d p)
  | 0, p => calm_deleteCollision p
  | d + 1, p => by
    unfold deleteDeep
    refine calm_bind (calm_getI p) fun _ => calm_bind (calm_liftO _) fun _ => calm_bind (calm_each (fun q => ?_) _) fun _ => calm_deleteInner E p
    exact calm_bind (calm_dec E q) fun _ => calm_ite (calm_deleteDeep d q) (calm_ret _)

theorem calm_release (d p : Nat) : Calm (release E d p) := calm_bind (calm_dec E p) fun _ => calm_ite (calm_deleteDeep E d p) (calm_ret _)

theorem calm_makeInnerNv (n nv : Nat) : Calm (makeInnerNv E n nv) := by unfold makeInnerNv makeInner; calm

theorem calm_makeInnerShared (n : Nat) (v : Option Nat) : Calm (makeInnerShared E n v) := by unfold makeInnerShared makeInner; calm

theorem calm_makeInnerChild (i ch : Nat) : Calm (makeInnerChild E i ch) := by unfold makeInnerChild makeInner; calm

theorem calm_makeInner1 (bm : BitVec w) (x : T) : Calm (makeInner1 E bm x) := by unfold makeInner1 makeInnerNv makeInner; calm

theorem calm_makeInner2 (i : Nat) (x : T) (j : Nat) (y : T) : Calm (makeInner2 E i x j y) := by unfold makeInner2 makeInnerNv makeInner; calm

theorem calm_makeCollision (x y : T) : Calm (makeCollision E x y) := by unfold makeCollision makeCollisionN; calm

theorem calm_owned (p e : Nat) : Calm (owned E p e) := by unfold owned; calm

theorem calm_ownedValues (p e : Nat) : Calm (ownedValues E p e) := by unfold ownedValues; calm

theorem calm_ownedValuesSafe (p e : Nat) : Calm (ownedValuesSafe E p e) := by unfold ownedValuesSafe; calm

theorem calm_ensureMutableValues (e p : Nat) : Calm (ensureMutableValues E e p) := by unfold ensureMutableValues deleteValues deallocEls; calm

theorem calm_transfer (mv : Bool) (a b n d o : Nat) : Calm (transfer mv a b n d o : HM w T Unit) := by unfold transfer; calm

theorem calm_copyCollisionInsert (p : Nat) (v : T) : Calm (copyCollisionInsert E p v) := by unfold copyCollisionInsert makeCollisionN; calm

theorem calm_moveCollisionInsert (p : Nat) (v : T) : Calm (moveCollisionInsert E p v) := by unfold moveCollisionInsert makeCollisionN deleteCollision deallocEls; calm

theorem calm_copyCollisionRemove (p i : Nat) : Calm (copyCollisionRemove E p i) := by unfold copyCollisionRemove makeCollisionN; calm

theorem calm_moveCollisionRemove (p i : Nat) : Calm (moveCollisionRemove E p i) := by unfold moveCollisionRemove makeCollisionN deleteCollision deallocEls; calm

theorem calm_copyCollisionReplace (p i : Nat) (v : T) : Calm (copyCollisionReplace E p i v) := by unfold copyCollisionReplace makeCollisionN; calm

theorem calm_copyInnerReplace (p o ch : Nat) : Calm (copyInnerReplace E p o ch) := by unfold copyInnerReplace makeInnerShared makeInner; calm

theorem calm_buildInner (n nv : Nat) (nm dm : BitVec w) {fill : Nat → HM w T Unit} (hf : ∀ v, Calm (fill v)) : Calm (buildInner E n nv nm dm fill) := by
  unfold buildInner makeInnerNv makeInner; calm
  · exact hf _
  · calm

theorem calm_fillRemove (mv : Bool) (src off nv dv : Nat) : Calm (fillRemove mv src off nv dv : HM w T Unit) := by unfold fillRemove transfer; calm

theorem calm_fillInsert (mv : Bool) (src off nv : Nat) (v : T) (dv : Nat) : Calm (fillInsert mv src off nv v dv : HM w T Unit) := by unfold fillInsert transfer; calm

theorem calm_copyInnerReplaceValue (p o : Nat) (v : T) : Calm (copyInnerReplaceValue E p o v) := by
  unfold copyInnerReplaceValue
  refine calm_bind (calm_getI p) fun _ => calm_bind (calm_buildInner E _ _ _ _ fun _ => ?_) fun _ => ?_ <;> calm

theorem calm_copyInnerReplaceMerged (p : Nat) (b : BitVec w) (o ch : Nat) : Calm (copyInnerReplaceMerged E p b o ch) := by
  unfold copyInnerReplaceMerged kidsMerged
  refine calm_bind (calm_getI p) fun _ => calm_bind (calm_buildInner E _ _ _ _ fun _ => calm_fillRemove _ _ _ _ _) fun _ => ?_
  calm

theorem calm_moveInnerReplaceMerged (e p : Nat) (b : BitVec w) (o ch : Nat) : Calm (moveInnerReplaceMerged E e p b o ch) := by
  unfold moveInnerReplaceMerged kidsMerged deleteInner deallocInner deleteValues deallocEls
  refine calm_bind (calm_getI p) fun _ => calm_bind (calm_buildInner E _ _ _ _ fun _ => calm_bind (calm_valuesPtr _) fun _ => calm_bind (calm_canMutate _ _ _) fun _ => calm_fillRemove _ _ _ _ _) fun _ => ?_
  calm

theorem calm_copyInnerReplaceInline (p : Nat) (b : BitVec w) (o : Nat) (v : T) : Calm (copyInnerReplaceInline E p b o v) := by
  unfold copyInnerReplaceInline kidsInline
  refine calm_bind (calm_getI p) fun _ => calm_bind (calm_buildInner E _ _ _ _ fun _ => calm_fillInsert _ _ _ _ _ _) fun _ => ?_
  calm

theorem calm_moveInnerReplaceInline (e p : Nat) (b : BitVec w) (o : Nat) (v : T) : Calm (moveInnerReplaceInline E e p b o v) := by
  unfold moveInnerReplaceInline kidsInline deleteInner deallocInner deleteValues deallocEls mutateValues
  refine calm_bind (calm_getI p) fun _ => calm_bind (calm_buildInner E _ _ _ _ fun _ => calm_bind ?_ fun _ => calm_fillInsert _ _ _ _ _ _) fun _ => ?_
  · calm
  · calm

theorem calm_copyInnerRemoveValue (p : Nat) (b : BitVec w) (o : Nat) : Calm (copyInnerRemoveValue E p b o) := by
  unfold copyInnerRemoveValue
  refine calm_bind (calm_getI p) fun _ => calm_bind (calm_buildInner E _ _ _ _ fun _ => calm_fillRemove _ _ _ _ _) fun _ => ?_
  calm

theorem calm_moveInnerRemoveValue (e p : Nat) (b : BitVec w) (o : Nat) : Calm (moveInnerRemoveValue E e p b o) := by
  unfold moveInnerRemoveValue deleteInner deallocInner deleteValues deallocEls
  refine calm_bind (calm_getI p) fun _ => calm_bind (calm_buildInner E _ _ _ _ fun _ => calm_bind (calm_valuesPtr _) fun _ => calm_bind (calm_canMutate _ _ _) fun _ => calm_fillRemove _ _ _ _ _) fun _ => ?_
  calm

theorem calm_copyInnerInsertValue (p : Nat) (b : BitVec w) (v : T) : Calm (copyInnerInsertValue E p b v) := by
  unfold copyInnerInsertValue
  refine calm_bind (calm_getI p) fun _ => calm_bind (calm_buildInner E _ _ _ _ fun _ => calm_fillInsert _ _ _ _ _ _) fun _ => ?_
  calm

theorem calm_moveInnerInsertValue (e p : Nat) (b : BitVec w) (v : T) : Calm (moveInnerInsertValue E e p b v) := by
  unfold moveInnerInsertValue deleteInner deallocInner deleteValues deallocEls mutateValues
  refine calm_bind (calm_getI p) fun _ => calm_bind (calm_buildInner E _ _ _ _ fun _ => calm_bind ?_ fun _ => calm_fillInsert _ _ _ _ _ _) fun _ => ?_
  · calm
  · calm

end

variable {K : Type} (c : Cfg K T) (E : Env (Dat c.W) T)

theorem calm_eqM (x : T) (k : K) : Calm (eqM c x k) := by unfold eqM; calm

theorem calm_hashM (x : T) : Calm (hashM c x) := by unfold hashM; calm

theorem calm_make (a : Act K T) (o : Option T) : Calm (a.make o : HM w T T) := by unfold Act.make; calm

theorem calm_replace (a : Act K T) (p i : Nat) : Calm (a.replace p i : HM w T Unit) := by
  unfold Act.replace
  refine calm_bind ?_ fun _ => calm_bind (calm_make a _) fun _ => calm_assignEl _ _ _
  calm

theorem calm_empty (em : Nat) : Calm (empty c E em) := by unfold empty; calm

theorem calm_scan (k : K) (p : Nat) : ∀ n i, Calm (scan c k p i n)
  | 0, _ => calm_ret _
  | n + 1, i => by
    rw [scan]
    exact calm_bind (calm_readEl _ _) fun _ => calm_bind (calm_eqM c _ _) fun _ => calm_ite (calm_ret _) (calm_scan k p n (i + 1))

theorem calm_makeMerged (e : Option Nat) (v1 : T) (h1 : BitVec 64) (v2 : T) (h2 : BitVec 64) : ∀ d shift, Calm (makeMerged c E e d shift v1 h1 v2 h2)
  | 0, shift => by
    rw [makeMerged]
    refine calm_bind (calm_makeCollision E _ _) fun p => ?_
    cases e
    · exact calm_ret _
    · exact calm_owned E _ _
  | d + 1, shift => by
    rw [makeMerged]
    refine calm_ite (calm_bind (calm_makeMerged e v1 h1 v2 h2 d _) fun p => calm_guard (calm_bind (calm_makeInnerChild E _ _) fun p => ?_)) (calm_bind (calm_makeInner2 E _ _ _ _) fun p => ?_)
    · cases e
      · exact calm_ret _
      · exact calm_owned E _ _
    · cases e
      · exact calm_ret _
      · exact calm_ownedValues E _ _

theorem calm_take (l : Loc T) : Calm (l.take : HM w T T) := by
  cases l
  · exact calm_ret _
  · exact calm_copyEl _ _

theorem calm_doPut (a : Act K T) : ∀ d p hash shift, Calm (doPut c E a d p hash shift)
  | 0, p, hash, shift => by
    rw [doPut]
    refine calm_bind (calm_collCount p) fun n => calm_bind (calm_scan c _ _ _ _) fun o => ?_
    cases o with
    | some i => exact calm_bind (calm_readEl _ _) fun _ => calm_bind (calm_make a _) fun _ => calm_bind (calm_copyCollisionReplace E _ _ _) fun _ => calm_ret _
    | none => exact calm_ite (calm_ret _) (calm_bind (calm_make a _) fun _ => calm_bind (calm_copyCollisionInsert E _ _) fun _ => calm_ret _)
  | d + 1, p, hash, shift => by
    rw [doPut]
    refine calm_bind (calm_getI p) fun i => calm_ite ?_ (calm_ite ?_ ?_)
    · refine calm_bind (calm_liftO _) fun ch => calm_bind (calm_doPut a d ch _ _) fun r => ?_
      cases r with
      | none => exact calm_ret _
      | some r => exact calm_bind (calm_guard (calm_copyInnerReplace E _ _ _)) fun _ => calm_ret _
    · refine calm_bind (calm_liftO _) fun v => calm_bind (calm_readEl _ _) fun x => calm_bind (calm_eqM c _ _) fun b => calm_ite ?_ (calm_ite (calm_ret _) ?_)
      · exact calm_bind (calm_make a _) fun _ => calm_bind (calm_copyInnerReplaceValue E _ _ _) fun _ => calm_ret _
      · exact calm_bind (calm_make a _) fun _ => calm_bind (calm_copyEl _ _) fun _ => calm_bind (calm_hashM c _) fun _ => calm_bind (calm_makeMerged c E _ _ _ _ _ _ _) fun _ =>
          calm_bind (calm_guard (calm_copyInnerReplaceMerged E _ _ _ _)) fun _ => calm_ret _
    · exact calm_ite (calm_ret _) (calm_bind (calm_make a _) fun _ => calm_bind (calm_copyInnerInsertValue E _ _ _) fun _ => calm_ret _)

theorem calm_doSub (em : Nat) (k : K) : ∀ d p hash shift, Calm (doSub c E em k d p hash shift)
  | 0, p, hash, shift => by
    rw [doSub]
    refine calm_bind (calm_collCount p) fun n => calm_bind (calm_scan c _ _ _ _) fun o => ?_
    cases o with
    | some i => exact calm_ite (calm_bind (calm_copyCollisionRemove E _ _) fun _ => calm_ret _) (calm_ret _)
    | none => exact calm_ret _
  | d + 1, p, hash, shift => by
    rw [doSub]
    refine calm_bind (calm_getI p) fun i => calm_ite ?_ (calm_ite ?_ (calm_ret _))
    · refine calm_bind (calm_liftO _) fun ch => calm_bind (calm_doSub em k d ch _ _) fun r => ?_
      cases r with
      | nothing => exact calm_ret _
      | single q j => exact calm_ite (calm_ret _) (calm_bind (calm_copyEl _ _) fun _ => calm_bind (calm_copyInnerReplaceInline E _ _ _ _) fun _ => calm_ret _)
      | tree q => exact calm_bind (calm_guard (calm_copyInnerReplace E _ _ _)) fun _ => calm_ret _
    · refine calm_bind (calm_liftO _) fun v => calm_bind (calm_readEl _ _) fun x => calm_bind (calm_eqM c _ _) fun b => calm_ite (calm_ite ?_ (calm_ite (calm_ite (calm_ret _) ?_) ?_)) (calm_ret _)
      · exact calm_bind (calm_copyInnerRemoveValue E _ _ _) fun _ => calm_ret _
      · exact calm_bind (calm_copyEl _ _) fun _ => calm_bind (calm_makeInner1 E _ _) fun _ => calm_ret _
      · exact calm_bind (calm_empty c E em) fun _ => calm_ret _

theorem calm_doPutMut (e : Nat) (a : Act K T) : ∀ d p hash shift, Calm (doPutMut c E e a d p hash shift)
  | 0, p, hash, shift => by
    rw [doPutMut]
    refine calm_bind (calm_collCount p) fun n => calm_bind (calm_scan c _ _ _ _) fun o => ?_
    cases o with
    | some i =>
      refine calm_bind (calm_canMutate _ _ _) fun mu => calm_ite (calm_bind (calm_replace a _ _) fun _ => calm_ret _) ?_
      exact calm_bind (calm_readEl _ _) fun _ => calm_bind (calm_make a _) fun _ => calm_bind (calm_copyCollisionReplace E _ _ _) fun _ => calm_bind (calm_owned E _ _) fun _ => calm_ret _
    | none =>
      refine calm_ite (calm_ret _) (calm_bind (calm_make a _) fun _ => calm_bind (calm_canMutate _ _ _) fun mu => ?_)
      exact calm_bind (calm_ite (calm_moveCollisionInsert E _ _) (calm_copyCollisionInsert E _ _)) fun _ => calm_bind (calm_owned E _ _) fun _ => calm_ret _
  | d + 1, p, hash, shift => by
    rw [doPutMut]
    refine calm_bind (calm_getI p) fun i => calm_ite ?_ (calm_ite ?_ ?_)
    · refine calm_bind (calm_liftO _) fun ch => calm_bind (calm_canMutate _ _ _) fun mu => calm_ite ?_ ?_
      · refine calm_bind (calm_doPutMut e a d ch _ _) fun r => ?_
        cases r with
        | none => exact calm_ret _
        | some r => exact calm_bind (calm_writeKids _ _ _) fun _ => calm_bind (calm_ite (calm_ret _) (calm_release E _ _)) fun _ => calm_ret _
      · refine calm_bind (calm_doPut c E a d ch _ _) fun r => ?_
        cases r with
        | none => exact calm_ret _
        | some r => exact calm_bind (calm_guard (calm_bind (calm_copyInnerReplace E _ _ _) fun _ => calm_owned E _ _)) fun _ => calm_ret _
    · refine calm_bind (calm_liftO _) fun v => calm_bind (calm_readEl _ _) fun x => calm_bind (calm_eqM c _ _) fun b => calm_ite ?_ (calm_ite (calm_ret _) ?_)
      · refine calm_bind (calm_canMutate _ _ _) fun mu => calm_ite ?_ ?_
        · exact calm_bind (calm_ensureMutableValues E _ _) fun _ => calm_bind (calm_replace a _ _) fun _ => calm_ret _
        · exact calm_bind (calm_make a _) fun _ => calm_bind (calm_copyInnerReplaceValue E _ _ _) fun _ => calm_bind (calm_ownedValues E _ _) fun _ => calm_ret _
      · refine calm_bind (calm_canMutate _ _ _) fun mu => calm_bind (calm_ite (calm_canMutate _ _ _) (calm_ret _)) fun mv => calm_bind (calm_hashM c _) fun _ => calm_bind (calm_make a _) fun _ =>
          calm_bind (calm_ite (calm_moveEl _ _) (calm_copyEl _ _)) fun _ => calm_bind (calm_makeMerged c E _ _ _ _ _ _ _) fun _ => ?_
        exact calm_bind (calm_guard (calm_bind (calm_ite (calm_moveInnerReplaceMerged E _ _ _ _ _) (calm_copyInnerReplaceMerged E _ _ _ _)) fun _ => calm_ownedValuesSafe E _ _)) fun _ => calm_ret _
    · refine calm_ite (calm_ret _) (calm_bind (calm_canMutate _ _ _) fun mu => calm_bind (calm_make a _) fun _ => ?_)
      exact calm_bind (calm_ite (calm_moveInnerInsertValue E _ _ _ _) (calm_copyInnerInsertValue E _ _ _)) fun _ => calm_bind (calm_ownedValues E _ _) fun _ => calm_ret _

theorem calm_doSubMut (em e : Nat) (k : K) : ∀ d p hash shift, Calm (doSubMut c E em e k d p hash shift)
  | 0, p, hash, shift => by
    rw [doSubMut]
    refine calm_bind (calm_canMutate _ _ _) fun mu => calm_bind (calm_collCount p) fun n => calm_bind (calm_scan c _ _ _ _) fun o => ?_
    cases o with
    | some i =>
      refine calm_ite (calm_ite (calm_bind (calm_moveEl _ _) fun _ => calm_bind (calm_deleteCollision _) fun _ => calm_ret _) (calm_ret _)) ?_
      exact calm_bind (calm_ite (calm_moveCollisionRemove E _ _) (calm_copyCollisionRemove E _ _)) fun _ => calm_bind (calm_owned E _ _) fun _ => calm_ret _
    | none => exact calm_ret _
  | d + 1, p, hash, shift => by
    rw [doSubMut]
    refine calm_bind (calm_canMutate _ _ _) fun mu => calm_bind (calm_getI p) fun i => calm_ite ?_ (calm_ite ?_ (calm_ret _))
    · refine calm_bind (calm_liftO _) fun ch => calm_bind (calm_ite (calm_doSubMut em e k d ch _ _) (calm_bind (calm_doSub c E em k d ch _ _) fun _ => calm_ret _)) fun r => ?_
      cases r with
      | nothing => exact calm_ret _
      | single l mutated =>
        refine calm_ite ?_ ?_
        · exact calm_bind (calm_ite (calm_bind (calm_deleteInner E _) fun _ => calm_ite (calm_ret _) (calm_release E _ _)) (calm_ret _)) fun _ => calm_ret _
        · refine calm_bind (calm_take l) fun _ => calm_bind (calm_ite (calm_moveInnerReplaceInline E _ _ _ _ _) (calm_copyInnerReplaceInline E _ _ _ _)) fun _ => ?_
          exact calm_bind (calm_ite (calm_release E _ _) (calm_ret _)) fun _ => calm_bind (calm_ownedValues E _ _) fun _ => calm_ret _
      | tree q mutated =>
        refine calm_ite ?_ ?_
        · exact calm_bind (calm_writeKids _ _ _) fun _ => calm_bind (calm_ite (calm_ret _) (calm_release E _ _)) fun _ => calm_ret _
        · exact calm_bind (calm_guard (calm_bind (calm_copyInnerReplace E _ _ _) fun _ => calm_owned E _ _)) fun _ => calm_ret _
    · refine calm_bind (calm_liftO _) fun v => calm_bind (calm_ite (calm_canMutate _ _ _) (calm_ret _)) fun mv => calm_bind (calm_readEl _ _) fun x => calm_bind (calm_eqM c _ _) fun b =>
        calm_ite (calm_ite ?_ (calm_ite (calm_ite ?_ ?_) ?_)) (calm_ret _)
      · exact calm_bind (calm_ite (calm_moveInnerRemoveValue E _ _ _ _) (calm_copyInnerRemoveValue E _ _ _)) fun _ => calm_bind (calm_ownedValuesSafe E _ _) fun _ => calm_ret _
      · exact calm_ite (calm_bind (calm_moveEl _ _) fun _ => calm_bind (calm_deleteInner E _) fun _ => calm_ret _) (calm_ret _)
      · exact calm_bind (calm_ite (calm_moveEl _ _) (calm_copyEl _ _)) fun _ => calm_bind (calm_makeInner1 E _ _) fun _ => calm_bind (calm_ite (calm_deleteInner E _) (calm_ret _)) fun _ =>
          calm_bind (calm_ownedValues E _ _) fun _ => calm_ret _
      · exact calm_bind (calm_ite (calm_deleteInner E _) (calm_ret _)) fun _ => calm_bind (calm_empty c E em) fun _ => calm_ret _

end ChampHeap
