import Verif.ChampHeap.Model
import Verif.Mem.Cost

/-!
# What the operations of maps and sets allocate (helper lemmas for C49)

Bounds on the number of allocations for each definition of the model, whatever is in memory.  Copies and calls of functions are
left out: there may be any number of elements with equal hashes, which are compared one by one, and copied together.
-/

namespace ChampHeap
open Mm Champ

variable {w : Nat} {T : Type} {kd : Kind}

theorem uses_liftO {β : Type} (o : Option β) : Uses kd 0 (liftO o : HM w T β) := by
  cases o
  · exact uses_undef
  · exact uses_ret _
macro_rules | `(tactic| uses0) => `(tactic| with_reducible exact uses_liftO _)

theorem uses_getI (p : Nat) : Uses kd 0 (getI p : HM w T (Inner w)) := by unfold getI; uses
theorem uses_setI (p : Nat) (f : Inner w → Inner w) : Uses kd 0 (setI p f : HM w T Unit) := by unfold setI; uses
theorem uses_collCount (p : Nat) : Uses kd 0 (collCount p : HM w T Nat) := by unfold collCount; uses
macro_rules | `(tactic| uses0) => `(tactic| with_reducible first | exact uses_getI _ | exact uses_setI _ _ | exact uses_collCount _)
theorem uses_writeKids (p o : Nat) (ys : List Nat) : Uses kd 0 (writeKids p o ys : HM w T Unit) := by unfold writeKids; uses
theorem uses_valuesPtr (p : Nat) : Uses kd 0 (valuesPtr p : HM w T Nat) := by unfold valuesPtr; uses
theorem uses_each {f : Nat → HM w T Unit} (hf : ∀ q, Uses kd 0 (f q)) : ∀ ys, Uses kd 0 (each f ys)
  | [] => uses_ret _
  | y :: ys => uses_bind (hf y) (Nat.le_refl _) fun _ => uses_each hf ys
theorem uses_incNodes (E : Env (Dat w) T) (ys : List Nat) : Uses kd 0 (incNodes E ys) := uses_each (fun q => uses_inc E q) ys
theorem uses_deallocEls (p n : Nat) : Uses kd 0 (deallocEls p n : HM w T Unit) := uses_dealloc _ _ _ _
theorem uses_deallocInner (p n : Nat) : Uses kd 0 (deallocInner p n : HM w T Unit) := uses_dealloc _ _ _ _
macro_rules | `(tactic| uses0) => `(tactic| with_reducible first | exact uses_writeKids _ _ _ | exact uses_valuesPtr _ | exact uses_incNodes _ _ | exact uses_deallocEls _ _ | exact uses_deallocInner _ _)
theorem uses_deallocInnerV (p n nv : Nat) : Uses kd 0 (deallocInnerV p n nv : HM w T Unit) := by unfold deallocInnerV; uses
theorem uses_deleteValues (v n : Nat) : Uses kd 0 (deleteValues v n : HM w T Unit) := by unfold deleteValues; uses
macro_rules | `(tactic| uses0) => `(tactic| with_reducible first | exact uses_deallocInnerV _ _ _ | exact uses_deleteValues _ _)

section
variable (E : Env (Dat w) T)

theorem uses_deleteInner (p : Nat) : Uses kd 0 (deleteInner E p) := by unfold deleteInner; uses
theorem uses_deleteCollision (p : Nat) : Uses kd 0 (deleteCollision p : HM w T Unit) := by unfold deleteCollision; uses
macro_rules | `(tactic| uses0) => `(tactic| with_reducible first | exact uses_deleteInner _ _ | exact uses_deleteCollision _)
theorem uses_deleteDeep : ∀ d p, Uses kd 0 (deleteDeep E d p)
  | 0, p => uses_deleteCollision p
  | d + 1, p => by
    have ih := uses_deleteDeep d
    unfold deleteDeep
    uses
    refine uses_bind (uses_each (fun q => ?_) _) (Nat.le_refl _) fun _ => uses_deleteInner E p
    uses
    exact ih _
macro_rules | `(tactic| uses0) => `(tactic| with_reducible exact uses_deleteDeep _ _ _)
theorem uses_release (d p : Nat) : Uses kd 0 (release E d p) := by unfold release; uses
theorem uses_makeInner (n : Nat) : Uses kd (amt 1 0 0 0 kd) (makeInner E n) := uses_alloc _ _ _
theorem uses_makeCollisionN (n : Nat) : Uses kd (amt 1 0 0 0 kd) (makeCollisionN E n) := uses_alloc _ _ _
macro_rules | `(tactic| uses0) => `(tactic| with_reducible first | exact uses_release _ _ _ | exact uses_makeInner _ _ | exact uses_makeCollisionN _ _)
theorem uses_makeInnerNv (n nv : Nat) : Uses kd (amt 2 0 0 0 kd) (makeInnerNv E n nv) := by unfold makeInnerNv; uses
theorem uses_makeInnerShared (n : Nat) (v : Option Nat) : Uses kd (amt 1 0 0 0 kd) (makeInnerShared E n v) := by unfold makeInnerShared; uses
theorem uses_makeInnerChild (i ch : Nat) : Uses kd (amt 1 0 0 0 kd) (makeInnerChild E i ch) := by unfold makeInnerChild; uses
macro_rules | `(tactic| uses0) => `(tactic| with_reducible first | exact uses_makeInnerNv _ _ _ | exact uses_makeInnerShared _ _ _ | exact uses_makeInnerChild _ _ _)
theorem uses_makeInner1 (bm : BitVec w) (x : T) : Uses kd (amt 2 0 0 0 kd) (makeInner1 E bm x) := by unfold makeInner1; uses
theorem uses_makeInner2 (i : Nat) (x : T) (j : Nat) (y : T) : Uses kd (amt 2 0 0 0 kd) (makeInner2 E i x j y) := by unfold makeInner2; uses
theorem uses_makeCollision (x y : T) : Uses kd (amt 1 0 0 0 kd) (makeCollision E x y) := by unfold makeCollision; uses
theorem uses_owned (p e : Nat) : Uses kd 0 (owned E p e) := by unfold owned; uses
theorem uses_ownedValues (p e : Nat) : Uses kd 0 (ownedValues E p e) := by unfold ownedValues; uses
theorem uses_ownedValuesSafe (p e : Nat) : Uses kd 0 (ownedValuesSafe E p e) := by unfold ownedValuesSafe; uses
theorem uses_transfer (mv : Bool) (a b n d o : Nat) : Uses kd (amt 0 n 0 0 kd) (transfer mv a b n d o : HM w T Unit) := by unfold transfer; uses
theorem uses_kidsMerged (i : Inner w) (a b d : Nat) : Uses kd 0 (kidsMerged i a b d : HM w T Unit) := by unfold kidsMerged; uses
theorem uses_kidsInline (i : Inner w) (a b : Nat) : Uses kd 0 (kidsInline i a b : HM w T Unit) := by unfold kidsInline; uses
theorem uses_mutateValues (e src nv : Nat) : Uses kd 0 (mutateValues E e src nv) := by unfold mutateValues; uses
macro_rules | `(tactic| uses0) => `(tactic| with_reducible first | exact uses_makeInner1 _ _ _ | exact uses_makeInner2 _ _ _ _ _ | exact uses_makeCollision _ _ _ | exact uses_owned _ _ _ | exact uses_ownedValues _ _ _ | exact uses_ownedValuesSafe _ _ _ | exact uses_transfer _ _ _ _ _ _ | exact uses_kidsMerged _ _ _ _ | exact uses_kidsInline _ _ _ | exact uses_mutateValues _ _ _ _)
theorem uses_copyInnerReplace (p o ch : Nat) : Uses kd (amt 1 0 0 0 kd) (copyInnerReplace E p o ch) := by unfold copyInnerReplace; uses
theorem uses_buildInner (n nv : Nat) (nm dm : BitVec w) {fill : Nat → HM w T Unit} (hf : ∀ v, Uses kd 0 (fill v)) : Uses kd (amt 2 0 0 0 kd) (buildInner E n nv nm dm fill) := by
  unfold buildInner; uses
  · refine uses_bind (hf _) (by uses_arith) fun _ => ?_
    uses
macro_rules | `(tactic| uses0) => `(tactic| with_reducible exact uses_copyInnerReplace _ _ _ _)

variable (hk : kd ≠ .copy)
include hk

theorem uses_ensureMutableValues (e p : Nat) : Uses kd (amt 1 0 0 0 kd) (ensureMutableValues E e p) := by unfold ensureMutableValues; uses
theorem uses_copyCollisionInsert (p : Nat) (v : T) : Uses kd (amt 1 0 0 0 kd) (copyCollisionInsert E p v) := by unfold copyCollisionInsert; uses
theorem uses_moveCollisionInsert (p : Nat) (v : T) : Uses kd (amt 1 0 0 0 kd) (moveCollisionInsert E p v) := by unfold moveCollisionInsert; uses
theorem uses_copyCollisionRemove (p i : Nat) : Uses kd (amt 1 0 0 0 kd) (copyCollisionRemove E p i) := by unfold copyCollisionRemove; uses
theorem uses_moveCollisionRemove (p i : Nat) : Uses kd (amt 1 0 0 0 kd) (moveCollisionRemove E p i) := by unfold moveCollisionRemove; uses
theorem uses_copyCollisionReplace (p i : Nat) (v : T) : Uses kd (amt 1 0 0 0 kd) (copyCollisionReplace E p i v) := by unfold copyCollisionReplace; uses
theorem uses_fillRemove (mv : Bool) (src off nv dv : Nat) : Uses kd 0 (fillRemove mv src off nv dv : HM w T Unit) := by unfold fillRemove; uses
theorem uses_fillInsert (mv : Bool) (src off nv : Nat) (v : T) (dv : Nat) : Uses kd 0 (fillInsert mv src off nv v dv : HM w T Unit) := by unfold fillInsert; uses
theorem uses_copyInnerReplaceValue (p o : Nat) (v : T) : Uses kd (amt 2 0 0 0 kd) (copyInnerReplaceValue E p o v) := by
  unfold copyInnerReplaceValue; uses
  refine uses_bind (uses_buildInner E _ _ _ _ fun _ => ?_) (by uses_arith) fun _ => ?_ <;> uses
theorem uses_copyInnerReplaceMerged (p : Nat) (b : BitVec w) (o ch : Nat) : Uses kd (amt 2 0 0 0 kd) (copyInnerReplaceMerged E p b o ch) := by
  unfold copyInnerReplaceMerged; uses
  refine uses_bind (uses_buildInner E _ _ _ _ fun _ => uses_fillRemove hk _ _ _ _ _) (by uses_arith) fun _ => ?_
  uses
theorem uses_moveInnerReplaceMerged (e p : Nat) (b : BitVec w) (o ch : Nat) : Uses kd (amt 2 0 0 0 kd) (moveInnerReplaceMerged E e p b o ch) := by
  unfold moveInnerReplaceMerged; uses
  refine uses_bind (uses_buildInner E _ _ _ _ fun _ => ?_) (by uses_arith) fun _ => ?_
  · uses; exact uses_fillRemove hk _ _ _ _ _
  · uses
theorem uses_copyInnerReplaceInline (p : Nat) (b : BitVec w) (o : Nat) (v : T) : Uses kd (amt 2 0 0 0 kd) (copyInnerReplaceInline E p b o v) := by
  unfold copyInnerReplaceInline; uses
  refine uses_bind (uses_buildInner E _ _ _ _ fun _ => uses_fillInsert hk _ _ _ _ _ _) (by uses_arith) fun _ => ?_
  uses
theorem uses_moveInnerReplaceInline (e p : Nat) (b : BitVec w) (o : Nat) (v : T) : Uses kd (amt 2 0 0 0 kd) (moveInnerReplaceInline E e p b o v) := by
  unfold moveInnerReplaceInline; uses
  refine uses_bind (uses_buildInner E _ _ _ _ fun _ => ?_) (by uses_arith) fun _ => ?_
  · uses; exact uses_fillInsert hk _ _ _ _ _ _
  · uses
theorem uses_copyInnerRemoveValue (p : Nat) (b : BitVec w) (o : Nat) : Uses kd (amt 2 0 0 0 kd) (copyInnerRemoveValue E p b o) := by
  unfold copyInnerRemoveValue; uses
  refine uses_bind (uses_buildInner E _ _ _ _ fun _ => uses_fillRemove hk _ _ _ _ _) (by uses_arith) fun _ => ?_
  uses
theorem uses_moveInnerRemoveValue (e p : Nat) (b : BitVec w) (o : Nat) : Uses kd (amt 2 0 0 0 kd) (moveInnerRemoveValue E e p b o) := by
  unfold moveInnerRemoveValue; uses
  refine uses_bind (uses_buildInner E _ _ _ _ fun _ => ?_) (by uses_arith) fun _ => ?_
  · uses; exact uses_fillRemove hk _ _ _ _ _
  · uses
theorem uses_copyInnerInsertValue (p : Nat) (b : BitVec w) (v : T) : Uses kd (amt 2 0 0 0 kd) (copyInnerInsertValue E p b v) := by
  unfold copyInnerInsertValue; uses
  refine uses_bind (uses_buildInner E _ _ _ _ fun _ => uses_fillInsert hk _ _ _ _ _ _) (by uses_arith) fun _ => ?_
  uses
theorem uses_moveInnerInsertValue (e p : Nat) (b : BitVec w) (v : T) : Uses kd (amt 2 0 0 0 kd) (moveInnerInsertValue E e p b v) := by
  unfold moveInnerInsertValue; uses
  refine uses_bind (uses_buildInner E _ _ _ _ fun _ => ?_) (by uses_arith) fun _ => ?_
  · uses; exact uses_fillInsert hk _ _ _ _ _ _
  · uses
end
macro_rules | `(tactic| uses0) => `(tactic| with_reducible first | exact uses_ensureMutableValues _ (by assumption) _ _ | exact uses_copyCollisionInsert _ (by assumption) _ _ | exact uses_moveCollisionInsert _ (by assumption) _ _ | exact uses_copyCollisionRemove _ (by assumption) _ _ | exact uses_moveCollisionRemove _ (by assumption) _ _ | exact uses_copyCollisionReplace _ (by assumption) _ _ _ | exact uses_copyInnerReplaceValue _ (by assumption) _ _ _ | exact uses_copyInnerReplaceMerged _ (by assumption) _ _ _ _ | exact uses_moveInnerReplaceMerged _ (by assumption) _ _ _ _ _ | exact uses_copyInnerReplaceInline _ (by assumption) _ _ _ _ | exact uses_moveInnerReplaceInline _ (by assumption) _ _ _ _ _ | exact uses_copyInnerRemoveValue _ (by assumption) _ _ _ | exact uses_moveInnerRemoveValue _ (by assumption) _ _ _ _ | exact uses_copyInnerInsertValue _ (by assumption) _ _ _ | exact uses_moveInnerInsertValue _ (by assumption) _ _ _ _)

variable {K : Type} (c : Cfg K T) (E : Env (Dat c.W) T) (hk : kd ≠ .copy) (hu : kd ≠ .user)

theorem uses_ownedIf (e : Option Nat) (p : Nat) : Uses kd 0 (ownedIf c E e p) := by unfold ownedIf; uses
theorem uses_ownedValuesIf (e : Option Nat) (p : Nat) : Uses kd 0 (ownedValuesIf c E e p) := by unfold ownedValuesIf; uses
macro_rules | `(tactic| uses0) => `(tactic| with_reducible first | exact uses_ownedIf _ _ _ _ | exact uses_ownedValuesIf _ _ _ _)
theorem uses_makeMerged (e : Option Nat) (v1 : T) (h1 : BitVec 64) (v2 : T) (h2 : BitVec 64) : ∀ d shift, Uses kd (amt (d + 2) 0 0 0 kd) (makeMerged c E e d shift v1 h1 v2 h2)
  | 0, shift => by unfold makeMerged; uses
  | d + 1, shift => by
    have ih := uses_makeMerged e v1 h1 v2 h2 d
    unfold makeMerged
    simp only
    uses
    refine uses_bind (ih _) (by uses_arith) fun p => ?_
    uses
theorem uses_empty (em : Nat) : Uses kd 0 (empty c E em) := by unfold empty; uses
theorem uses_ltake (l : Loc T) : Uses kd (amt 0 1 0 0 kd) (l.take : HM w T T) := by cases l <;> unfold Loc.take <;> uses
macro_rules | `(tactic| uses0) => `(tactic| with_reducible first | exact uses_makeMerged _ _ _ _ _ _ _ _ _ | exact uses_empty _ _ _ | exact uses_ltake _)
include hu
theorem uses_eqM (x : T) (k : K) : Uses kd 0 (eqM c x k) := by unfold eqM; uses
theorem uses_hashM (x : T) : Uses kd 0 (hashM c x) := by unfold hashM; uses
theorem uses_make (a : Act K T) (o : Option T) : Uses kd 0 (a.make o : HM w T T) := by unfold Act.make; uses
macro_rules | `(tactic| uses0) => `(tactic| with_reducible first | exact uses_eqM _ (by assumption) _ _ | exact uses_hashM _ (by assumption) _ | exact uses_make (by assumption) _ _)
theorem uses_replace (a : Act K T) (p i : Nat) : Uses kd 0 (a.replace p i : HM w T Unit) := by unfold Act.replace; uses
theorem uses_scan (k : K) (p : Nat) : ∀ n i, Uses kd 0 (scan c k p i n)
  | 0, _ => uses_ret _
  | n + 1, i => by
    have ih := uses_scan k p n
    unfold scan
    uses
    exact ih _
macro_rules | `(tactic| uses0) => `(tactic| with_reducible first | exact uses_replace (by assumption) _ _ _ | exact uses_scan _ (by assumption) _ _ _ _)
include hk
theorem uses_doPut (a : Act K T) : ∀ d p hash shift, Uses kd (amt (d + 3) 0 0 0 kd) (doPut c E a d p hash shift)
  | 0, p, hash, shift => by unfold doPut; uses
  | d + 1, p, hash, shift => by
    have ih := uses_doPut a d
    unfold doPut
    simp only
    uses
    refine uses_bind (ih _ _ _) (by uses_arith) fun r => ?_
    uses
theorem uses_doPutMut (e : Nat) (a : Act K T) : ∀ d p hash shift, Uses kd (amt (d + 3) 0 0 0 kd) (doPutMut c E e a d p hash shift)
  | 0, p, hash, shift => by unfold doPutMut; uses
  | d + 1, p, hash, shift => by
    have ih := uses_doPutMut e a d
    have ih' := uses_doPut c E hk hu a d
    unfold doPutMut
    simp only
    uses
    · refine uses_bind (ih _ _ _) (by uses_arith) fun r => ?_
      uses
    · refine uses_bind (ih' _ _ _) (by uses_arith) fun r => ?_
      uses
omit hk hu

/-- nothing is allocated unless there is a new tree -/
def subAmt (d : Nat) (kd : Kind) : SubR → Nat
  | .tree _ => amt (d + 1) 0 0 0 kd
  | _ => 0

def subAmtM (d : Nat) (kd : Kind) : SubRM T → Nat
  | .tree _ _ => amt (d + 1) 0 0 0 kd
  | _ => 0

theorem subAmtM_toMut (d : Nat) (kd : Kind) (r : SubR) : subAmtM d kd (r.toMut : SubRM T) = subAmt d kd r := by cases r <;> rfl

include hu hk
theorem uses_doSub (em : Nat) (k : K) : ∀ d p hash shift, UsesB kd (subAmt d kd) (amt (d + 1) 0 0 0 kd) 0 (doSub c E em k d p hash shift)
  | 0, p, hash, shift => by
    unfold doSub
    usesB <;> simp only [subAmt] <;> uses_arith
  | d + 1, p, hash, shift => by
    have ih := uses_doSub em k d
    unfold doSub
    simp only
    usesB
    all_goals first
      | (refine usesB_bindB (ih _ _ _) (by uses_arith) fun r => ?_
         cases r <;> simp only [subAmt] <;> usesB <;> (try simp only [subAmt]) <;> uses_arith)
      | ((try simp only [subAmt]); uses_arith)
set_option maxHeartbeats 2000000 in
theorem uses_doSubMut (em e : Nat) (k : K) : ∀ d p hash shift, UsesB kd (subAmtM d kd) (amt (d + 1) 0 0 0 kd) 0 (doSubMut c E em e k d p hash shift)
  | 0, p, hash, shift => by
    unfold doSubMut
    usesB <;> simp only [subAmtM] <;> uses_arith
  | d + 1, p, hash, shift => by
    have ih := uses_doSubMut em e k d
    have ih' := uses_doSub c E hk hu em k d
    unfold doSubMut
    simp only
    usesB
    all_goals first
      | (refine usesB_bindB (ih _ _ _) (by uses_arith) fun r => ?_
         cases r <;> simp only [subAmtM] <;> usesB <;> (try simp only [subAmtM]) <;> uses_arith)
      | (refine usesB_bindB (ih' _ _ _) (by uses_arith) fun r => ?_
         cases r <;> simp only [subAmt, SubR.toMut] <;> usesB <;> (try simp only [subAmtM]) <;> uses_arith)
      | ((try simp only [subAmtM]); uses_arith)

end ChampHeap
