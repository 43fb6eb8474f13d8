import Verif.VecHeap.Api
import Verif.Mem.Elems

/-!
# Only what is asked to throws (helper lemmas for C25)
-/

namespace VecHeap
open Mm Rrb

variable {T : Type} (c : Cfg) (E : Env Dat T)

/-- one rule -/
syntax "calm1" : tactic
macro_rules | `(tactic| calm1) => `(tactic| split)
macro_rules | `(tactic| calm1) => `(tactic| with_reducible apply calm_guard)
macro_rules | `(tactic| calm1) => `(tactic| with_reducible refine calm_bind ?_ fun _ => ?_)
macro_rules | `(tactic| calm1) => `(tactic| with_reducible first | exact calm_ret _ | exact calm_undef | exact calm_alloc _ _ _ | exact calm_tick _ | exact calm_cell _ | exact calm_modify _ _ | exact calm_dealloc _ _ _ _ | exact calm_inc _ _ | exact calm_dec _ _ | exact calm_canMutate _ _ _ | exact calm_setTok _ _ _ | exact calm_readEl _ _ | exact calm_moveEl _ _ | exact calm_construct _ _ _ | exact calm_assignEl _ _ _ | exact calm_destroyN _ _ _ | exact calm_uninitCopy _ _ _ _ _)

macro "calm" : tactic => `(tactic| repeat' calm1)

theorem calm_liftO {β : Type} (o : Option β) : Calm (liftO o : HM T β) := by
  cases o
  · exact calm_undef
  · exact calm_ret _
macro_rules | `(tactic| calm1) => `(tactic| with_reducible exact calm_liftO _)

theorem calm_newInner (own : Option Nat) (n : Nat) : Calm (newInner c E own n) := by unfold newInner; calm
theorem calm_newLeaf (own : Option Nat) (n : Nat) : Calm (newLeaf c E own n) := by unfold newLeaf; calm
theorem calm_freeLeaf (own : Option Nat) (p n : Nat) : Calm (freeLeaf c E own p n) := by unfold freeLeaf; calm
theorem calm_delInner (p n : Nat) : Calm (delInner c E p n) := by unfold delInner; calm
theorem calm_delInnerE (p : Nat) : Calm (delInnerE c p : HM T Unit) := by unfold delInnerE; calm
theorem calm_delLeaf (p n : Nat) : Calm (delLeaf c E p n) := by unfold delLeaf; calm
theorem calm_kids (p : Nat) : Calm (kids p : HM T (List Nat)) := by unfold kids; calm
macro_rules | `(tactic| calm1) => `(tactic| with_reducible first | exact calm_newInner _ _ _ _ | exact calm_newLeaf _ _ _ _ | exact calm_freeLeaf _ _ _ _ _ | exact calm_delInner _ _ _ _ | exact calm_delInnerE _ _ | exact calm_delLeaf _ _ _ _ | exact calm_kids _)
theorem calm_kid (p i : Nat) : Calm (kid p i : HM T Nat) := by unfold kid; calm
theorem calm_setKids (p : Nat) (ks : List Nat) : Calm (setKids p ks : HM T Unit) := by unfold setKids; calm
macro_rules | `(tactic| calm1) => `(tactic| with_reducible first | exact calm_kid _ _ | exact calm_setKids _ _)
theorem calm_putKid (p i q : Nat) : Calm (putKid p i q : HM T Unit) := by unfold putKid; calm
theorem calm_cutKids (p n : Nat) : Calm (cutKids p n : HM T Unit) := by unfold cutKids; calm
theorem calm_incAll : ∀ ps, Calm (incAll E ps)
  | [] => calm_ret _
  | _ :: ps => calm_bind (calm_inc _ _) fun _ => calm_incAll ps
macro_rules | `(tactic| calm1) => `(tactic| with_reducible first | exact calm_putKid _ _ _ | exact calm_cutKids _ _ | exact calm_incAll _ _)
theorem calm_doCopyInner (dst src n : Nat) : Calm (doCopyInner E dst src n) := by unfold doCopyInner; calm
theorem calm_doCopyInnerReplace (dst src n off ch : Nat) : Calm (doCopyInnerReplace E dst src n off ch) := by unfold doCopyInnerReplace; calm
theorem calm_copyLeafN (own : Option Nat) (a src n : Nat) : Calm (copyLeafN c E own a src n) := by unfold copyLeafN; calm
theorem calm_copyLeaf (own : Option Nat) (src n : Nat) : Calm (copyLeaf c E own src n) := calm_copyLeafN c E own n src n
macro_rules | `(tactic| calm1) => `(tactic| with_reducible first | exact calm_doCopyInner _ _ _ _ | exact calm_doCopyInnerReplace _ _ _ _ _ _ | exact calm_copyLeafN _ _ _ _ _ _ | exact calm_copyLeaf _ _ _ _ _)
theorem calm_copyLeafEmplace (src n : Nat) (x : T) : Calm (copyLeafEmplace c E src n x) := by unfold copyLeafEmplace; calm
theorem calm_leafOf (own : Option Nat) (x : T) : Calm (leafOf c E own x) := by unfold leafOf; calm
theorem calm_makePath (own : Option Nat) : ∀ k p, Calm (makePath c E own k p)
  | 0, _ => calm_ret _
  | k + 1, p => by
    unfold makePath
    exact calm_bind (calm_newInner _ _ _ _) fun n => calm_bind (calm_guard (calm_makePath own k p)) fun q => calm_bind (calm_putKid _ _ _) fun _ => calm_ret _
theorem calm_eachDo {f : Nat → Shp → HM T Unit} (hf : ∀ p sh, Calm (f p sh)) : ∀ ps shs, Calm (eachDo f ps shs)
  | _, [] => by unfold eachDo; calm
  | p :: ps, sh :: shs => calm_bind (hf p sh) fun _ => calm_eachDo hf ps shs
  | [], _ :: _ => calm_undef
theorem calm_decV : ∀ L p sh, Calm (decV c E L p sh)
  | 0, p, sh => by unfold decV; calm
  | L + 1, p, sh => by
    unfold decV
    refine calm_bind (calm_dec _ _) fun b => calm_ite ?_ (calm_ret _)
    exact calm_bind (calm_liftO _) fun _ => calm_bind (calm_kids _) fun _ => calm_bind (calm_eachDo (calm_decV L) _ _) fun _ => calm_delInner _ _ _ _
macro_rules | `(tactic| calm1) => `(tactic| with_reducible first | exact calm_copyLeafEmplace _ _ _ _ _ | exact calm_leafOf _ _ _ _ | exact calm_makePath _ _ _ _ _ | exact calm_decV _ _ _ _ _)
theorem calm_decLeaf (p n : Nat) : Calm (decLeaf c E p n) := by unfold decLeaf; calm
theorem calm_decEmpty (p : Nat) : Calm (decEmpty c E p) := by unfold decEmpty; calm
theorem calm_decRest (L p : Nat) (sh : Shp) (start : Nat) : Calm (decRest c E L p sh start) := by
  unfold decRest; calm; exact calm_eachDo (calm_decV c E L) _ _
macro_rules | `(tactic| calm1) => `(tactic| with_reducible first | exact calm_decLeaf _ _ _ _ | exact calm_decEmpty _ _ _ | exact calm_decRest _ _ _ _ _ _)
theorem calm_decRight (L p : Nat) (sh : Shp) (start : Nat) : Calm (decRight c E L p sh start) := by unfold decRight; calm
theorem calm_applyEl (user : Bool) (f : T → T) (p i : Nat) : Calm (applyEl user f p i) := by unfold applyEl; calm
macro_rules | `(tactic| calm1) => `(tactic| with_reducible first | exact calm_decRight _ _ _ _ _ _ | exact calm_applyEl _ _ _ _)
theorem calm_updateV (user : Bool) (f : T → T) : ∀ L p sh idx, Calm (updateV c E user f L p sh idx)
  | 0, p, sh, idx => by unfold updateV; calm
  | L + 1, p, sh, idx => by
    have ih := calm_updateV user f L
    unfold updateV; calm
    exact ih _ _ _
theorem calm_getMutV (e : Nat) : ∀ L p sh idx, Calm (getMut c E e L p sh idx)
  | 0, p, sh, idx => by unfold getMut; calm
  | L + 1, p, sh, idx => by
    have ih := calm_getMutV e L
    unfold getMut; calm <;> exact ih _ _ _
theorem calm_pushTailNew (own : Option Nat) (tail : Nat) : ∀ L p sh, Calm (pushTailNew c E own tail L p sh)
  | 0, p, sh => calm_undef
  | L + 1, p, sh => by
    have ih := calm_pushTailNew own tail L
    unfold pushTailNew; calm
    exact ih _ _
theorem calm_pushTailMut (e tail : Nat) : ∀ L p sh, Calm (pushTailMut c E e tail L p sh)
  | 0, p, sh => calm_undef
  | L + 1, p, sh => by
    have ih := calm_pushTailMut e tail L
    unfold pushTailMut; calm
    · exact ih _ _
    · exact calm_pushTailNew c E (some e) tail (L + 1) _ _
theorem calm_sliceNode (own : Option Nat) (mu b co : Bool) (L p : Nat) (sh : Shp) (idx : Nat) (r : Sliced) : Calm (sliceNode c E own mu b co L p sh idx r) := by
  unfold sliceNode; calm
theorem calm_mayMutate (own : Option Nat) (mu : Bool) (p : Nat) : Calm (mayMutate E own mu p) := by unfold mayMutate; calm
macro_rules | `(tactic| calm1) => `(tactic| with_reducible first | exact calm_updateV _ _ _ _ _ _ _ _ | exact calm_getMutV _ _ _ _ _ _ _ | exact calm_pushTailNew _ _ _ _ _ _ _ | exact calm_pushTailMut _ _ _ _ _ _ _ | exact calm_sliceNode _ _ _ _ _ _ _ _ _ _ _ | exact calm_mayMutate _ _ _ _)
theorem calm_sliceRight (own : Option Nat) : ∀ (L : Nat) (mu co : Bool) p sh last, Calm (sliceRight c E own mu co L p sh last)
  | 0, mu, co, p, sh, last => by unfold sliceRight; calm
  | L + 1, mu, co, p, sh, last => by
    have ih := calm_sliceRight own L
    unfold sliceRight; calm <;> exact ih _ _ _ _ _
macro_rules | `(tactic| calm1) => `(tactic| with_reducible exact calm_sliceRight _ _ _ _ _ _ _ _ _)
theorem calm_empty (er et : Nat) : Calm (Vc.empty c E er et) := by unfold Vc.empty; calm
theorem calm_share (v : Vc) : Calm (v.share E) := by unfold Vc.share; calm
theorem calm_drop (v : Vc) : Calm (v.drop c E) := by unfold Vc.drop; calm
theorem calm_mutableTail (e : Nat) (v : Vc) (n : Nat) : Calm (v.mutableTail c E e n) := by unfold Vc.mutableTail; calm
macro_rules | `(tactic| calm1) => `(tactic| with_reducible first | exact calm_empty _ _ _ _ | exact calm_share _ _ | exact calm_drop _ _ _ | exact calm_mutableTail _ _ _ _ _)
theorem calm_pushBackMut (e : Nat) (v : Vc) (x : T) : Calm (v.pushBackMut c E e x) := by unfold Vc.pushBackMut; calm
theorem calm_pushBack (v : Vc) (x : T) : Calm (v.pushBack c E x) := by unfold Vc.pushBack; calm
theorem calm_getMut (e : Nat) (v : Vc) (i : Nat) : Calm (v.getMut c E e i) := by unfold Vc.getMut; calm
theorem calm_update (user : Bool) (f : T → T) (v : Vc) (i : Nat) : Calm (v.update c E user f i) := by unfold Vc.update; calm
theorem calm_take (er et : Nat) (v : Vc) (n : Nat) : Calm (v.take c E er et n) := by unfold Vc.take; calm
theorem calm_takeMut (e er et : Nat) (v : Vc) (n : Nat) : Calm (v.takeMut c E e er et n) := by unfold Vc.takeMut; calm
macro_rules | `(tactic| calm1) => `(tactic| with_reducible first | exact calm_pushBackMut _ _ _ _ _ | exact calm_pushBack _ _ _ _ | exact calm_getMut _ _ _ _ _ | exact calm_update _ _ _ _ _ _ | exact calm_take _ _ _ _ _ _ | exact calm_takeMut _ _ _ _ _ _ _)
theorem calm_applyFn (fn : Fn T) (p i : Nat) : Calm (applyFn fn p i) := by unfold applyFn; calm

end VecHeap
