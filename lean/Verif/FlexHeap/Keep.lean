import Verif.FlexHeap.Cost
import Verif.Mem.Keep

/-!
# Leaves have at most `2^BL` elements (helper lemmas for C49)
-/

namespace VecHeap
open Mm Rrb

variable {T : Type} (c : Cfg) (E : Env Dat T) {N : Nat}

/-- one rule -/
syntax "keep1" : tactic
macro_rules | `(tactic| keep1) => `(tactic| split)
macro_rules | `(tactic| keep1) => `(tactic| with_reducible apply keep_guard)
macro_rules | `(tactic| keep1) => `(tactic| with_reducible refine keep_bind ?_ fun _ => ?_)
macro_rules | `(tactic| keep1) => `(tactic| with_reducible first | exact keep_ret _ | exact keep_undef | exact keep_alloc _ _ _ | exact keep_tick _ | exact keep_cell _ | exact keep_dealloc _ _ _ _ | exact keep_inc _ _ | exact keep_dec _ _ | exact keep_canMutate _ _ _ | exact keep_setTok _ _ _ | exact keep_readEl _ _ | exact keep_moveEl _ _ | exact keep_assignEl _ _ _ | exact keep_destroyN _ _ _ | exact keep_uninitCopy (Nat.zero_le _))
macro_rules | `(tactic| keep1) => `(tactic| exact keep_modify fun _ h => h)

macro "keep" : tactic => `(tactic| repeat' keep1)

theorem keep_liftO {β : Type} (o : Option β) : Keep N (liftO o : HM T β) := by
  cases o
  · exact keep_undef
  · exact keep_ret _
macro_rules | `(tactic| keep1) => `(tactic| with_reducible exact keep_liftO _)

theorem keep_newInner (own : Option Nat) (n : Nat) : Keep N (newInner c E own n) := by unfold newInner; keep
theorem keep_newLeaf (own : Option Nat) (n : Nat) : Keep N (newLeaf c E own n) := by unfold newLeaf; keep
theorem keep_freeLeaf (own : Option Nat) (p n : Nat) : Keep N (freeLeaf c E own p n) := by unfold freeLeaf; keep
theorem keep_delInner (p n : Nat) : Keep N (delInner c E p n) := by unfold delInner; keep
theorem keep_delInnerE (p : Nat) : Keep N (delInnerE c p : HM T Unit) := by unfold delInnerE; keep
theorem keep_freeInner (own : Option Nat) (p n : Nat) : Keep N (freeInner c E own p n) := by
  unfold freeInner; split
  · exact keep_delInner _ _ _ _
  · exact keep_delInnerE _ _
theorem keep_delLeaf (p n : Nat) : Keep N (delLeaf c E p n) := by unfold delLeaf; keep
theorem keep_kids (p : Nat) : Keep N (kids p : HM T (List Nat)) := by unfold kids; keep
macro_rules | `(tactic| keep1) => `(tactic| with_reducible first | exact keep_newInner _ _ _ _ | exact keep_newLeaf _ _ _ _ | exact keep_freeLeaf _ _ _ _ _ | exact keep_delInner _ _ _ _ | exact keep_delInnerE _ _ | exact keep_freeInner _ _ _ _ _ | exact keep_delLeaf _ _ _ _ | exact keep_kids _)
theorem keep_kid (p i : Nat) : Keep N (kid p i : HM T Nat) := by unfold kid; keep
theorem keep_setKids (p : Nat) (ks : List Nat) : Keep N (setKids p ks : HM T Unit) := by unfold setKids; keep
macro_rules | `(tactic| keep1) => `(tactic| with_reducible first | exact keep_kid _ _ | exact keep_setKids _ _)
theorem keep_putKid (p i q : Nat) : Keep N (putKid p i q : HM T Unit) := by unfold putKid; keep
theorem keep_cutKids (p n : Nat) : Keep N (cutKids p n : HM T Unit) := by unfold cutKids; keep
theorem keep_incAll : ∀ ps, Keep N (incAll E ps)
  | [] => keep_ret _
  | _ :: ps => keep_bind (keep_inc _ _) fun _ => keep_incAll ps
macro_rules | `(tactic| keep1) => `(tactic| with_reducible first | exact keep_putKid _ _ _ | exact keep_cutKids _ _ | exact keep_incAll _ _)
theorem keep_doCopyInner (dst src n : Nat) : Keep N (doCopyInner E dst src n) := by unfold doCopyInner; keep
theorem keep_doCopyInnerReplace (dst src n off ch : Nat) : Keep N (doCopyInnerReplace E dst src n off ch) := by unfold doCopyInnerReplace; keep
theorem keep_copyLeafN (own : Option Nat) (a src n : Nat) : Keep N (copyLeafN c E own a src n) := by unfold copyLeafN; keep
theorem keep_copyLeaf (own : Option Nat) (src n : Nat) : Keep N (copyLeaf c E own src n) := keep_copyLeafN c E own n src n
macro_rules | `(tactic| keep1) => `(tactic| with_reducible first | exact keep_doCopyInner _ _ _ _ | exact keep_doCopyInnerReplace _ _ _ _ _ _ | exact keep_copyLeafN _ _ _ _ _ _ | exact keep_copyLeaf _ _ _ _ _)
theorem keep_copyLeafEmplace {src n : Nat} {x : T} (h : n < N) : Keep N (copyLeafEmplace c E src n x) := by
  unfold copyLeafEmplace; keep
  exact keep_construct h
theorem keep_leafOf (own : Option Nat) (x : T) : Keep (2 ^ c.BL) (leafOf c E own x) := by
  unfold leafOf; keep
  exact keep_construct (Nat.two_pow_pos _)
theorem keep_makePath (own : Option Nat) : ∀ k p, Keep N (makePath c E own k p)
  | 0, _ => keep_ret _
  | k + 1, p => by
    unfold makePath
    exact keep_bind (keep_newInner _ _ _ _) fun n => keep_bind (keep_guard (keep_makePath own k p) (by keep)) fun q => keep_bind (keep_putKid _ _ _) fun _ => keep_ret _
theorem keep_eachDo {f : Nat → Shp → HM T Unit} (hf : ∀ p sh, Keep N (f p sh)) : ∀ ps shs, Keep N (eachDo f ps shs)
  | _, [] => by unfold eachDo; keep
  | p :: ps, sh :: shs => keep_bind (hf p sh) fun _ => keep_eachDo hf ps shs
  | [], _ :: _ => keep_undef
theorem keep_decV : ∀ L p sh, Keep N (decV c E L p sh)
  | 0, p, sh => by unfold decV; keep
  | L + 1, p, sh => by
    unfold decV
    refine keep_bind (keep_dec _ _) fun b => keep_ite ?_ (keep_ret _)
    exact keep_bind (keep_liftO _) fun _ => keep_bind (keep_kids _) fun _ => keep_bind (keep_eachDo (keep_decV L) _ _) fun _ => keep_delInner _ _ _ _
macro_rules | `(tactic| keep1) => `(tactic| with_reducible first | exact keep_leafOf _ _ _ _ | exact keep_makePath _ _ _ _ _ | exact keep_decV _ _ _ _ _)
theorem keep_decLeaf (p n : Nat) : Keep N (decLeaf c E p n) := by unfold decLeaf; keep
theorem keep_decEmpty (p : Nat) : Keep N (decEmpty c E p) := by unfold decEmpty; keep
theorem keep_decRest (L p : Nat) (sh : Shp) (start : Nat) : Keep N (decRest c E L p sh start) := by
  unfold decRest; keep; exact keep_eachDo (keep_decV c E L) _ _
macro_rules | `(tactic| keep1) => `(tactic| with_reducible first | exact keep_decLeaf _ _ _ _ | exact keep_decEmpty _ _ _ | exact keep_decRest _ _ _ _ _ _)
theorem keep_decRight (L p : Nat) (sh : Shp) (start : Nat) : Keep N (decRight c E L p sh start) := by unfold decRight; keep
theorem keep_applyEl (user : Bool) (f : T → T) (p i : Nat) : Keep N (applyEl user f p i) := by unfold applyEl; keep
macro_rules | `(tactic| keep1) => `(tactic| with_reducible first | exact keep_decRight _ _ _ _ _ _ | exact keep_applyEl _ _ _ _)
theorem keep_updateV (user : Bool) (f : T → T) : ∀ L p sh idx, Keep N (updateV c E user f L p sh idx)
  | 0, p, sh, idx => by unfold updateV; keep
  | L + 1, p, sh, idx => by
    have ih := keep_updateV user f L
    unfold updateV; keep
    exact ih _ _ _
theorem keep_getMutV (e : Nat) : ∀ L p sh idx, Keep N (getMut c E e L p sh idx)
  | 0, p, sh, idx => by unfold getMut; keep
  | L + 1, p, sh, idx => by
    have ih := keep_getMutV e L
    unfold getMut; keep <;> exact ih _ _ _
theorem keep_pushTailNew (own : Option Nat) (tail : Nat) : ∀ L p sh, Keep N (pushTailNew c E own tail L p sh)
  | 0, p, sh => keep_undef
  | L + 1, p, sh => by
    have ih := keep_pushTailNew own tail L
    unfold pushTailNew; keep
    exact ih _ _
theorem keep_pushTailMut (e tail : Nat) : ∀ L p sh, Keep N (pushTailMut c E e tail L p sh)
  | 0, p, sh => keep_undef
  | L + 1, p, sh => by
    have ih := keep_pushTailMut e tail L
    unfold pushTailMut; keep
    · exact ih _ _
    · exact keep_pushTailNew c E (some e) tail (L + 1) _ _
theorem keep_sliceNode (own : Option Nat) (mu b co : Bool) (L p : Nat) (sh : Shp) (idx : Nat) (r : Sliced) : Keep N (sliceNode c E own mu b co L p sh idx r) := by
  unfold sliceNode; keep
theorem keep_mayMutate (own : Option Nat) (mu : Bool) (p : Nat) : Keep N (mayMutate E own mu p) := by unfold mayMutate; keep
macro_rules | `(tactic| keep1) => `(tactic| with_reducible first | exact keep_updateV _ _ _ _ _ _ _ _ | exact keep_getMutV _ _ _ _ _ _ _ | exact keep_pushTailNew _ _ _ _ _ _ _ | exact keep_pushTailMut _ _ _ _ _ _ _ | exact keep_sliceNode _ _ _ _ _ _ _ _ _ _ _ | exact keep_mayMutate _ _ _ _)
theorem keep_sliceCatch (L : Nat) (sh : Shp) (last : Nat) (r : Sliced) : Keep N (sliceCatch c E L sh last r) := by unfold sliceCatch; keep
macro_rules | `(tactic| keep1) => `(tactic| with_reducible exact keep_sliceCatch _ _ _ _ _ _)
theorem keep_sliceRight (own : Option Nat) : ∀ (L : Nat) (mu co : Bool) p sh last, Keep N (sliceRight c E own mu co L p sh last)
  | 0, mu, co, p, sh, last => by unfold sliceRight; keep
  | L + 1, mu, co, p, sh, last => by
    have ih := keep_sliceRight own L
    unfold sliceRight; keep <;> exact ih _ _ _ _ _
macro_rules | `(tactic| keep1) => `(tactic| with_reducible exact keep_sliceRight _ _ _ _ _ _ _ _ _)
theorem keep_empty (er et : Nat) : Keep N (Vc.empty c E er et) := by unfold Vc.empty; keep
theorem keep_share (v : Vc) : Keep N (v.share E) := by unfold Vc.share; keep
theorem keep_drop (v : Vc) : Keep N (v.drop c E) := by unfold Vc.drop; keep
theorem keep_mutableTail (e : Nat) (v : Vc) (n : Nat) : Keep N (v.mutableTail c E e n) := by unfold Vc.mutableTail; keep
macro_rules | `(tactic| keep1) => `(tactic| with_reducible first | exact keep_empty _ _ _ _ | exact keep_share _ _ | exact keep_drop _ _ _ | exact keep_mutableTail _ _ _ _ _)
theorem keep_applyFn (fn : Fn T) (p i : Nat) : Keep N (applyFn fn p i) := by unfold applyFn; keep

end VecHeap

namespace FlexHeap
open Mm Rrb VecHeap

variable {T : Type} (c : Cfg) (E : Env Dat T) {N : Nat}

theorem keep_tableOf (p : Nat) : Keep N (tableOf p : HM T (Option Nat)) := by unfold tableOf; keep
macro_rules | `(tactic| keep1) => `(tactic| with_reducible exact keep_tableOf _)
theorem keep_theTable (p : Nat) : Keep N (theTable p : HM T Nat) := by unfold theTable; keep
theorem keep_setTable (p : Nat) (r : Option Nat) : Keep N (setTable p r : HM T Unit) := by unfold setTable; keep
theorem keep_sizesOf (t : Nat) : Keep N (sizesOf t : HM T (List Nat)) := by unfold sizesOf; keep
theorem keep_setSizes (t : Nat) (sz : List Nat) : Keep N (setSizes t sz : HM T Unit) := by unfold setSizes; keep
macro_rules | `(tactic| keep1) => `(tactic| with_reducible first | exact keep_theTable _ | exact keep_setTable _ _ | exact keep_sizesOf _ | exact keep_setSizes _ _)
theorem keep_newTable (own : Option Nat) (n : Nat) : Keep N (newTable c E own n) := by unfold newTable; keep
macro_rules | `(tactic| keep1) => `(tactic| with_reducible exact keep_newTable _ _ _ _)
theorem keep_newInnerR (own : Option Nat) (n : Nat) : Keep N (newInnerR c E own n) := by unfold newInnerR; keep
theorem keep_newInnerSr (own : Option Nat) (n t : Nat) : Keep N (newInnerSr c E own n t) := by unfold newInnerSr; keep
theorem keep_delInnerR (p n : Nat) : Keep N (delInnerR c E p n) := by unfold delInnerR; keep
theorem keep_delInnerRE (p : Nat) : Keep N (delInnerRE c E p) := by unfold delInnerRE; keep
macro_rules | `(tactic| keep1) => `(tactic| with_reducible first | exact keep_newInnerR _ _ _ _ | exact keep_newInnerSr _ _ _ _ _ | exact keep_delInnerR _ _ _ _ | exact keep_delInnerRE _ _ _)
theorem keep_freeInnerR (own : Option Nat) (p n : Nat) : Keep N (freeInnerR c E own p n) := by unfold freeInnerR; keep
theorem keep_doCopyInnerR (d p n : Nat) : Keep N (doCopyInnerR E d p n) := by unfold doCopyInnerR; keep
theorem keep_newTableK (k : Kind) : Keep N (newTableK c E k) := by
  unfold newTableK
  exact keep_bind (keep_tick _) fun _ _ hs => allFew_upd hs (few_raw (n := 0))
macro_rules | `(tactic| keep1) => `(tactic| with_reducible first | exact keep_freeInnerR _ _ _ _ _ | exact keep_doCopyInnerR _ _ _ _ | exact keep_newTableK _ _ _)
theorem keep_mutTable (k : Kind) (e p n : Nat) : Keep N (mutTable c E k e p n) := by unfold mutTable; keep
theorem keep_copyLeafI (own : Option Nat) (p i n : Nat) : Keep N (copyLeafI c E own p i n) := by unfold copyLeafI; keep
theorem keep_maybeRel (p s z : Nat) : Keep N (maybeRel p s z : HM T RShp) := by unfold maybeRel; keep
macro_rules | `(tactic| keep1) => `(tactic| with_reducible first | exact keep_mutTable _ _ _ _ _ _ | exact keep_copyLeafI _ _ _ _ _ _ | exact keep_maybeRel _ _ _)
theorem keep_kidRel (s z q : Nat) : Keep N (kidRel c s z q : HM T RShp) := by unfold kidRel; keep
macro_rules | `(tactic| keep1) => `(tactic| with_reducible exact keep_kidRel _ _ _ _)
theorem keep_relTowards (p s : Nat) (sz : List Nat) (i o : Nat) : Keep N (relTowards c p s sz i o : HM T (Nat × RShp × Nat)) := by unfold relTowards; keep
theorem keep_relEach {f : Nat → RShp → HM T Unit} (hf : ∀ p sh, Keep N (f p sh)) (s : Nat) : ∀ b ks sz, Keep N (relEach c f s b ks sz)
  | _, _, [] => by unfold relEach; keep
  | _, q :: qs, e :: es => keep_bind (keep_kidRel _ _ _ _) fun _ => keep_bind (hf _ _) fun _ => keep_relEach hf s e qs es
  | _, [], _ :: _ => keep_undef
theorem keep_decR : ∀ L p sh, Keep N (decR c E L p sh)
  | 0, p, .reg sh => by unfold decR; keep
  | L + 1, p, .reg sh => by unfold decR; keep
  | 0, _, .rel _ _ => keep_undef
  | L + 1, p, .rel s sz => by
    have ih := keep_decR L
    unfold decR; keep
    exact keep_relEach c ih _ _ _ _
macro_rules | `(tactic| keep1) => `(tactic| with_reducible first | exact keep_relTowards _ _ _ _ _ _ | exact keep_decR _ _ _ _ _ | exact keep_relEach _ (keep_decR _ _ _) _ _ _ _ | exact keep_eachDo (keep_decV _ _ _) _ _)
theorem keep_decInner (L p s z : Nat) : Keep N (decInner c E L p s z) := by unfold decInner; keep
theorem keep_decRestR (L p s : Nat) (sz : List Nat) (k : Nat) : Keep N (decRestR c E L p s sz k) := by unfold decRestR; keep
macro_rules | `(tactic| keep1) => `(tactic| with_reducible first | exact keep_decInner _ _ _ _ _ _ | exact keep_decRestR _ _ _ _ _ _ _)
theorem keep_decRightR (L p s : Nat) (sz : List Nat) (k : Nat) : Keep N (decRightR c E L p s sz k) := by unfold decRightR; keep
theorem keep_decFirst (L p : Nat) (sh : RShp) (k : Nat) : Keep N (decFirst c E L p sh k) := by unfold decFirst; keep
macro_rules | `(tactic| keep1) => `(tactic| with_reducible first | exact keep_decRightR _ _ _ _ _ _ _ | exact keep_decFirst _ _ _ _ _ _)
theorem keep_decLeft (L p : Nat) (sh : RShp) (k : Nat) : Keep N (decLeft c E L p sh k) := by unfold decLeft; keep
theorem keep_updateR (user : Bool) (f : T → T) : ∀ L p sh idx, Keep N (updateR c E user f L p sh idx)
  | 0, p, .reg sh, idx => by unfold updateR; keep
  | L + 1, p, .reg sh, idx => by unfold updateR; keep
  | 0, _, .rel _ _, _ => keep_undef
  | L + 1, p, .rel s sz, idx => by
    have ih := keep_updateR user f L
    unfold updateR; keep
    exact ih _ _ _
theorem keep_getMutR (e : Nat) : ∀ L p sh idx, Keep N (getMutR c E e L p sh idx)
  | 0, p, .reg sh, idx => by unfold getMutR; keep
  | L + 1, p, .reg sh, idx => by unfold getMutR; keep
  | 0, _, .rel _ _, _ => keep_undef
  | L + 1, p, .rel s sz, idx => by
    have ih := keep_getMutR e L
    unfold getMutR; keep <;> exact ih _ _ _
theorem keep_pushChild (own : Option Nat) (tail L ni : Nat) (r : Option Nat) : Keep N (pushChild c E own tail L ni r) := by unfold pushChild; keep
theorem keep_pushCopy (own : Option Nat) (p : Nat) (sz : List Nat) (ts ni ch : Nat) : Keep N (pushCopy c E own p sz ts ni ch) := by unfold pushCopy; keep
macro_rules | `(tactic| keep1) => `(tactic| with_reducible first | exact keep_decLeft _ _ _ _ _ _ | exact keep_updateR _ _ _ _ _ _ _ _ | exact keep_getMutR _ _ _ _ _ _ _ | exact keep_pushChild _ _ _ _ _ _ _ | exact keep_pushCopy _ _ _ _ _ _ _ _)
theorem keep_pushCatch (a b d e f g h i : Nat) : Keep N (pushCatch c E a b d e f g h i) := by unfold pushCatch; keep
macro_rules | `(tactic| keep1) => `(tactic| with_reducible exact keep_pushCatch _ _ _ _ _ _ _ _ _ _)
theorem keep_pushTailNewR (own : Option Nat) (tail ts : Nat) : ∀ L p sh, Keep N (pushTailNewR c E own tail ts L p sh)
  | 0, p, .reg sh => by unfold pushTailNewR; keep
  | L + 1, p, .reg sh => by unfold pushTailNewR; keep
  | 0, _, .rel _ _ => keep_undef
  | L + 1, p, .rel s sz => by
    have ih := keep_pushTailNewR own tail ts L
    unfold pushTailNewR; keep
    exact ih _ _
macro_rules | `(tactic| keep1) => `(tactic| with_reducible exact keep_pushTailNewR _ _ _ _ _ _ _ _)
theorem keep_pushTailMutR (e tail ts : Nat) : ∀ L p sh, Keep N (pushTailMutR c E e tail ts L p sh)
  | 0, p, .reg sh => by unfold pushTailMutR; keep
  | L + 1, p, .reg sh => by unfold pushTailMutR; keep
  | 0, _, .rel _ _ => keep_undef
  | L + 1, p, .rel s sz => by
    have ih := keep_pushTailMutR e tail ts L
    unfold pushTailMutR; keep
    exact ih _ _
theorem keep_sliceNodeR (own : Option Nat) (mu b co : Bool) (L p s : Nat) (sz : List Nat) (last idx : Nat) (r : Sliced) : Keep N (sliceNodeR c E own mu b co L p s sz last idx r) := by
  unfold sliceNodeR; keep
macro_rules | `(tactic| keep1) => `(tactic| with_reducible first | exact keep_pushTailMutR _ _ _ _ _ _ _ _ | exact keep_sliceNodeR _ _ _ _ _ _ _ _ _ _ _ _ _)
theorem keep_sliceCatchR (L s : Nat) (sz : List Nat) (last idx : Nat) (r : Sliced) : Keep N (sliceCatchR c E L s sz last idx r) := by unfold sliceCatchR; keep
macro_rules | `(tactic| keep1) => `(tactic| with_reducible exact keep_sliceCatchR _ _ _ _ _ _ _ _)
theorem keep_sliceRightR (own : Option Nat) : ∀ (L : Nat) (mu co : Bool) p sh last, Keep N (sliceRightR c E own mu co L p sh last)
  | 0, mu, co, p, .reg sh, last => by unfold sliceRightR; keep
  | L + 1, mu, co, p, .reg sh, last => by unfold sliceRightR; keep
  | 0, _, _, _, .rel _ _, _ => keep_undef
  | L + 1, mu, co, p, .rel s sz, last => by
    have ih := keep_sliceRightR own L
    unfold sliceRightR; keep <;> exact ih _ _ _ _ _
theorem keep_moveDown (X : Elem T) (p i : Nat) : ∀ o n, Keep N (moveDown X p i o n)
  | _, 0 => keep_ret _
  | o, n + 1 => by
    have ih := keep_moveDown X p i (o + 1) n
    unfold moveDown; keep
    exact ih
macro_rules | `(tactic| keep1) => `(tactic| with_reducible first | exact keep_sliceRightR _ _ _ _ _ _ _ _ _ | exact keep_moveDown _ _ _ _ _)
theorem keep_sliceLeafLeft (X : Elem T) (own : Option Nat) (mu : Bool) (p : Nat) (sh : Shp) (i : Nat) : Keep N (sliceLeafLeft c E X own mu p sh i) := by unfold sliceLeafLeft; keep
theorem keep_subTowards (p : Nat) (sh : RShp) (i k : Nat) : Keep N (subTowards c p sh i k : HM T (Nat × RShp × Nat)) := by unfold subTowards; keep
theorem keep_sliceTarget (own : Option Nat) (b : Bool) (p : Nat) (sh : RShp) (n : Nat) : Keep N (sliceTarget c E own b p sh n) := by unfold sliceTarget; keep
theorem keep_sliceFill (mu b : Bool) (L p n : Nat) (sh : RShp) (i s q : Nat) : Keep N (sliceFill c E mu b L p n sh i s q) := by unfold sliceFill; keep
macro_rules | `(tactic| keep1) => `(tactic| with_reducible first | exact keep_sliceLeafLeft _ _ _ _ _ _ _ _ | exact keep_subTowards _ _ _ _ _ | exact keep_sliceTarget _ _ _ _ _ _ _ | exact keep_sliceFill _ _ _ _ _ _ _ _ _ _ _)
theorem keep_sliceLeftCatch (own : Option Nat) (b : Bool) (n : Nat) (sh : RShp) (k : Nat) : Keep N (sliceLeftCatch c E own b n sh k) := by unfold sliceLeftCatch; keep
macro_rules | `(tactic| keep1) => `(tactic| with_reducible exact keep_sliceLeftCatch _ _ _ _ _ _ _)
theorem keep_sliceLeftR (X : Elem T) (own : Option Nat) : ∀ (L : Nat) (mu co : Bool) p sh i, Keep N (sliceLeftR c E X own mu co L p sh i)
  | 0, mu, co, p, .reg sh, i => by unfold sliceLeftR; keep
  | 0, _, _, _, .rel _ _, _ => keep_undef
  | L + 1, mu, co, p, sh, i => by
    have ih := keep_sliceLeftR X own L
    unfold sliceLeftR; keep <;> exact ih _ _ _ _ _
macro_rules | `(tactic| keep1) => `(tactic| with_reducible exact keep_sliceLeftR _ _ _ _ _ _ _ _ _ _)

theorem keep_off (v : Vc) : Keep N (Fc.off c v : HM T Nat) := by unfold Fc.off; keep
macro_rules | `(tactic| keep1) => `(tactic| with_reducible exact keep_off _ _)
theorem keep_fdrop (v : Vc) : Keep N (Fc.drop c E v) := by unfold Fc.drop; keep
theorem keep_pushTail (a b d e f : Nat) : Keep N (Fc.pushTail c E a b d e f) := by unfold Fc.pushTail; keep
theorem keep_fpushTailMut (a b d e f g : Nat) : Keep N (Fc.pushTailMut c E a b d e f g) := by unfold Fc.pushTailMut; keep
macro_rules | `(tactic| keep1) => `(tactic| with_reducible first | exact keep_fdrop _ _ _ | exact keep_pushTail _ _ _ _ _ _ _ | exact keep_fpushTailMut _ _ _ _ _ _ _ _)
theorem keep_fpushBackMut (e : Nat) (v : Vc) (x : T) : Keep (2 ^ c.BL) (Fc.pushBackMut c E e v x) := by
  unfold Fc.pushBackMut
  refine keep_bind (keep_off _ _) fun o => ?_
  split
  · rename_i h
    unfold Vc.mutableTail
    rw [assoc_eq]
    refine keep_bind (keep_canMutate _ _ _) fun b => ?_
    split
    · exact (keep_bind (keep_construct h) fun _ => keep_ret _ : Keep _ ((construct v.tail (v.size - o) x).bind fun _ => M.ret { v with size := v.size + 1 }))
    · rw [assoc_eq]
      refine keep_bind (keep_copyLeaf _ _ _ _ _) fun t => ?_
      rw [assoc_eq]
      refine keep_bind (keep_decLeaf _ _ _ _) fun _ => ?_
      change Keep _ ((construct t (v.size - o) x).bind _)
      exact keep_bind (keep_construct h) fun _ => keep_ret _
  · keep
theorem keep_fpushBack (v : Vc) (x : T) : Keep (2 ^ c.BL) (Fc.pushBack c E v x) := by
  unfold Fc.pushBack; keep
  rename_i h
  exact keep_copyLeafEmplace c E h
theorem keep_fgetMut (e : Nat) (v : Vc) (i : Nat) : Keep N (Fc.getMut c E e v i) := by unfold Fc.getMut; keep
theorem keep_fupdate (user : Bool) (f : T → T) (v : Vc) (i : Nat) : Keep N (Fc.update c E user f v i) := by unfold Fc.update; keep
theorem keep_ftake (er et : Nat) (v : Vc) (n : Nat) : Keep N (Fc.take c E er et v n) := by unfold Fc.take; keep
theorem keep_ftakeMut (e er et : Nat) (v : Vc) (n : Nat) : Keep N (Fc.takeMut c E e er et v n) := by unfold Fc.takeMut; keep
theorem keep_dropN (X : Elem T) (er et : Nat) (v : Vc) (n : Nat) : Keep N (Fc.dropN c E X er et v n) := by unfold Fc.dropN; keep
theorem keep_dropMut (X : Elem T) (e er et : Nat) (v : Vc) (n : Nat) : Keep N (Fc.dropMut c E X e er et v n) := by unfold Fc.dropMut; keep


/-! ### Calls -/

/-- as `Keep`, for calls -/
def WKeep {β : Type} (N : Nat) (x : WM T β) : Prop := ∀ w, AllFew N w.st.mem →
  match x w with
  | .ok w' _ => AllFew N w'.st.mem
  | .thrown w' => AllFew N w'.st.mem
  | .ub => True

section
variable {β δ : Type}

theorem wkeep_ret (b : β) : WKeep N (WM.ret b : WM T β) := fun _ h => h

theorem wkeep_bind {x : WM T β} {f : β → WM T δ} (hx : WKeep N x) (hf : ∀ b, WKeep N (f b)) : WKeep N (x.bind f) := by
  intro s hs
  have h := hx s hs
  unfold WM.bind
  cases hxs : x s with
  | ok s' b => rw [hxs] at h; exact hf b s' h
  | thrown s' => rw [hxs] at h; exact h
  | ub => trivial

theorem wkeep_lift {x : HM T β} (hx : Keep N x) : WKeep N (lift x) := by
  intro w hw
  have h := hx w.st hw
  unfold lift
  cases hc : x w.st <;> rw [hc] at h <;> exact h

theorem wkeep_withObj {i : Nat} {q : Option Kd} {f : Obj → WM T Unit} (hf : ∀ o, WKeep N (f o)) : WKeep N (withObj i q f) := by
  intro w hw
  unfold withObj
  cases w.objs[i]? with
  | none => exact hw
  | some o =>
    dsimp only
    by_cases hq : q = none ∨ q = some o.kd
    · rw [if_pos hq]; exact hf o w hw
    · rw [if_neg hq]; exact hw

theorem wkeep_ownerFor (q : Kd) : WKeep N (ownerFor E q) := by
  cases q
  · exact wkeep_ret _
  · exact wkeep_bind (wkeep_lift (keep_ite (keep_tick _) (keep_ret _))) fun _ _ h => h

theorem wkeep_push (h : Obj) : WKeep N (push h : WM T Unit) := fun _ h => h
theorem wkeep_setVc (i : Nat) (x : Vc) : WKeep N (setVc i x : WM T Unit) := fun _ h => h
theorem wkeep_setOwner (i t : Nat) : WKeep N (setOwner i t : WM T Unit) := fun _ h => h
theorem keep_copy (v : Vc) : Keep N (v.copy E) := keep_bind (keep_share E v) fun _ => keep_ret _

end

theorem keep_apply (X : Elem T) (er et : Nat) (v : Vc) (o : FlexOp T) : Keep (2 ^ c.BL) ((flexKit T c X).apply E er et v o) := by
  cases o with
  | push x => exact keep_fpushBack c E v x
  | set i x => exact keep_fupdate c E _ _ v i
  | update i f => exact keep_fupdate c E _ _ v i
  | take n => exact keep_ftake c E er et v n
  | drop n => exact keep_dropN c E X er et v n

theorem keep_applyMut (X : Elem T) (er et e : Nat) (v : Vc) (o : FlexOp T) : Keep (2 ^ c.BL) ((flexKit T c X).applyMut E er et e v o) := by
  cases o with
  | push x => exact keep_bind (keep_fpushBackMut c E e v x) fun _ => keep_ret _
  | set i x => exact keep_bind (keep_fgetMut c E e v i) fun _ => keep_ret _
  | update i f => exact keep_bind (keep_fgetMut c E e v i) fun _ => keep_ret _
  | take n => exact keep_bind (keep_ftakeMut c E e er et v n) fun _ => keep_ret _
  | drop n => exact keep_bind (keep_dropMut c E X e er et v n) fun _ => keep_ret _

theorem keep_pushes (X : Elem T) (e : Nat) : ∀ (xs : List T) (v : Vc), Keep (2 ^ c.BL) (pushes (flexKit T c X) E e v xs)
  | [], _ => keep_ret _
  | x :: xs, v => by
    unfold pushes
    exact keep_bind (keep_guard (keep_fpushBackMut c E e v x) (keep_fdrop c E v)) fun v => keep_pushes X e xs v

theorem wkeep_inPlace (X : Elem T) (er et i e : Nat) (h : Obj) (o : FlexOp T) : WKeep (2 ^ c.BL) (inPlace (flexKit T c X) E er et i e h o) := by
  unfold inPlace
  refine wkeep_bind (wkeep_lift (keep_applyMut c E X er et e h.v o)) fun r => wkeep_bind (wkeep_setVc _ _) fun _ => ?_
  split
  · exact wkeep_ret _
  · exact wkeep_lift (keep_applyFn _ _ _)

theorem wkeep_step (X : Elem T) (er et : Nat) (x : Cmd T (FlexOp T)) : WKeep (2 ^ c.BL) (step c (flexKit T c X) E er et x) := by
  cases x with
  | new q => exact wkeep_bind (wkeep_ownerFor E q) fun t => wkeep_bind (wkeep_lift (keep_empty c E er et)) fun v => wkeep_push _
  | ofRange xs => exact wkeep_bind (wkeep_ownerFor E _) fun t => wkeep_bind (wkeep_lift (keep_empty c E er et)) fun v => wkeep_bind (wkeep_lift (keep_pushes c E X t xs v)) fun _ => wkeep_push _
  | copy i => exact wkeep_withObj fun h => wkeep_bind (wkeep_ownerFor E _) fun t => wkeep_bind (wkeep_ownerFor E _) fun t' => wkeep_bind (wkeep_setOwner _ _) fun _ => wkeep_bind (wkeep_lift (keep_copy E _)) fun _ => wkeep_push _
  | move i => exact wkeep_withObj fun h => wkeep_bind (wkeep_lift (keep_empty c E er et)) fun x => wkeep_bind (wkeep_setVc _ _) fun _ => wkeep_push _
  | assign i j => exact wkeep_withObj fun h => wkeep_withObj fun h' => wkeep_bind (wkeep_ownerFor E _) fun t => wkeep_bind (wkeep_setOwner _ _) fun _ => wkeep_bind (wkeep_ownerFor E _) fun t => wkeep_bind (wkeep_setOwner _ _) fun _ => wkeep_bind (wkeep_lift (keep_copy E _)) fun _ => wkeep_bind (wkeep_setVc _ _) fun _ => wkeep_lift (keep_fdrop c E _)
  | moveAssign i j => exact wkeep_withObj fun h => wkeep_withObj fun h' => wkeep_bind (wkeep_setOwner _ _) fun _ => wkeep_bind (wkeep_setVc _ _) fun _ => wkeep_setVc _ _
  | destroy i => exact wkeep_withObj fun h => wkeep_bind (wkeep_lift (keep_fdrop c E _)) fun _ _ h => h
  | transient i => exact wkeep_withObj fun h => wkeep_bind (wkeep_ownerFor E _) fun t => wkeep_bind (wkeep_lift (keep_copy E _)) fun _ => wkeep_push _
  | transientMove i => exact wkeep_withObj fun h => wkeep_bind (wkeep_lift (keep_empty c E er et)) fun x => wkeep_bind (wkeep_setVc _ _) fun _ => wkeep_bind (wkeep_ownerFor E _) fun t => wkeep_push _
  | persistent i => exact wkeep_withObj fun h => wkeep_bind (wkeep_ownerFor E _) fun t => wkeep_bind (wkeep_setOwner _ _) fun _ => wkeep_bind (wkeep_lift (keep_copy E _)) fun _ => wkeep_push _
  | persistentMove i => exact wkeep_withObj fun h => wkeep_bind (wkeep_lift (keep_empty c E er et)) fun x => wkeep_bind (wkeep_setVc _ _) fun _ => wkeep_push _
  | apply i o => exact wkeep_withObj fun h => wkeep_bind (wkeep_lift (keep_apply c E X er et _ o)) fun _ => wkeep_push _
  | applyMove i o =>
    refine wkeep_withObj fun h => ?_
    split
    · exact wkeep_bind (wkeep_lift (keep_apply c E X er et _ o)) fun _ => wkeep_push _
    · exact wkeep_inPlace c E X er et i 0 h o
  | applyMut i o => exact wkeep_withObj fun h => wkeep_inPlace c E X er et i h.tok h o

end FlexHeap
