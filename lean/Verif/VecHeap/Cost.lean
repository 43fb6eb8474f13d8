import Verif.VecHeap.Api
import Verif.Mem.Cost
import Verif.Rrb.VecSpec

/-!
# What the operations of vectors use (helper lemmas for C49)

Bounds on the numbers of allocations and of copies of elements, for each definition of the model, whatever is in memory.
-/

namespace VecHeap
open Mm Rrb

variable {T : Type} (c : Cfg) (E : Env Dat T) {kd : Kind}

theorem uses_liftO {β : Type} (o : Option β) : Uses kd 0 (liftO o : HM T β) := by
  cases o
  · exact uses_undef
  · exact uses_ret _

/-- a value that must be there: what it is -/
theorem uses_liftO_bind {β δ : Type} {n : Nat} (o : Option β) {f : β → HM T δ} (h : ∀ b, o = some b → Uses kd n (f b)) : Uses kd n ((liftO o).bind f) := by
  cases o with
  | none => exact uses_undef_bind
  | some b => exact h b rfl

macro_rules | `(tactic| uses0) => `(tactic| with_reducible exact uses_liftO _)
macro_rules | `(tactic| uses1) => `(tactic| with_reducible refine uses_liftO_bind _ fun _ _ => ?_)

theorem uses_newInner (own : Option Nat) (n : Nat) : Uses kd (amt 1 0 0 0 kd) (newInner c E own n) := by unfold newInner; uses
theorem uses_newLeaf (own : Option Nat) (n : Nat) : Uses kd (amt 1 0 0 0 kd) (newLeaf c E own n) := by unfold newLeaf; uses
theorem uses_freeLeaf (own : Option Nat) (p n : Nat) : Uses kd 0 (freeLeaf c E own p n) := by unfold freeLeaf; uses
theorem uses_delInner (p n : Nat) : Uses kd 0 (delInner c E p n) := by unfold delInner; uses
theorem uses_delInnerE (p : Nat) : Uses kd 0 (delInnerE c p : HM T Unit) := by unfold delInnerE; uses
theorem uses_delLeaf (p n : Nat) : Uses kd 0 (delLeaf c E p n) := by unfold delLeaf; uses
theorem uses_kids (p : Nat) : Uses kd 0 (kids p : HM T (List Nat)) := by unfold kids; uses
macro_rules | `(tactic| uses0) => `(tactic| with_reducible first | exact uses_newInner _ _ _ _ | exact uses_newLeaf _ _ _ _ | exact uses_freeLeaf _ _ _ _ _ | exact uses_delInner _ _ _ _ | exact uses_delInnerE _ _ | exact uses_delLeaf _ _ _ _ | exact uses_kids _)
theorem uses_kid (p i : Nat) : Uses kd 0 (kid p i : HM T Nat) := by unfold kid; uses
theorem uses_setKids (p : Nat) (ks : List Nat) : Uses kd 0 (setKids p ks : HM T Unit) := by unfold setKids; uses
macro_rules | `(tactic| uses0) => `(tactic| with_reducible first | exact uses_kid _ _ | exact uses_setKids _ _)
theorem uses_putKid (p i q : Nat) : Uses kd 0 (putKid p i q : HM T Unit) := by unfold putKid; uses
theorem uses_cutKids (p n : Nat) : Uses kd 0 (cutKids p n : HM T Unit) := by unfold cutKids; uses
theorem uses_incAll : ∀ ps, Uses kd 0 (incAll E ps)
  | [] => uses_ret _
  | _ :: ps => uses_bind (uses_inc _ _) (Nat.le_refl _) fun _ => uses_incAll ps
macro_rules | `(tactic| uses0) => `(tactic| with_reducible first | exact uses_putKid _ _ _ | exact uses_cutKids _ _ | exact uses_incAll _ _)
theorem uses_doCopyInner (dst src n : Nat) : Uses kd 0 (doCopyInner E dst src n) := by unfold doCopyInner; uses
theorem uses_doCopyInnerReplace (dst src n off ch : Nat) : Uses kd 0 (doCopyInnerReplace E dst src n off ch) := by unfold doCopyInnerReplace; uses
theorem uses_copyLeafN (own : Option Nat) (a src n : Nat) : Uses kd (amt 1 n 0 0 kd) (copyLeafN c E own a src n) := by unfold copyLeafN; uses
theorem uses_copyLeaf (own : Option Nat) (src n : Nat) : Uses kd (amt 1 n 0 0 kd) (copyLeaf c E own src n) := uses_copyLeafN c E own n src n
macro_rules | `(tactic| uses0) => `(tactic| with_reducible first | exact uses_doCopyInner _ _ _ _ | exact uses_doCopyInnerReplace _ _ _ _ _ _ | exact uses_copyLeafN _ _ _ _ _ _ | exact uses_copyLeaf _ _ _ _ _)
theorem uses_copyLeafEmplace (src n : Nat) (x : T) : Uses kd (amt 1 n 0 0 kd) (copyLeafEmplace c E src n x) := by unfold copyLeafEmplace; uses
theorem uses_leafOf (own : Option Nat) (x : T) : Uses kd (amt 1 0 0 0 kd) (leafOf c E own x) := by unfold leafOf; uses
theorem uses_makePath (own : Option Nat) : ∀ k p, Uses kd (amt k 0 0 0 kd) (makePath c E own k p)
  | 0, _ => uses_ret _
  | k + 1, p => by
    have ih := uses_makePath own k p
    unfold makePath
    uses
    refine uses_bind ih (by uses_arith) fun q => ?_
    uses
theorem uses_eachDo {f : Nat → Shp → HM T Unit} (hf : ∀ p sh, Uses kd 0 (f p sh)) : ∀ ps shs, Uses kd 0 (eachDo f ps shs)
  | _, [] => by unfold eachDo; uses
  | p :: ps, sh :: shs => uses_bind (hf p sh) (Nat.le_refl _) fun _ => uses_eachDo hf ps shs
  | [], _ :: _ => uses_undef
theorem uses_decV : ∀ L p sh, Uses kd 0 (decV c E L p sh)
  | 0, p, sh => by unfold decV; uses
  | L + 1, p, sh => by
    unfold decV
    uses
    exact uses_bind (uses_eachDo (uses_decV L) _ _) (Nat.le_refl _) fun _ => uses_delInner _ _ _ _
macro_rules | `(tactic| uses0) => `(tactic| with_reducible first | exact uses_copyLeafEmplace _ _ _ _ _ | exact uses_leafOf _ _ _ _ | exact uses_makePath _ _ _ _ _ | exact uses_decV _ _ _ _ _)
theorem uses_decLeaf (p n : Nat) : Uses kd 0 (decLeaf c E p n) := by unfold decLeaf; uses
theorem uses_decEmpty (p : Nat) : Uses kd 0 (decEmpty c E p) := by unfold decEmpty; uses
theorem uses_decRest (L p : Nat) (sh : Shp) (start : Nat) : Uses kd 0 (decRest c E L p sh start) := by
  unfold decRest; uses; exact uses_eachDo (uses_decV c E L) _ _
macro_rules | `(tactic| uses0) => `(tactic| with_reducible first | exact uses_decLeaf _ _ _ _ | exact uses_decEmpty _ _ _ | exact uses_decRest _ _ _ _ _ _)
theorem uses_decRight (L p : Nat) (sh : Shp) (start : Nat) : Uses kd 0 (decRight c E L p sh start) := by unfold decRight; uses
theorem uses_applyEl (user : Bool) (f : T → T) (p i : Nat) : Uses kd (amt 0 0 1 0 kd) (applyEl user f p i) := by unfold applyEl; uses
macro_rules | `(tactic| uses0) => `(tactic| with_reducible first | exact uses_decRight _ _ _ _ _ _ | exact uses_applyEl _ _ _ _)

/-- a leaf of at most `2^BL` elements, or an inner node -/
def Shp.Sm (sh : Shp) : Prop := sh.isLeaf = true → sh.count c ≤ 2 ^ c.BL

theorem sm_kidFull (s : Nat) : (Shp.kidFull c s).Sm c := by
  unfold Shp.kidFull
  split
  · intro _; simp [Shp.count, Shp.pos, Pos.count]
  · intro h; simp [Shp.isLeaf] at h

theorem sm_kidReg (s size : Nat) : (Shp.kidReg c s size).Sm c := by
  unfold Shp.kidReg
  split
  · intro _
    simp only [Shp.count, Shp.pos, Pos.count]
    have := Nat.and_le_right (n := size - 1) (m := 2 ^ c.BL - 1)
    have := Nat.one_le_two_pow (n := c.BL)
    omega
  · intro h; simp [Shp.isLeaf] at h

theorem sm_towards {sh sh' : Shp} {off : Nat} (h : sh.towards c off = some sh') : sh'.Sm c := by
  unfold Shp.towards at h
  split at h <;> simp only [Option.some.injEq, reduceCtorEq] at h
  · subst h; split
    · exact sm_kidFull c _
    · exact sm_kidReg c _ _
  · subst h; split
    · exact sm_kidFull c _
    · exact sm_kidReg c _ _
  · subst h; exact sm_kidFull c _

theorem uses_updateV (user : Bool) (f : T → T) : ∀ L p sh idx, sh.Sm c → Uses kd (amt (L + 1) (2 ^ c.BL) 1 0 kd) (updateV c E user f L p sh idx)
  | 0, p, sh, idx, hs => by
    unfold updateV
    split
    · rename_i h
      have := hs h
      uses
    · uses
  | L + 1, p, sh, idx, hs => by
    have ih := uses_updateV user f L
    unfold updateV
    uses
    refine uses_bind (ih _ _ _ (sm_towards c (by assumption))) (by uses_arith) fun q => ?_
    uses
theorem uses_getMutV (e : Nat) : ∀ L p sh idx, sh.Sm c → Uses kd (amt (L + 1) (2 ^ c.BL) 0 0 kd) (getMut c E e L p sh idx)
  | 0, p, sh, idx, hs => by
    unfold getMut
    split
    · rename_i h
      have := hs h
      uses
    · uses
  | L + 1, p, sh, idx, hs => by
    have ih := uses_getMutV e L
    unfold getMut
    uses
    all_goals
      refine uses_bind (ih _ _ _ (sm_towards c (by assumption))) (by uses_arith) fun q => ?_
      uses
theorem uses_pushTailNew (own : Option Nat) (tail : Nat) : ∀ L p sh, Uses kd (amt L 0 0 0 kd) (pushTailNew c E own tail L p sh)
  | 0, p, sh => uses_undef
  | L + 1, p, sh => by
    have ih := uses_pushTailNew own tail L
    unfold pushTailNew
    uses
    refine uses_bind (ih _ _) (by uses_arith) fun q => ?_
    uses
macro_rules | `(tactic| uses0) => `(tactic| with_reducible exact uses_pushTailNew _ _ _ _ _ _ _)
theorem uses_pushTailMut (e tail : Nat) : ∀ L p sh, Uses kd (amt L 0 0 0 kd) (pushTailMut c E e tail L p sh)
  | 0, p, sh => uses_undef
  | L + 1, p, sh => by
    have ih := uses_pushTailMut e tail L
    unfold pushTailMut
    uses
    refine uses_bind (ih _ _) (by uses_arith) fun q => ?_
    uses
theorem uses_sliceNode (own : Option Nat) (mu b co : Bool) (L p : Nat) (sh : Shp) (idx : Nat) (r : Sliced) : Uses kd (amt 1 0 0 0 kd) (sliceNode c E own mu b co L p sh idx r) := by
  unfold sliceNode; uses
theorem uses_mayMutate (own : Option Nat) (mu : Bool) (p : Nat) : Uses kd 0 (mayMutate E own mu p) := by unfold mayMutate; uses
macro_rules | `(tactic| uses0) => `(tactic| with_reducible first | exact uses_pushTailMut _ _ _ _ _ _ _ | exact uses_sliceNode _ _ _ _ _ _ _ _ _ _ _ | exact uses_mayMutate _ _ _ _)

theorem sm_index {sh : Shp} {idx i : Nat} (hl : sh.isLeaf = true) (h : sh.index c idx = some i) : i + 1 ≤ 2 ^ c.BL := by
  have := Nat.and_le_right (n := idx) (m := 2 ^ c.BL - 1)
  have := Nat.one_le_two_pow (n := c.BL)
  cases sh <;> simp only [Shp.isLeaf, reduceCtorEq] at hl <;> simp only [Shp.index, Shp.pos, Pos.index, Option.some.injEq] at h <;> omega

theorem uses_sliceRight (own : Option Nat) : ∀ (L : Nat) (mu co : Bool) p sh last, Uses kd (amt (L + 1) (2 ^ c.BL) 0 0 kd) (sliceRight c E own mu co L p sh last)
  | 0, mu, co, p, sh, last => by
    unfold sliceRight
    split
    · refine uses_liftO_bind _ fun i hi => ?_
      have := sm_index c ‹_› hi
      uses
    · uses
  | L + 1, mu, co, p, sh, last => by
    have ih := uses_sliceRight own L
    unfold sliceRight
    uses
    all_goals
      refine uses_bind (ih _ _ _ _ _) (by uses_arith) fun q => ?_
      uses

theorem uses_empty (er et : Nat) : Uses kd 0 (Vc.empty c E er et) := by unfold Vc.empty; uses
theorem uses_share (v : Vc) : Uses kd 0 (v.share E) := by unfold Vc.share; uses
theorem uses_drop (v : Vc) : Uses kd 0 (v.drop c E) := by unfold Vc.drop; uses
theorem uses_mutableTail (e : Nat) (v : Vc) (n : Nat) : Uses kd (amt 1 n 0 0 kd) (v.mutableTail c E e n) := by unfold Vc.mutableTail; uses
macro_rules | `(tactic| uses0) => `(tactic| with_reducible first | exact uses_sliceRight _ _ _ _ _ _ _ _ _ | exact uses_empty _ _ _ _ | exact uses_share _ _ | exact uses_drop _ _ _ | exact uses_mutableTail _ _ _ _ _)

theorem tail_le (v : Vc) : v.size - v.off c ≤ 2 ^ c.BL := by
  by_cases h : v.size = 0
  · have := Nat.zero_le (2 ^ c.BL)
    rw [h, Nat.zero_sub]; exact this
  · have := (Vec.tailOffset_spec (c := c) (Nat.pos_of_ne_zero h))
    unfold Vc.off
    omega

theorem sm_leafSub (v : Vc) : (Shp.leafSub (v.size - v.off c)).Sm c := fun _ => tail_le c v
theorem sm_shp (v : Vc) : (v.shp c).Sm c := fun h => by simp [Vc.shp, Shp.isLeaf] at h

theorem uses_pushBackMut (e : Nat) (v : Vc) (x : T) : Uses kd (amt (levels c v.shift + 2) (2 ^ c.BL) 0 0 kd) (v.pushBackMut c E e x) := by
  have := tail_le c v
  unfold Vc.pushBackMut; uses
theorem uses_pushBack (v : Vc) (x : T) : Uses kd (amt (levels c v.shift + 2) (2 ^ c.BL) 0 0 kd) (v.pushBack c E x) := by
  have := tail_le c v
  unfold Vc.pushBack; uses
theorem uses_getMut (e : Nat) (v : Vc) (i : Nat) : Uses kd (amt (levels c v.shift + 1) (2 ^ c.BL) 0 0 kd) (v.getMut c E e i) := by
  have := tail_le c v
  unfold Vc.getMut; uses
  refine uses_bind (uses_getMutV c E e _ _ _ _ (sm_shp c v)) (Nat.le_refl _) fun q => ?_
  uses
theorem uses_update (user : Bool) (f : T → T) (v : Vc) (i : Nat) : Uses kd (amt (levels c v.shift + 1) (2 ^ c.BL) 1 0 kd) (v.update c E user f i) := by
  unfold Vc.update; uses
  · refine uses_bind (uses_updateV c E user f _ _ _ _ (sm_leafSub c v)) (by uses_arith) fun q => ?_
    uses
  · refine uses_bind (uses_updateV c E user f _ _ _ _ (sm_shp c v)) (by uses_arith) fun q => ?_
    uses
theorem uses_take (er et : Nat) (v : Vc) (n : Nat) : Uses kd (amt (levels c v.shift + 1) (2 ^ c.BL) 0 0 kd) (v.take c E er et n) := by
  have := tail_le c v
  unfold Vc.take; uses
theorem uses_takeMut (e er et : Nat) (v : Vc) (n : Nat) : Uses kd (amt (levels c v.shift + 1) (2 ^ c.BL) 0 0 kd) (v.takeMut c E e er et n) := by
  have := tail_le c v
  unfold Vc.takeMut; uses
theorem uses_applyFn (fn : Fn T) (p i : Nat) : Uses kd (amt 0 0 1 0 kd) (applyFn fn p i) := by unfold applyFn; uses

end VecHeap
