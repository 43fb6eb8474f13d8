import Verif.FlexHeap.Api
import Verif.VecHeap.Calm

/-!
# Only what is asked to throws, for flexible vectors
-/

namespace FlexHeap
open Mm Rrb VecHeap

variable {T : Type} (c : Cfg) (E : Env Dat T)

theorem calm_tableOf (p : Nat) : Calm (tableOf p : HM T (Option Nat)) := by unfold tableOf; calm
macro_rules | `(tactic| calm1) => `(tactic| with_reducible exact calm_tableOf _)
theorem calm_theTable (p : Nat) : Calm (theTable p : HM T Nat) := by unfold theTable; calm
theorem calm_setTable (p : Nat) (r : Option Nat) : Calm (setTable p r : HM T Unit) := by unfold setTable; calm
theorem calm_sizesOf (t : Nat) : Calm (sizesOf t : HM T (List Nat)) := by unfold sizesOf; calm
theorem calm_setSizes (t : Nat) (sz : List Nat) : Calm (setSizes t sz : HM T Unit) := by unfold setSizes; calm
macro_rules | `(tactic| calm1) => `(tactic| with_reducible first | exact calm_theTable _ | exact calm_setTable _ _ | exact calm_sizesOf _ | exact calm_setSizes _ _)
theorem calm_newTable (own : Option Nat) (n : Nat) : Calm (newTable c E own n) := by unfold newTable; calm
macro_rules | `(tactic| calm1) => `(tactic| with_reducible exact calm_newTable _ _ _ _)
theorem calm_newInnerR (own : Option Nat) (n : Nat) : Calm (newInnerR c E own n) := by unfold newInnerR; calm
theorem calm_newInnerSr (own : Option Nat) (n t : Nat) : Calm (newInnerSr c E own n t) := by unfold newInnerSr; calm
theorem calm_delInnerR (p n : Nat) : Calm (delInnerR c E p n) := by unfold delInnerR; calm
theorem calm_delInnerRE (p : Nat) : Calm (delInnerRE c E p) := by unfold delInnerRE; calm
macro_rules | `(tactic| calm1) => `(tactic| with_reducible first | exact calm_newInnerR _ _ _ _ | exact calm_newInnerSr _ _ _ _ _ | exact calm_delInnerR _ _ _ _ | exact calm_delInnerRE _ _ _)
theorem calm_freeInnerR (own : Option Nat) (p n : Nat) : Calm (freeInnerR c E own p n) := by unfold freeInnerR; calm
theorem calm_doCopyInnerR (d p n : Nat) : Calm (doCopyInnerR E d p n) := by unfold doCopyInnerR; calm
theorem calm_newTableK (k : Kind) : Calm (newTableK c E k) := by
  unfold newTableK
  exact calm_bind (calm_tick _) fun _ _ => .refl _
macro_rules | `(tactic| calm1) => `(tactic| with_reducible first | exact calm_freeInnerR _ _ _ _ _ | exact calm_doCopyInnerR _ _ _ _ | exact calm_newTableK _ _ _)
theorem calm_mutTable (k : Kind) (e p n : Nat) : Calm (mutTable c E k e p n) := by unfold mutTable; calm
theorem calm_copyLeafI (own : Option Nat) (p i n : Nat) : Calm (copyLeafI c E own p i n) := by unfold copyLeafI; calm
theorem calm_maybeRel (p s z : Nat) : Calm (maybeRel p s z : HM T RShp) := by unfold maybeRel; calm
macro_rules | `(tactic| calm1) => `(tactic| with_reducible first | exact calm_mutTable _ _ _ _ _ _ | exact calm_copyLeafI _ _ _ _ _ _ | exact calm_maybeRel _ _ _)
theorem calm_kidRel (s z q : Nat) : Calm (kidRel c s z q : HM T RShp) := by unfold kidRel; calm
macro_rules | `(tactic| calm1) => `(tactic| with_reducible exact calm_kidRel _ _ _ _)
theorem calm_relTowards (p s : Nat) (sz : List Nat) (i o : Nat) : Calm (relTowards c p s sz i o : HM T (Nat × RShp × Nat)) := by unfold relTowards; calm
theorem calm_relEach {f : Nat → RShp → HM T Unit} (hf : ∀ p sh, Calm (f p sh)) (s : Nat) : ∀ b ks sz, Calm (relEach c f s b ks sz)
  | _, _, [] => by unfold relEach; calm
  | _, q :: qs, e :: es => calm_bind (calm_kidRel _ _ _ _) fun _ => calm_bind (hf _ _) fun _ => calm_relEach hf s e qs es
  | _, [], _ :: _ => calm_undef
theorem calm_decR : ∀ L p sh, Calm (decR c E L p sh)
  | 0, p, .reg sh => by unfold decR; calm
  | L + 1, p, .reg sh => by unfold decR; calm
  | 0, _, .rel _ _ => calm_undef
  | L + 1, p, .rel s sz => by
    have ih := calm_decR L
    unfold decR; calm
    exact calm_relEach c ih _ _ _ _
macro_rules | `(tactic| calm1) => `(tactic| with_reducible first | exact calm_relTowards _ _ _ _ _ _ | exact calm_decR _ _ _ _ _ | exact calm_relEach _ (calm_decR _ _ _) _ _ _ _ | exact calm_eachDo (calm_decV _ _ _) _ _)
theorem calm_decInner (L p s z : Nat) : Calm (decInner c E L p s z) := by unfold decInner; calm
theorem calm_decRestR (L p s : Nat) (sz : List Nat) (k : Nat) : Calm (decRestR c E L p s sz k) := by unfold decRestR; calm
macro_rules | `(tactic| calm1) => `(tactic| with_reducible first | exact calm_decInner _ _ _ _ _ _ | exact calm_decRestR _ _ _ _ _ _ _)
theorem calm_decRightR (L p s : Nat) (sz : List Nat) (k : Nat) : Calm (decRightR c E L p s sz k) := by unfold decRightR; calm
theorem calm_decFirst (L p : Nat) (sh : RShp) (k : Nat) : Calm (decFirst c E L p sh k) := by unfold decFirst; calm
macro_rules | `(tactic| calm1) => `(tactic| with_reducible first | exact calm_decRightR _ _ _ _ _ _ _ | exact calm_decFirst _ _ _ _ _ _)
theorem calm_decLeft (L p : Nat) (sh : RShp) (k : Nat) : Calm (decLeft c E L p sh k) := by unfold decLeft; calm
theorem calm_updateR (user : Bool) (f : T → T) : ∀ L p sh idx, Calm (updateR c E user f L p sh idx)
  | 0, p, .reg sh, idx => by unfold updateR; calm
  | L + 1, p, .reg sh, idx => by unfold updateR; calm
  | 0, _, .rel _ _, _ => calm_undef
  | L + 1, p, .rel s sz, idx => by
    have ih := calm_updateR user f L
    unfold updateR; calm
    exact ih _ _ _
theorem calm_getMutR (e : Nat) : ∀ L p sh idx, Calm (getMutR c E e L p sh idx)
  | 0, p, .reg sh, idx => by unfold getMutR; calm
  | L + 1, p, .reg sh, idx => by unfold getMutR; calm
  | 0, _, .rel _ _, _ => calm_undef
  | L + 1, p, .rel s sz, idx => by
    have ih := calm_getMutR e L
    unfold getMutR; calm <;> exact ih _ _ _
theorem calm_pushChild (own : Option Nat) (tail L ni : Nat) (r : Option Nat) : Calm (pushChild c E own tail L ni r) := by unfold pushChild; calm
theorem calm_pushCopy (own : Option Nat) (p : Nat) (sz : List Nat) (ts ni ch : Nat) : Calm (pushCopy c E own p sz ts ni ch) := by unfold pushCopy; calm
macro_rules | `(tactic| calm1) => `(tactic| with_reducible first | exact calm_decLeft _ _ _ _ _ _ | exact calm_updateR _ _ _ _ _ _ _ _ | exact calm_getMutR _ _ _ _ _ _ _ | exact calm_pushChild _ _ _ _ _ _ _ | exact calm_pushCopy _ _ _ _ _ _ _ _)
theorem calm_pushTailNewR (own : Option Nat) (tail ts : Nat) : ∀ L p sh, Calm (pushTailNewR c E own tail ts L p sh)
  | 0, p, .reg sh => by unfold pushTailNewR; calm
  | L + 1, p, .reg sh => by unfold pushTailNewR; calm
  | 0, _, .rel _ _ => calm_undef
  | L + 1, p, .rel s sz => by
    have ih := calm_pushTailNewR own tail ts L
    unfold pushTailNewR; calm
    exact ih _ _
macro_rules | `(tactic| calm1) => `(tactic| with_reducible exact calm_pushTailNewR _ _ _ _ _ _ _ _)
theorem calm_pushTailMutR (e tail ts : Nat) : ∀ L p sh, Calm (pushTailMutR c E e tail ts L p sh)
  | 0, p, .reg sh => by unfold pushTailMutR; calm
  | L + 1, p, .reg sh => by unfold pushTailMutR; calm
  | 0, _, .rel _ _ => calm_undef
  | L + 1, p, .rel s sz => by
    have ih := calm_pushTailMutR e tail ts L
    unfold pushTailMutR; calm
    exact ih _ _
theorem calm_sliceNodeR (own : Option Nat) (mu b co : Bool) (L p s : Nat) (sz : List Nat) (last idx : Nat) (r : Sliced) : Calm (sliceNodeR c E own mu b co L p s sz last idx r) := by
  unfold sliceNodeR; calm
macro_rules | `(tactic| calm1) => `(tactic| with_reducible first | exact calm_pushTailMutR _ _ _ _ _ _ _ _ | exact calm_sliceNodeR _ _ _ _ _ _ _ _ _ _ _ _ _)
theorem calm_sliceRightR (own : Option Nat) : ∀ (L : Nat) (mu co : Bool) p sh last, Calm (sliceRightR c E own mu co L p sh last)
  | 0, mu, co, p, .reg sh, last => by unfold sliceRightR; calm
  | L + 1, mu, co, p, .reg sh, last => by unfold sliceRightR; calm
  | 0, _, _, _, .rel _ _, _ => calm_undef
  | L + 1, mu, co, p, .rel s sz, last => by
    have ih := calm_sliceRightR own L
    unfold sliceRightR; calm <;> exact ih _ _ _ _ _
theorem calm_moveDown (X : Elem T) (p i : Nat) : ∀ o n, Calm (moveDown X p i o n)
  | _, 0 => calm_ret _
  | o, n + 1 => by
    have ih := calm_moveDown X p i (o + 1) n
    unfold moveDown; calm
    exact ih
macro_rules | `(tactic| calm1) => `(tactic| with_reducible first | exact calm_sliceRightR _ _ _ _ _ _ _ _ _ | exact calm_moveDown _ _ _ _ _)
theorem calm_sliceLeafLeft (X : Elem T) (own : Option Nat) (mu : Bool) (p : Nat) (sh : Shp) (i : Nat) : Calm (sliceLeafLeft c E X own mu p sh i) := by unfold sliceLeafLeft; calm
theorem calm_subTowards (p : Nat) (sh : RShp) (i k : Nat) : Calm (subTowards c p sh i k : HM T (Nat × RShp × Nat)) := by unfold subTowards; calm
theorem calm_sliceTarget (own : Option Nat) (b : Bool) (p : Nat) (sh : RShp) (n : Nat) : Calm (sliceTarget c E own b p sh n) := by unfold sliceTarget; calm
theorem calm_sliceFill (mu b : Bool) (L p n : Nat) (sh : RShp) (i s q : Nat) : Calm (sliceFill c E mu b L p n sh i s q) := by unfold sliceFill; calm
macro_rules | `(tactic| calm1) => `(tactic| with_reducible first | exact calm_sliceLeafLeft _ _ _ _ _ _ _ _ | exact calm_subTowards _ _ _ _ _ | exact calm_sliceTarget _ _ _ _ _ _ _ | exact calm_sliceFill _ _ _ _ _ _ _ _ _ _ _)
theorem calm_sliceLeftR (X : Elem T) (own : Option Nat) : ∀ (L : Nat) (mu co : Bool) p sh i, Calm (sliceLeftR c E X own mu co L p sh i)
  | 0, mu, co, p, .reg sh, i => by unfold sliceLeftR; calm
  | 0, _, _, _, .rel _ _, _ => calm_undef
  | L + 1, mu, co, p, sh, i => by
    have ih := calm_sliceLeftR X own L
    unfold sliceLeftR; calm <;> exact ih _ _ _ _ _
macro_rules | `(tactic| calm1) => `(tactic| with_reducible exact calm_sliceLeftR _ _ _ _ _ _ _ _ _ _)

theorem calm_off (v : Vc) : Calm (Fc.off c v : HM T Nat) := by unfold Fc.off; calm
macro_rules | `(tactic| calm1) => `(tactic| with_reducible exact calm_off _ _)
theorem calm_fdrop (v : Vc) : Calm (Fc.drop c E v) := by unfold Fc.drop; calm
theorem calm_pushTail (a b d e f : Nat) : Calm (Fc.pushTail c E a b d e f) := by unfold Fc.pushTail; calm
theorem calm_fpushTailMut (a b d e f g : Nat) : Calm (Fc.pushTailMut c E a b d e f g) := by unfold Fc.pushTailMut; calm
macro_rules | `(tactic| calm1) => `(tactic| with_reducible first | exact calm_fdrop _ _ _ | exact calm_pushTail _ _ _ _ _ _ _ | exact calm_fpushTailMut _ _ _ _ _ _ _ _)
theorem calm_fpushBackMut (e : Nat) (v : Vc) (x : T) : Calm (Fc.pushBackMut c E e v x) := by unfold Fc.pushBackMut; calm
theorem calm_fpushBack (v : Vc) (x : T) : Calm (Fc.pushBack c E v x) := by unfold Fc.pushBack; calm
theorem calm_fgetMut (e : Nat) (v : Vc) (i : Nat) : Calm (Fc.getMut c E e v i) := by unfold Fc.getMut; calm
theorem calm_fupdate (user : Bool) (f : T → T) (v : Vc) (i : Nat) : Calm (Fc.update c E user f v i) := by unfold Fc.update; calm
theorem calm_ftake (er et : Nat) (v : Vc) (n : Nat) : Calm (Fc.take c E er et v n) := by unfold Fc.take; calm
theorem calm_ftakeMut (e er et : Nat) (v : Vc) (n : Nat) : Calm (Fc.takeMut c E e er et v n) := by unfold Fc.takeMut; calm
theorem calm_dropN (X : Elem T) (er et : Nat) (v : Vc) (n : Nat) : Calm (Fc.dropN c E X er et v n) := by unfold Fc.dropN; calm
theorem calm_dropMut (X : Elem T) (e er et : Nat) (v : Vc) (n : Nat) : Calm (Fc.dropMut c E X e er et v n) := by unfold Fc.dropMut; calm

end FlexHeap
