import Verif.FlexHeap.Api
import Verif.VecHeap.Cost

/-!
# What the operations of flexible vectors allocate (helper lemmas for C49)

As in `VecHeap/Cost.lean`, whatever is in memory, for everything but copies of elements: how many elements a leaf has is read
from tables in memory here.
-/

namespace FlexHeap
open Mm Rrb VecHeap

variable {T : Type} (c : Cfg) (E : Env Dat T) {kd : Kind}

theorem uses_tableOf (p : Nat) : Uses kd 0 (tableOf p : HM T (Option Nat)) := by unfold tableOf; uses
macro_rules | `(tactic| uses0) => `(tactic| with_reducible exact uses_tableOf _)
theorem uses_theTable (p : Nat) : Uses kd 0 (theTable p : HM T Nat) := by unfold theTable; uses
theorem uses_setTable (p : Nat) (r : Option Nat) : Uses kd 0 (setTable p r : HM T Unit) := by unfold setTable; uses
theorem uses_sizesOf (t : Nat) : Uses kd 0 (sizesOf t : HM T (List Nat)) := by unfold sizesOf; uses
theorem uses_setSizes (t : Nat) (sz : List Nat) : Uses kd 0 (setSizes t sz : HM T Unit) := by unfold setSizes; uses
macro_rules | `(tactic| uses0) => `(tactic| with_reducible first | exact uses_theTable _ | exact uses_setTable _ _ | exact uses_sizesOf _ | exact uses_setSizes _ _)
theorem uses_newTable (own : Option Nat) (n : Nat) : Uses kd (amt 1 0 0 0 kd) (newTable c E own n) := by unfold newTable; uses
macro_rules | `(tactic| uses0) => `(tactic| with_reducible exact uses_newTable _ _ _ _)
theorem uses_newInnerR (own : Option Nat) (n : Nat) : Uses kd (amt 2 0 0 0 kd) (newInnerR c E own n) := by unfold newInnerR; uses
theorem uses_newInnerSr (own : Option Nat) (n t : Nat) : Uses kd (amt 1 0 0 0 kd) (newInnerSr c E own n t) := by unfold newInnerSr; uses
theorem uses_delInnerR (p n : Nat) : Uses kd 0 (delInnerR c E p n) := by unfold delInnerR; uses
theorem uses_delInnerRE (p : Nat) : Uses kd 0 (delInnerRE c E p) := by unfold delInnerRE; uses
macro_rules | `(tactic| uses0) => `(tactic| with_reducible first | exact uses_newInnerR _ _ _ _ | exact uses_newInnerSr _ _ _ _ _ | exact uses_delInnerR _ _ _ _ | exact uses_delInnerRE _ _ _)
theorem uses_doCopyInnerR (dst src n : Nat) : Uses kd 0 (doCopyInnerR E dst src n) := by unfold doCopyInnerR; uses
theorem uses_newTableK (k : Kind) : Uses kd (if k = kd then 1 else 0) (newTableK c E k) :=
  uses_bind uses_tick (Nat.le_refl _) fun _ => uses_pure fun _ => ⟨rfl, rfl, rfl⟩
theorem uses_newTableK_alloc : Uses kd (amt 1 0 0 0 kd) (newTableK c E .alloc) := uses_mono (uses_newTableK c E _) (by cases kd <;> decide)
theorem uses_newTableK_table : Uses kd (amt 0 0 0 1 kd) (newTableK c E .table) := uses_mono (uses_newTableK c E _) (by cases kd <;> decide)
macro_rules | `(tactic| uses0) => `(tactic| with_reducible first | exact uses_doCopyInnerR _ _ _ _ | exact uses_newTableK_alloc _ _ | exact uses_newTableK_table _ _)
theorem uses_mutTable_alloc (e p n : Nat) : Uses kd (amt 1 0 0 0 kd) (mutTable c E .alloc e p n) := by unfold mutTable; uses
theorem uses_mutTable_table (e p n : Nat) : Uses kd (amt 0 0 0 1 kd) (mutTable c E .table e p n) := by unfold mutTable; uses
theorem uses_copyLeafI (own : Option Nat) (src i n : Nat) : Uses kd (amt 1 (n - i) 0 0 kd) (copyLeafI c E own src i n) := by unfold copyLeafI; uses
theorem uses_maybeRel (p s size : Nat) : Uses kd 0 (maybeRel p s size : HM T RShp) := by unfold maybeRel; uses
macro_rules | `(tactic| uses0) => `(tactic| with_reducible first | exact uses_mutTable_alloc _ _ _ _ _ | exact uses_mutTable_table _ _ _ _ _ | exact uses_copyLeafI _ _ _ _ _ _ | exact uses_maybeRel _ _ _)
theorem uses_kidRel (s size q : Nat) : Uses kd 0 (kidRel c s size q : HM T RShp) := by unfold kidRel; uses
macro_rules | `(tactic| uses0) => `(tactic| with_reducible exact uses_kidRel _ _ _ _)
theorem uses_relTowards (p s : Nat) (sz : List Nat) (idx off : Nat) : Uses kd 0 (relTowards c p s sz idx off : HM T (Nat × RShp × Nat)) := by unfold relTowards; uses
theorem uses_relEach {f : Nat → RShp → HM T Unit} (hf : ∀ p sh, Uses kd 0 (f p sh)) (s : Nat) : ∀ prev ps es, Uses kd 0 (relEach c f s prev ps es)
  | _, _, [] => by unfold relEach; uses
  | _, p :: ps, e :: es => uses_bind (uses_kidRel c _ _ _) (Nat.le_refl _) fun sh => uses_bind (hf p sh) (Nat.le_refl _) fun _ => uses_relEach hf s e ps es
  | _, [], _ :: _ => uses_undef
macro_rules | `(tactic| uses0) => `(tactic| with_reducible exact uses_relTowards _ _ _ _ _ _)
theorem uses_decR : ∀ L p sh, Uses kd 0 (decR c E L p sh)
  | 0, p, .reg sh => by unfold decR; uses
  | 0, p, .rel s sz => by unfold decR; uses
  | L + 1, p, .reg sh => by unfold decR; uses
  | L + 1, p, .rel s sz => by
    unfold decR
    uses
    exact uses_bind (uses_relEach c (uses_decR L) _ _ _ _) (Nat.le_refl _) fun _ => uses_delInnerR _ _ _ _
macro_rules | `(tactic| uses0) => `(tactic| with_reducible exact uses_decR _ _ _ _ _)
theorem uses_decInner (L p s size : Nat) : Uses kd 0 (decInner c E L p s size) := by unfold decInner; uses
theorem uses_decRestR (L p s : Nat) (sz : List Nat) (start : Nat) : Uses kd 0 (decRestR c E L p s sz start) := by
  unfold decRestR; uses; exact uses_relEach c (uses_decR c E L) _ _ _ _
macro_rules | `(tactic| uses0) => `(tactic| with_reducible first | exact uses_decInner _ _ _ _ _ _ | exact uses_decRestR _ _ _ _ _ _ _)
theorem uses_decRightR (L p s : Nat) (sz : List Nat) (start : Nat) : Uses kd 0 (decRightR c E L p s sz start) := by unfold decRightR; uses
theorem uses_decFirst (L p : Nat) (sh : RShp) (n : Nat) : Uses kd 0 (decFirst c E L p sh n) := by
  unfold decFirst
  uses
  · exact uses_eachDo (uses_decV c E L) _ _
  · exact uses_relEach c (uses_decR c E L) _ _ _ _
macro_rules | `(tactic| uses0) => `(tactic| with_reducible first | exact uses_decRightR _ _ _ _ _ _ _ | exact uses_decFirst _ _ _ _ _ _)
theorem uses_decLeft (L p : Nat) (sh : RShp) (n : Nat) : Uses kd 0 (decLeft c E L p sh n) := by unfold decLeft; uses
theorem uses_moveDown (X : Elem T) (p idx : Nat) : ∀ n o, Uses kd 0 (moveDown X p idx o n)
  | 0, _ => by unfold moveDown; uses
  | n + 1, o => by
    have ih := uses_moveDown X p idx n
    unfold moveDown
    uses <;> exact ih _
theorem uses_subTowards (p : Nat) (sh : RShp) (first idx : Nat) : Uses kd 0 (subTowards c p sh first idx : HM T (Nat × RShp × Nat)) := by unfold subTowards; uses
theorem uses_sliceTarget (own : Option Nat) (b : Bool) (p : Nat) (sh : RShp) (n : Nat) : Uses kd (amt 2 0 0 0 kd) (sliceTarget c E own b p sh n) := by unfold sliceTarget; uses
theorem uses_sliceFill (mu b : Bool) (L p n : Nat) (sh : RShp) (idx s0 q : Nat) : Uses kd 0 (sliceFill c E mu b L p n sh idx s0 q) := by unfold sliceFill; uses
theorem uses_pushCopy (own : Option Nat) (p : Nat) (sz : List Nat) (ts ni ch : Nat) : Uses kd (amt 2 0 0 0 kd) (pushCopy c E own p sz ts ni ch) := by unfold pushCopy; uses
theorem uses_sliceNodeR (own : Option Nat) (mu b co : Bool) (L p s : Nat) (sz : List Nat) (last idx : Nat) (r : Sliced) : Uses kd (amt 2 0 0 1 kd) (sliceNodeR c E own mu b co L p s sz last idx r) := by
  unfold sliceNodeR; uses
theorem uses_off (v : Vc) : Uses kd 0 (Fc.off c v : HM T Nat) := by unfold Fc.off; uses
macro_rules | `(tactic| uses0) => `(tactic| with_reducible first | exact uses_decLeft _ _ _ _ _ _ | exact uses_moveDown _ _ _ _ _ | exact uses_subTowards _ _ _ _ _ | exact uses_sliceTarget _ _ _ _ _ _ _ | exact uses_sliceFill _ _ _ _ _ _ _ _ _ _ _ | exact uses_pushCopy _ _ _ _ _ _ _ _ | exact uses_sliceNodeR _ _ _ _ _ _ _ _ _ _ _ _ _ | exact uses_off _ _)
theorem uses_fdrop (v : Vc) : Uses kd 0 (Fc.drop c E v) := by unfold Fc.drop; uses
macro_rules | `(tactic| uses0) => `(tactic| with_reducible exact uses_fdrop _ _ _)

theorem uses_sliceRightR (own : Option Nat) : ∀ (L : Nat) (mu co : Bool) p sh last, Uses kd (amt (2 * L + 1) (2 ^ c.BL) 0 L kd) (sliceRightR c E own mu co L p sh last)
  | 0, mu, co, p, .reg sh, last => by unfold sliceRightR; exact uses_mono (uses_sliceRight c E own _ _ _ _ _ _) (by uses_arith)
  | L + 1, mu, co, p, .reg sh, last => by unfold sliceRightR; exact uses_mono (uses_sliceRight c E own _ _ _ _ _ _) (by uses_arith)
  | 0, mu, co, p, .rel _ _, last => by unfold sliceRightR; uses
  | L + 1, mu, co, p, .rel s sz, last => by
    have ih := uses_sliceRightR own L
    unfold sliceRightR
    uses
    all_goals
      refine uses_bind (ih _ _ _ _ _) (by uses_arith) fun q => ?_
      uses

variable (hk : kd ≠ .copy)
include hk

theorem uses_updateV' (user : Bool) (f : T → T) : ∀ L p sh idx, Uses kd (amt (L + 1) 0 1 0 kd) (VecHeap.updateV c E user f L p sh idx)
  | 0, p, sh, idx => by unfold VecHeap.updateV; uses
  | L + 1, p, sh, idx => by
    have ih := uses_updateV' user f L
    unfold VecHeap.updateV
    uses
    refine uses_bind (ih _ _ _) (by uses_arith) fun q => ?_
    uses
theorem uses_getMutV' (e : Nat) : ∀ L p sh idx, Uses kd (amt (L + 1) 0 0 0 kd) (VecHeap.getMut c E e L p sh idx)
  | 0, p, sh, idx => by unfold VecHeap.getMut; uses
  | L + 1, p, sh, idx => by
    have ih := uses_getMutV' e L
    unfold VecHeap.getMut
    uses
    all_goals
      refine uses_bind (ih _ _ _) (by uses_arith) fun q => ?_
      uses
theorem uses_updateR (user : Bool) (f : T → T) : ∀ L p sh idx, Uses kd (amt (L + 1) 0 1 0 kd) (updateR c E user f L p sh idx)
  | 0, p, .reg sh, idx => by unfold updateR; exact uses_updateV' c E hk user f _ _ _ _
  | L + 1, p, .reg sh, idx => by unfold updateR; exact uses_updateV' c E hk user f _ _ _ _
  | 0, p, .rel _ _, idx => by unfold updateR; uses
  | L + 1, p, .rel s sz, idx => by
    have ih := uses_updateR user f L
    unfold updateR
    uses
    refine uses_bind (ih _ _ _) (by uses_arith) fun q => ?_
    uses
theorem uses_getMutR (e : Nat) : ∀ L p sh idx, Uses kd (amt (L + 1) 0 0 0 kd) (getMutR c E e L p sh idx)
  | 0, p, .reg sh, idx => by unfold getMutR; exact uses_getMutV' c E hk e _ _ _ _
  | L + 1, p, .reg sh, idx => by unfold getMutR; exact uses_getMutV' c E hk e _ _ _ _
  | 0, p, .rel _ _, idx => by unfold getMutR; uses
  | L + 1, p, .rel s sz, idx => by
    have ih := uses_getMutR e L
    unfold getMutR
    uses
    all_goals
      refine uses_bind (ih _ _ _) (by uses_arith) fun q => ?_
      uses
theorem uses_sliceLeafLeft (X : Elem T) (own : Option Nat) (mu : Bool) (p : Nat) (sh : Shp) (first : Nat) : Uses kd (amt 1 0 0 0 kd) (sliceLeafLeft c E X own mu p sh first) := by
  unfold sliceLeafLeft; uses
theorem uses_sliceLeftR (X : Elem T) (own : Option Nat) : ∀ (L : Nat) (mu co : Bool) p sh first, Uses kd (amt (2 * L + 1) 0 0 0 kd) (sliceLeftR c E X own mu co L p sh first)
  | 0, mu, co, p, .reg sh, first => by
    have := uses_sliceLeafLeft c E hk X own mu p sh first
    unfold sliceLeftR; split
    · exact uses_mono this (by uses_arith)
    · uses
  | 0, mu, co, p, .rel _ _, first => by unfold sliceLeftR; uses
  | L + 1, mu, co, p, sh, first => by
    have ih := uses_sliceLeftR X own L
    unfold sliceLeftR
    uses
    all_goals
      refine uses_bind (ih _ _ _ _ _) (by uses_arith) fun q => ?_
      uses
omit hk

/-- nothing at all if there is no room -/
def pushAmt (n : Nat) (t : Nat) (kd : Kind) (r : Option Nat) : Nat := if r.isSome then amt n 0 0 t kd else 0

theorem usesB_pushAmt {n m t : Nat} {x : HM T (Option Nat)} (hx : UsesB kd (pushAmt n t kd) (amt m 0 0 t kd) 0 x) (h : n ≤ m) : Uses kd (amt m 0 0 t kd) x :=
  uses_of_usesB hx fun b => by
    unfold pushAmt
    split
    · uses_arith
    · exact Nat.zero_le _

theorem uses_pushChild (own : Option Nat) (tail L ni : Nat) {t : Nat} (r : Option Nat) :
    UsesB kd (fun y => if y.isSome then amt (2 * L) 0 0 t kd else 0) (amt (2 * L) 0 0 t kd) (pushAmt (2 * L) t kd r) (pushChild c E own tail L ni r) := by
  unfold pushChild
  split
  · exact usesB_ret (Nat.le_refl _)
  · split
    · refine usesB_bind (uses_makePath c E own L tail) ?_ fun ch => usesB_ret ?_
      · show 0 + _ ≤ _; uses_arith
      · show 0 + _ ≤ amt _ _ _ _ _; uses_arith
    · exact usesB_ret (Nat.le_refl _)

theorem uses_pushTailNewR (own : Option Nat) (tail ts : Nat) : ∀ L p sh, UsesB kd (pushAmt (2 * L) 0 kd) (amt (2 * L) 0 0 0 kd) 0 (pushTailNewR c E own tail ts L p sh)
  | L, p, .reg sh => by
    unfold pushTailNewR
    refine usesB_bind (uses_pushTailNew c E own tail L p sh) (by uses_arith) fun n => usesB_ret ?_
    show _ ≤ amt _ _ _ _ _
    uses_arith
  | 0, p, .rel _ _ => by unfold pushTailNewR; exact usesB_undef
  | L + 1, p, .rel s sz => by
    have ih := uses_pushTailNewR own tail ts L
    unfold pushTailNewR
    refine usesB_bind (uses_liftO _) (by uses_arith) fun x => ?_
    split
    · exact usesB_ret (by omega)
    · refine usesB_bindB (k1 := fun y => if y.isSome then amt (2 * L) 0 0 0 kd else 0) (n1 := amt (2 * L) 0 0 0 kd) ?_ (by uses_arith) fun y => ?_
      · split
        · refine usesB_bind (uses_kid _ _) (by uses_arith) fun q => usesB_bind (uses_kidRel c _ _ _) (by uses_arith) fun sh => usesB_bindB (ih q sh) (by uses_arith) fun r => ?_
          simp only [Nat.zero_add, Nat.add_zero]
          exact uses_pushChild c E own tail L _ r
        · refine usesB_bind (uses_makePath c E own L tail) (by uses_arith) fun ch => usesB_ret ?_
          show 0 + _ ≤ amt _ _ _ _ _; uses_arith
      · rcases y with _ | ⟨ni, ch⟩
        · exact usesB_ret (Nat.le_refl _)
        · refine usesB_bind (uses_guard (uses_pushCopy c E own _ _ _ _ _)) ?_ fun n => usesB_ret ?_
          · show 0 + 0 + amt _ _ _ _ _ + _ ≤ _; uses_arith
          · show 0 + 0 + amt _ _ _ _ _ + _ ≤ amt _ _ _ _ _; uses_arith

theorem uses_pushTailMutR (e tail ts : Nat) : ∀ L p sh, UsesB kd (pushAmt (2 * L) L kd) (amt (2 * L) 0 0 L kd) 0 (pushTailMutR c E e tail ts L p sh)
  | L, p, .reg sh => by
    unfold pushTailMutR
    refine usesB_bind (uses_pushTailMut c E e tail L p sh) (by uses_arith) fun n => usesB_ret ?_
    show _ ≤ amt _ _ _ _ _
    uses_arith
  | 0, p, .rel _ _ => by unfold pushTailMutR; exact usesB_undef
  | L + 1, p, .rel s sz => by
    have ih := uses_pushTailMutR e tail ts L
    unfold pushTailMutR
    refine usesB_bind (uses_canMutate E _ _) (by uses_arith) fun x => ?_
    split
    · refine usesB_bind (uses_liftO _) (by uses_arith) fun x => ?_
      split
      · exact usesB_ret (by omega)
      · refine usesB_bindB (k1 := fun y => if y.isSome then amt (2 * L) 0 0 L kd else 0) (n1 := amt (2 * L) 0 0 L kd) ?_ (by uses_arith) fun y => ?_
        · split
          · refine usesB_bind (uses_kid _ _) (by uses_arith) fun q => usesB_bind (uses_kidRel c _ _ _) (by uses_arith) fun sh => usesB_bindB (ih q sh) (by uses_arith) fun r => ?_
            simp only [Nat.zero_add, Nat.add_zero]
            exact uses_pushChild c E (some e) tail L _ r
          · refine usesB_bind (uses_makePath c E (some e) L tail) (by uses_arith) fun ch => usesB_ret ?_
            show 0 + _ ≤ amt _ _ _ _ _; uses_arith
        · rcases y with _ | ⟨ni, ch⟩
          · exact usesB_ret (Nat.le_refl _)
          · refine usesB_bind (uses_mutTable_table c E _ _ _) ?_ fun n => usesB_bind (uses_putKid _ _ _) ?_ fun _ => usesB_bind (uses_liftO _) ?_ fun _ => usesB_bind (uses_sizesOf _) ?_ fun _ => usesB_bind (uses_liftO _) ?_ fun _ => usesB_bind (uses_setSizes _ _) ?_ fun _ => usesB_ret ?_
            iterate 6
              · show 0 + 0 + 0 + amt _ _ _ _ _ + _ ≤ _; uses_arith
            · show 0 + 0 + 0 + amt _ _ _ _ _ + _ ≤ amt _ _ _ _ _; uses_arith
    · refine usesB_bindB (uses_pushTailNewR c E (some e) tail ts (L + 1) p _) (by uses_arith) fun n => ?_
      split
      · exact usesB_ret (Nat.le_refl _)
      · refine usesB_bind (uses_decR c E _ _ _) ?_ fun _ => usesB_ret ?_
        · show 0 + 0 + amt _ _ _ _ _ + _ ≤ _; uses_arith
        · show 0 + 0 + amt _ _ _ _ _ + _ ≤ amt _ _ _ _ _; uses_arith

theorem uses_fpushTail (root shift size tail ts : Nat) : Uses kd (amt (2 * levels c shift + 2) 0 0 0 kd) (Fc.pushTail c E root shift size tail ts) := by
  unfold Fc.pushTail
  uses
  refine uses_of_usesB (k := fun _ => amt (2 * levels c shift + 2) 0 0 0 kd) (usesB_bindB (uses_pushTailNewR c E none tail ts _ _ _) (by uses_arith) fun n => ?_) (fun _ => by uses_arith)
  split
  · refine usesB_ret ?_
    show 0 + amt _ _ _ _ _ ≤ _
    uses_arith
  · refine usesB_of (j := amt (2 * levels c shift + 2) 0 0 0 kd) ?_ ?_ fun _ => ?_
    · uses
    · show 0 + 0 + _ ≤ _; uses_arith
    · show 0 + 0 + _ ≤ _; uses_arith

theorem uses_fpushTailMut (e root shift size tail ts : Nat) : Uses kd (amt (2 * levels c shift + 2) 0 0 (levels c shift) kd) (Fc.pushTailMut c E e root shift size tail ts) := by
  unfold Fc.pushTailMut
  uses
  refine uses_of_usesB (k := fun _ => amt (2 * levels c shift + 2) 0 0 (levels c shift) kd) (usesB_bindB (uses_pushTailMutR c E e tail ts _ _ _) (by uses_arith) fun n => ?_) (fun _ => by uses_arith)
  split
  · refine usesB_ret ?_
    show 0 + amt _ _ _ _ _ ≤ _
    uses_arith
  · refine usesB_of (j := amt (2 * levels c shift + 2) 0 0 (levels c shift) kd) ?_ ?_ fun _ => ?_
    · uses
    · show 0 + 0 + _ ≤ _; uses_arith
    · show 0 + 0 + _ ≤ _; uses_arith
macro_rules | `(tactic| uses0) => `(tactic| with_reducible first | exact uses_fpushTail _ _ _ _ _ _ _ | exact uses_fpushTailMut _ _ _ _ _ _ _ _ | exact uses_sliceRightR _ _ _ _ _ _ _ _ _)

theorem uses_fpushBackMut (e : Nat) (v : Vc) (x : T) : Uses kd (amt (2 * levels c v.shift + 3) (2 ^ c.BL) 0 (levels c v.shift) kd) (Fc.pushBackMut c E e v x) := by
  unfold Fc.pushBackMut; uses
theorem uses_fpushBack (v : Vc) (x : T) : Uses kd (amt (2 * levels c v.shift + 3) (2 ^ c.BL) 0 0 kd) (Fc.pushBack c E v x) := by
  unfold Fc.pushBack; uses

include hk
theorem uses_fgetMut (e : Nat) (v : Vc) (i : Nat) : Uses kd (amt (levels c v.shift + 1) 0 0 0 kd) (Fc.getMut c E e v i) := by
  unfold Fc.getMut; uses
  refine uses_bind (uses_getMutR c E hk e _ _ _ _) (Nat.le_refl _) fun q => ?_
  uses
theorem uses_fupdate (user : Bool) (f : T → T) (v : Vc) (i : Nat) : Uses kd (amt (levels c v.shift + 1) 0 1 0 kd) (Fc.update c E user f v i) := by
  unfold Fc.update; uses
  · refine uses_bind (uses_updateV' c E hk user f _ _ _ _) (by uses_arith) fun q => ?_
    uses
  · refine uses_bind (uses_updateR c E hk user f _ _ _ _) (by uses_arith) fun q => ?_
    uses
theorem uses_ftake (er et : Nat) (v : Vc) (n : Nat) : Uses kd (amt (2 * levels c v.shift + 1) 0 0 (levels c v.shift) kd) (Fc.take c E er et v n) := by
  unfold Fc.take; uses
theorem uses_ftakeMut (e er et : Nat) (v : Vc) (n : Nat) : Uses kd (amt (2 * levels c v.shift + 1) 0 0 (levels c v.shift) kd) (Fc.takeMut c E e er et v n) := by
  unfold Fc.takeMut; uses
theorem uses_fdropN (X : Elem T) (er et : Nat) (v : Vc) (n : Nat) : Uses kd (amt (2 * levels c v.shift + 1) 0 0 0 kd) (Fc.dropN c E X er et v n) := by
  unfold Fc.dropN; uses
  refine uses_bind (uses_sliceLeftR c E hk X _ _ _ _ _ _ _) (by uses_arith) fun q => ?_
  uses
theorem uses_fdropMut (X : Elem T) (e er et : Nat) (v : Vc) (n : Nat) : Uses kd (amt (2 * levels c v.shift + 1) 0 0 0 kd) (Fc.dropMut c E X e er et v n) := by
  unfold Fc.dropMut; uses
  all_goals
    refine uses_bind (uses_sliceLeftR c E hk X _ _ _ _ _ _ _) (by uses_arith) fun q => ?_
    uses

end FlexHeap
