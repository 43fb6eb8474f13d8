import Verif.FlexHeap.CostConcatProps
import Verif.FlexHeap.ConcatGc

/-!
# What joining transients under the collector allocates (C50)

Nodes that belong to the transients are used again; a table of sizes may be made for one.  So there is no more to allocate than
when nothing is used again.
-/

namespace FlexHeap
open Mm Rrb VecHeap

variable {T β : Type} (c : Cfg) (E : Env Dat T) {kd : Kind}

/-! ### Without a request to throw -/

/-- without a fault, nothing is thrown -/
def Quiet (x : HM T β) : Prop := ∀ s : St Dat T, s.fault = none → Out (x s) (fun s' _ => s'.fault = none) (fun _ => False) ∨ x s = .ub

theorem quiet_of_uses {k : Nat} {x : HM T β} (hx : Uses kd k x) : Quiet x := by
  intro s hs
  have h := hx { s with fault := some (kd, k) } k rfl (Nat.le_refl _)
  rw [show ({ s with fault := some (kd, k) } : St Dat T).calm = s by unfold St.calm; rw [← hs]] at h
  unfold Spent at h
  split at h
  · obtain ⟨_, _, _, h⟩ := h
    rw [h]
    exact .inl rfl
  · exact h.elim
  · exact .inr h

theorem honest_bindQ {x : HM T β} {f : β → HM T (Vc × Bool)} (hx : Quiet x) (hf : ∀ b, Honest (f b)) : Honest (x.bind f) := by
  intro s hs
  unfold M.bind
  rcases hx s hs with h | h
  · cases hr : x s with
    | ok s' b => rw [hr] at h; exact hf b s' h
    | thrown s' => rw [hr] at h; exact h.elim
    | ub => exact .inr rfl
  · rw [h]; exact .inr rfl

theorem honest_attemptQ {x : HM T β} {f : Option β → HM T (Vc × Bool)} (hx : Quiet x) (hf : ∀ b, Honest (f (some b))) : Honest ((attempt x).bind f) := by
  intro s hs
  unfold M.bind attempt
  rcases hx s hs with h | h
  · cases hr : x s with
    | ok s' b => rw [hr] at h; exact hf b s' h
    | thrown s' => rw [hr] at h; exact h.elim
    | ub => exact .inr rfl
  · rw [h]; exact .inr rfl

namespace Gc

/-! ### Parts -/

theorem uses_can (e : Option Nat) (p : Nat) : Uses kd 0 (can E e p) := by cases e <;> unfold can <;> uses
macro_rules | `(tactic| uses0) => `(tactic| with_reducible exact uses_can _ _ _)

theorem uses_mutTable (e : Option Nat) (ec p : Nat) : Uses kd (amt 1 0 0 0 kd) (mutTable c E e ec p) := by
  unfold mutTable
  refine uses_bind (uses_tableOf _) (Nat.zero_le _) fun r => ?_
  cases r with
  | none => uses
  | some t => uses

theorem uses_putSize (t i x : Nat) : Uses kd 0 (putSize t i x : HM T Unit) := by unfold putSize; uses
theorem uses_cutSizes (p n : Nat) : Uses kd 0 (cutSizes p n : HM T Unit) := by unfold cutSizes; uses
theorem uses_construct (p i : Nat) (v : T) : Uses kd 0 (construct p i v : HM T Unit) := by
  unfold construct
  refine uses_bind (uses_cell _) (Nat.zero_le _) fun x => ?_
  split
  · exact uses_setEls _ _
  · exact uses_setEls _ _
  · exact uses_undef
macro_rules | `(tactic| uses0) => `(tactic| with_reducible first | exact uses_mutTable _ _ _ _ _ | exact uses_putSize _ _ _ | exact uses_cutSizes _ _ | exact uses_construct _ _ _)

theorem uses_fill (mv : Bool) (src : Nat) : ∀ i n dst o, Uses .alloc 0 (fill mv src i n dst o : HM T Unit)
  | _, 0, _, _ => uses_ret _
  | i, n + 1, dst, o => by
    unfold fill
    refine uses_bind (k := 0) ?_ (Nat.zero_le _) fun v => uses_bind (uses_construct _ _ _) (Nat.zero_le _) fun _ => uses_fill mv src _ _ _ _
    split
    · exact uses_moveEl _ _
    · exact uses_copyEl _ _

theorem uses_slide (p : Nat) : ∀ i n o, Uses kd 0 (slide p i n o : HM T Unit)
  | _, 0, _ => uses_ret _
  | i, n + 1, o => uses_bind (uses_moveEl _ _) (Nat.zero_le _) fun v => uses_bind (uses_assignEl _ _ _) (Nat.zero_le _) fun _ => uses_slide p _ _ _

theorem uses_forget (p n : Nat) : Uses kd 0 (forget p n : HM T Unit) := by unfold forget; uses

theorem uses_theLeaf (q : Nat) : Uses kd 0 (theLeaf q : HM T Unit) := by
  unfold theLeaf
  refine uses_bind (uses_cell _) (Nat.zero_le _) fun x => ?_
  split
  · exact uses_ret _
  · exact uses_undef

theorem uses_putKids (d t : Nat) : ∀ o qs xs, Uses kd 0 (putKids d t o qs xs : HM T Unit)
  | o, q :: qs, x :: xs => uses_bind (uses_putKid _ _ _) (Nat.zero_le _) fun _ => uses_bind (uses_putSize _ _ _) (Nat.zero_le _) fun _ => uses_putKids d t (o + 1) qs xs
  | _, [], [] => uses_ret _
  | _, [], _ :: _ => uses_undef
  | _, _ :: _, [] => uses_undef

theorem uses_withTable (p : HPos) : Uses kd 0 (withTable p : HM T MPos) := by unfold withTable; uses
theorem uses_usable (e p : Option Nat) : Uses kd 0 (usable E e p) := by cases p <;> unfold usable <;> uses
theorem uses_leafs (l : HPos) (t : Option HPos) (r : HPos) : Uses kd 0 (leafs c l t r : HM T HCenter) := by unfold leafs; uses
theorem uses_realize (ec : Nat) (x : HCenter) : Uses kd (amt 2 0 0 0 kd) (realize c E ec x) := by unfold realize; uses

/-! ### The merger -/

namespace Merger

/-- what remains to be made, as for `HMerger` -/
def pot0 (m : Merger) : Nat := 2 * m.curr.length + 2 * (3 - m.nodes.length)
def pot (m : Merger) : Nat := m.pot0 - if m.dst.isSome then 2 else 0
def pot1 (m : Merger) : Nat := 2 * (m.curr.length - 1) + 2 * (3 - m.nodes.length)

theorem pot_none {m : Merger} (h : m.dst = none) : m.pot = m.pot0 := by simp only [pot, h, Option.isSome_none, Bool.false_eq_true, if_false, Nat.sub_zero]

theorem pot1_of {m : Merger} {d count : Nat} (hd : m.dst = some d) (hc : m.curr.head? = some count) : m.pot = m.pot1 := by
  have : m.curr ≠ [] := by rintro h; rw [h] at hc; cases hc
  have := List.length_pos_iff.mpr this
  simp only [pot, pot0, pot1, hd, Option.isSome_some, if_true]
  omega

end Merger

open Merger

/-- a parent that is used again, or a new one -/
theorem uses_parent (cand : Option (Option Nat × Nat)) (ec : Nat) : Uses .alloc 2 (match cand with
    | some (e, p) => (mutTable c E e ec p).bind fun _ => M.ret p
    | none => newInnerR c E (some ec) 0) := by
  split
  · exact uses_bind (uses_mutTable c E _ _ _) (by simp only [amt]; omega) fun _ => uses_ret _
  · exact uses_newInnerR c E _ _

theorem pays_init (ec shift : Nat) (counts : List Nat) (cand : Option (Option Nat × Nat)) : Pays .alloc (2 * counts.length + 6) pot (init c E ec shift counts cand) := by
  unfold init
  refine pays_bind (uses_parent c E cand ec) (by omega) fun p => pays_ret ?_
  simp only [pot, pot0, List.length_cons, List.length_nil, Option.isSome_none, Bool.false_eq_true, if_false]
  omega

theorem pays_addChild (m : Merger) (q size : Nat) : Pays .alloc m.pot1 (fun m' => m'.pot0) (addChild c E m q size) := by
  unfold addChild
  refine pays_bind (uses_liftO _) (Nat.zero_le _) fun p => pays_bind (uses_liftO _) (Nat.zero_le _) fun z => pays_bindP (r := fun r => r.1.pot0) ?_ fun r => ?_
  · split
    · refine pays_bind (uses_cutSizes _ _) (Nat.zero_le _) fun _ => ?_
      split
      · refine pays_bind (uses_parent c E m.cand m.ec) (by simp only [pot1]; omega) fun p => pays_ret ?_
        simp only [pot1, pot0, List.length_append, List.length_tail, List.length_cons, List.length_nil]
        omega
      · exact pays_undef
    · refine pays_ret ?_
      simp only [pot1, pot0, List.length_tail]
      omega
  · exact pays_bind (uses_theTable _) (Nat.zero_le _) fun t => pays_bind (uses_sizesOf _) (Nat.zero_le _) fun sz => pays_bind (uses_liftO _) (Nat.zero_le _) fun b =>
      pays_bind (uses_putSize _ _ _) (Nat.zero_le _) fun _ => pays_bind (uses_putKid _ _ _) (Nat.zero_le _) fun _ => pays_ret (Nat.le_refl _)

theorem pot0_le (m : Merger) : m.pot ≤ m.pot0 := Nat.sub_le _ _

/-- a node is complete -/
theorem pays_done (m : Merger) (q size : Nat) : Pays .alloc m.pot1 pot ((addChild c E m q size).bind fun m => M.ret { m with dst := none }) :=
  pays_bindP (pays_addChild c E m q size) fun m => pays_ret (Nat.le_of_eq (pot_none rfl))

theorem pays_leafLoop (q : Nat) (b : Bool) : ∀ fuel (m : Merger) off rem, Pays .alloc m.pot pot (leafLoop c E q b fuel m off rem)
  | 0, _, _, _ => pays_undef
  | fuel + 1, m, off, rem => by
    have ih := pays_leafLoop q b fuel
    unfold leafLoop
    refine HMerger.pays_liftO_bind _ fun count hc => ?_
    have key : ∀ (m : Merger) (d : Nat), m.dst = some d → m.curr.head? = some count → Pays .alloc m.pot1 pot
        ((if q = d then (if off = m.toOff then M.ret () else slide q off (min rem (count - m.toOff)) m.toOff) else fill b q off (min rem (count - m.toOff)) d m.toOff).bind
            fun _ =>
            let m' := { m with toOff := m.toOff + min rem (count - m.toOff) }
            (if count = m'.toOff then
              (forget d count).bind fun _ => (addChild c E m' d m'.toOff).bind fun m => M.ret { m with dst := none }
            else M.ret m').bind
              fun m' => if min rem (count - m.toOff) = rem then M.ret m' else leafLoop c E q b fuel m' (off + min rem (count - m.toOff)) (rem - min rem (count - m.toOff))) := by
      intro m d hd hc
      refine pays_bind (j := 0) ?_ (Nat.zero_le _) fun _ => pays_bindP (r := pot) ?_ fun m' => ?_
      · split
        · split
          · exact uses_ret _
          · exact uses_slide _ _ _ _
        · exact uses_fill _ _ _ _ _ _
      · split
        · exact pays_bind (uses_forget _ _) (Nat.zero_le _) fun _ => pays_done c E { m with toOff := m.toOff + min rem (count - m.toOff) } _ _
        · refine pays_ret (Nat.le_of_eq ?_)
          exact pot1_of (m := { m with toOff := m.toOff + min rem (count - m.toOff) }) hd hc
      · split
        · exact pays_ret (Nat.le_refl _)
        · exact ih _ _ _
    cases hd : m.dst with
    | some d =>
      rw [pot1_of hd hc]
      exact pays_ret_bind (key m d hd hc)
    | none =>
      refine pays_assoc (pays_bind (j := 1) ?_ ?_ fun d => pays_ret_bind (pays_mono (key { m with dst := some d, toOff := 0 } d rfl hc) ?_ fun b => ?_))
      · split
        · exact uses_bind (uses_setTok _ _ _) (Nat.zero_le _) fun _ => uses_ret _
        · exact uses_newLeaf c E _ _
      all_goals
        have : m.curr ≠ [] := by rintro h; rw [h] at hc; cases hc
        have := List.length_pos_iff.mpr this
        simp only [pot, pot0, pot1, hd, Option.isSome_none, Bool.false_eq_true, if_false]
        omega

theorem pays_shared {m : Merger} (h : m.dst = none) (q size : Nat) : Pays .alloc m.pot pot (addChild c E m q size) := by
  refine pays_mono (pays_addChild c E m q size) ?_ fun b => ?_
  · rw [pot_none h]
    simp only [pot0, pot1]
    omega
  · have := pot0_le b
    rw [pot_none h]
    simp only [pot0, pot1] at this ⊢
    omega

theorem pays_mergeLeaf (e : Option Nat) (m : Merger) (q : Nat) (sh : RShp) : Pays .alloc m.pot pot (mergeLeaf c E e m q sh) := by
  unfold mergeLeaf
  refine pays_bind (uses_liftO _) (Nat.zero_le _) fun size => HMerger.pays_liftO_bind _ fun count hc => ?_
  split
  · rename_i h
    exact pays_shared c E h.1 q size
  · exact pays_bind (uses_theLeaf _) (Nat.zero_le _) fun _ => pays_bind (uses_can _ _ _) (Nat.zero_le _) fun b => pays_leafLoop c E _ _ _ _ _ _

theorem pays_innerLoop (q : Nat) (sh : RShp) (e : Option Nat) (b : Bool) : ∀ fuel (m : Merger) off rem, Pays .alloc m.pot pot (innerLoop c E q sh e b fuel m off rem)
  | 0, _, _, _ => pays_undef
  | fuel + 1, m, off, rem => by
    have ih := pays_innerLoop q sh e b fuel
    unfold innerLoop
    refine HMerger.pays_liftO_bind _ fun count hc => ?_
    have key : ∀ (m : Merger) (d : Nat), m.dst = some d → m.curr.head? = some count → Pays .alloc m.pot1 pot
        ((theTable d).bind fun t =>
          (if q = d ∧ off = m.toOff then M.ret ()
            else
              (kids q).bind fun ks => (liftO (slice ks off (off + min rem (count - m.toOff)))).bind fun ks =>
                (liftO (sh.copySizes off (min rem (count - m.toOff)) m.toSize)).bind fun ss => putKids d t m.toOff ks ss).bind fun _ =>
            (sizesOf t).bind fun sz => (liftO (Pos.szBefore sz (m.toOff + min rem (count - m.toOff)))).bind fun z =>
            let m' := { m with toOff := m.toOff + min rem (count - m.toOff), toSize := z }
            (if count = m'.toOff then
              (cutSizes d m'.toOff).bind fun _ => (addChild c E m' d z).bind fun m => M.ret { m with dst := none }
            else M.ret m').bind fun m' => if min rem (count - m.toOff) = rem then M.ret m' else innerLoop c E q sh e b fuel m' (off + min rem (count - m.toOff)) (rem - min rem (count - m.toOff))) := by
      intro m d hd hc
      refine pays_bind (uses_theTable _) (Nat.zero_le _) fun t => pays_bind (j := 0) ?_ (Nat.zero_le _) fun _ => pays_bind (uses_sizesOf _) (Nat.zero_le _) fun sz =>
        pays_bind (uses_liftO _) (Nat.zero_le _) fun z => pays_bindP (r := pot) ?_ fun m' => ?_
      · split
        · exact uses_ret _
        · exact uses_bind (uses_kids _) (Nat.zero_le _) fun _ => uses_bind (uses_liftO _) (Nat.zero_le _) fun _ => uses_bind (uses_liftO _) (Nat.zero_le _) fun _ => uses_putKids _ _ _ _ _
      · split
        · exact pays_bind (uses_cutSizes _ _) (Nat.zero_le _) fun _ => pays_done c E { m with toOff := m.toOff + min rem (count - m.toOff), toSize := z } _ _
        · refine pays_ret (Nat.le_of_eq ?_)
          exact pot1_of (m := { m with toOff := m.toOff + min rem (count - m.toOff), toSize := z }) hd hc
      · split
        · exact pays_ret (Nat.le_refl _)
        · exact ih _ _ _
    cases hd : m.dst with
    | some d =>
      rw [pot1_of hd hc]
      exact pays_ret_bind (key m d hd hc)
    | none =>
      refine pays_assoc (pays_bind (j := 2) ?_ ?_ fun d => pays_ret_bind (pays_mono (key { m with dst := some d, toOff := 0, toSize := 0 } d rfl hc) ?_ fun b => ?_))
      · split
        · exact uses_bind (uses_setTok _ _ _) (Nat.zero_le _) fun _ => uses_bind (uses_mutTable c E _ _ _) (by simp only [amt]; omega) fun _ => uses_ret _
        · exact uses_newInnerR c E _ _
      all_goals
        have : m.curr ≠ [] := by rintro h; rw [h] at hc; cases hc
        have := List.length_pos_iff.mpr this
        simp only [pot, pot0, pot1, hd, Option.isSome_none, Bool.false_eq_true, if_false]
        omega

theorem pays_mergeInner (e : Option Nat) (m : Merger) (q : Nat) (sh : RShp) : Pays .alloc m.pot pot (mergeInner c E e m q sh) := by
  unfold mergeInner
  refine pays_bind (uses_liftO _) (Nat.zero_le _) fun size => HMerger.pays_liftO_bind _ fun count hc => ?_
  split
  · rename_i h
    exact pays_shared c E h.1 q size
  · exact pays_bind (uses_can _ _ _) (Nat.zero_le _) fun b => pays_innerLoop c E _ _ _ _ _ _ _ _

theorem pays_visit (e : Option Nat) (m : Merger) (q : Nat) (sh : RShp) : Pays .alloc m.pot pot (visit c E e m q sh) := by
  unfold visit
  split
  · exact pays_mergeLeaf c E _ _ _ _
  · exact pays_mergeInner c E _ _ _ _

theorem pays_eachReg (e : Option Nat) (p : Nat) : ∀ i shs (m : Merger), Pays .alloc m.pot pot (eachReg c E e p i shs m)
  | _, [], _ => pays_ret (Nat.le_refl _)
  | i, sh :: shs, m => pays_bind (uses_kid _ _) (Nat.zero_le _) fun q => pays_bindP (pays_visit c E e m q _) fun m => pays_eachReg e p (i + 1) shs m

theorem pays_eachRel (e : Option Nat) (p t s : Nat) : ∀ k i prev (m : Merger), Pays .alloc m.pot pot (eachRel c E e p t s k i prev m)
  | 0, _, _, _ => pays_ret (Nat.le_refl _)
  | k + 1, i, prev, m => pays_bind (uses_kid _ _) (Nat.zero_le _) fun q => pays_bind (uses_sizesOf _) (Nat.zero_le _) fun sz => pays_bind (uses_liftO _) (Nat.zero_le _) fun x =>
      pays_bind (uses_kidRel c _ _ _) (Nat.zero_le _) fun sh => pays_bindP (pays_visit c E e m q sh) fun m => pays_bind (uses_sizesOf _) (Nat.zero_le _) fun sz =>
      pays_bind (uses_liftO _) (Nat.zero_le _) fun x => pays_eachRel e p t s k (i + 1) x m

theorem pays_eachLeftSub (e : Option Nat) (m : Merger) (l : Option MLeft) : Pays .alloc m.pot pot (eachLeftSub c E e m l) := by
  unfold eachLeftSub
  split
  · exact pays_bind (uses_liftO _) (Nat.zero_le _) fun shs => pays_eachReg c E _ _ _ _ _
  · exact pays_eachRel c E _ _ _ _ _ _ _ _
  · exact pays_undef
  · exact pays_ret (Nat.le_refl _)
  · exact pays_ret (Nat.le_refl _)

theorem pays_eachRightSub (e : Option Nat) (m : Merger) (r : Option MPos) : Pays .alloc m.pot pot (eachRightSub c E e m r) := by
  unfold eachRightSub
  split
  · split
    · exact pays_bind (uses_liftO _) (Nat.zero_le _) fun shs => pays_eachReg c E _ _ _ _ _
    · exact pays_ret (Nat.le_refl _)
  · exact pays_eachReg c E _ _ _ _ _
  · split
    · exact pays_bind (uses_sizesOf _) (Nat.zero_le _) fun z => pays_bind (uses_liftO _) (Nat.zero_le _) fun b => pays_eachRel c E _ _ _ _ _ _ _ _
    · exact pays_undef
  · exact pays_undef
  · exact pays_ret (Nat.le_refl _)

theorem pays_centreLeaves (e : Option Nat) : ∀ ps (m : Merger), Pays .alloc m.pot pot (centreLeaves c E e ps m)
  | [], _ => pays_ret (Nat.le_refl _)
  | p :: ps, m => pays_bindP (pays_visit c E e m _ _) fun m => pays_centreLeaves e ps m

theorem pays_centreNodes (e : Option Nat) (s : Nat) : ∀ ps (m : Merger), Pays .alloc m.pot pot (centreNodes c E e s ps m)
  | [], _ => pays_ret (Nat.le_refl _)
  | p :: ps, m => pays_bind (uses_theTable _) (Nat.zero_le _) fun t => pays_bind (uses_sizesOf _) (Nat.zero_le _) fun sz => pays_bindP (pays_visit c E e m _ _) fun m => pays_centreNodes e s ps m

theorem uses_rebalance (ec : Nat) (el : Option Nat) (l : Option MLeft) (x : HCenter) (er : Option Nat) (r : Option MPos) : Uses .alloc (perLevel c) (rebalance c E ec el l x er r) := by
  unfold rebalance
  refine uses_bind (k := 0) ?_ (Nat.zero_le _) fun ls => uses_bind (uses_subs c x) (Nat.zero_le _) fun xs => uses_bind (k := 0) ?_ (Nat.zero_le _) fun rs => uses_liftO_bind _ fun counts hc => ?_
  · cases l with
    | none => exact uses_ret _
    | some l => exact uses_hlEachLeftSub c _
  · cases r with
    | none => exact uses_ret _
    | some r => exact FlexHeap.uses_eachRightSub c _ _
  have := plan_length c hc
  refine uses_bind (uses_usable _ _ _) (Nat.zero_le _) fun lc => uses_bind (uses_usable _ _ _) (Nat.zero_le _) fun rc => uses_mono (uses_of_pays (r := fun _ => 0) (n := 2 * counts.length + 6) ?_) (by unfold perLevel; omega)
  refine pays_bindP (pays_init c E ec x.shift counts lc) fun m => pays_bindP (pays_eachLeftSub c E el m l) fun m => pays_bindP (r := pot) ?_ fun m =>
    pays_bindP (r := pot) (pays_eachRightSub c E er { m with cand := rc } r) fun m => ?_
  · split
    · exact pays_centreLeaves c E _ _ _
    · exact pays_centreNodes c E _ _ _ _
  · split
    · exact pays_undef
    · exact pays_bind (uses_liftO _) (Nat.zero_le _) fun p => pays_bind (uses_cutSizes _ _) (Nat.zero_le _) fun _ => pays_ret (Nat.zero_le _)

theorem uses_inners (ec : Nat) (el er : Option Nat) : ∀ fuel l t r, Uses .alloc (fuel * perLevel c) (inners c E ec el er fuel l t r)
  | 0, _, _, _ => uses_undef
  | fuel + 1, l, t, r => by
    have ih := uses_inners ec el er fuel
    have he : (fuel + 1) * perLevel c = fuel * perLevel c + perLevel c := by rw [Nat.add_mul, Nat.one_mul]
    rw [he]
    unfold inners
    have hl : ∀ {x : HM T HCenter}, Uses .alloc 0 x → Uses .alloc (fuel * perLevel c) x := fun h => uses_mono h (Nat.zero_le _)
    split
    · refine uses_bind (uses_hlLastSub c _) (Nat.zero_le _) fun q => uses_bind (k := fuel * perLevel c) ?_ (by omega) fun x => uses_mono (uses_rebalance c E _ _ _ _ _ _) (by omega)
      split
      · exact uses_undef
      · exact uses_bind (uses_withTable _) (Nat.zero_le _) fun q => ih _ _ _
    · split
      · refine uses_bind (uses_firstSub c _ _) (Nat.zero_le _) fun q => uses_bind (k := fuel * perLevel c) ?_ (by omega) fun x => uses_mono (uses_rebalance c E _ _ _ _ _ _) (by omega)
        split
        · split
          · exact hl (uses_leafs c _ _ _)
          · exact uses_undef
        · exact uses_bind (uses_withTable _) (Nat.zero_le _) fun q => ih _ _ _
      · refine uses_bind (uses_hlLastSub c _) (Nat.zero_le _) fun q => uses_bind (k := fuel * perLevel c) ?_ (by omega) fun x => uses_mono (uses_rebalance c E _ _ _ _ _ _) (by omega)
        split
        · exact uses_bind (uses_firstSubLeaf c _ _) (Nat.zero_le _) fun _ => hl (uses_leafs c _ _ _)
        · refine uses_bind (uses_firstSub c _ _) (Nat.zero_le _) fun q' => ?_
          split
          · exact hl (uses_leafs c _ _ _)
          · exact uses_bind (uses_withTable _) (Nat.zero_le _) fun q => uses_bind (uses_withTable _) (Nat.zero_le _) fun q' => ih _ _ _

theorem uses_trees (ec : Nat) (el : Option Nat) (lroot lshift lsize ltail ltcount : Nat) (er : Option Nat) (rroot rshift rsize : Nat) :
    Uses .alloc ((levels c lshift + levels c rshift) * perLevel c + 2) (trees c E ec el lroot lshift lsize ltail ltcount er rroot rshift rsize) := by
  unfold trees
  exact uses_bind (uses_maybeRel _ _ _) (Nat.zero_le _) fun l => uses_bind (uses_withTable _) (Nat.zero_le _) fun l => uses_bind (uses_maybeRel _ _ _) (Nat.zero_le _) fun r =>
    uses_bind (uses_withTable _) (Nat.zero_le _) fun r => uses_bind (uses_inners c E _ _ _ _ _ _ _) (by omega) fun x => uses_mono (uses_realize c E ec x) (by simp only [amt]; omega)

theorem uses_treesTail (ec : Nat) (el : Option Nat) (ltail ltcount : Nat) (er : Option Nat) (rroot rshift rsize : Nat) :
    Uses .alloc ((1 + levels c rshift) * perLevel c + 2) (treesTail c E ec el ltail ltcount er rroot rshift rsize) := by
  unfold treesTail
  exact uses_bind (uses_maybeRel _ _ _) (Nat.zero_le _) fun r =>
    uses_bind (uses_withTable _) (Nat.zero_le _) fun r => uses_bind (uses_inners c E _ _ _ _ _ _ _) (by omega) fun x => uses_mono (uses_realize c E ec x) (by simp only [amt]; omega)

/-! ### Joins -/

/-- with a tail, or with trees -/
theorem uses_either (ec : Nat) (el er : Option Nat) (l : Vc) (o : Nat) (r : Vc) (ro : Nat) : Uses .alloc (concatAmt c (levels c l.shift) (levels c r.shift))
    (if o = 0 then treesTail c E ec el l.tail (l.size - o) er r.root r.shift ro else trees c E ec el l.root l.shift o l.tail (l.size - o) er r.root r.shift ro) := by
  split
  · exact uses_mono (uses_treesTail c E _ _ _ _ _ _ _ _) (tree_tail_le c _ _)
  · exact uses_mono (uses_trees c E _ _ _ _ _ _ _ _ _ _ _) (tree_le c _ _)

/-- the elements of a short second operand go to the tail of the first -/
theorem uses_intoTail (b : Bool) (el : Nat) (l r : Vc) (o : Nat) : Uses .alloc (2 * levels c l.shift + 3)
    ((fill b r.tail 0 (min r.size (2 ^ c.BL - (l.size - o))) l.tail (l.size - o)).bind fun _ =>
      if l.size - o + r.size ≤ 2 ^ c.BL then M.ret { l with size := l.size + r.size }
      else
        (copyLeafI c E (some el) r.tail (min r.size (2 ^ c.BL - (l.size - o))) r.size).bind fun nt =>
          (Fc.pushTailMut c E el l.root l.shift o l.tail (2 ^ c.BL)).bind fun x =>
            M.ret (Vc.mk (l.size + r.size) x.1 x.2 nt)) := by
  refine uses_bind (uses_fill _ _ _ _ _ _) (Nat.zero_le _) fun _ => ?_
  split
  · exact uses_ret _
  · exact uses_bind (uses_copyLeafI c E _ _ _ _) (by simp only [amt]; omega) fun nt => uses_bind (uses_fpushTailMut c E _ _ _ _ _ _) (by simp only [amt]; omega) fun x => uses_ret _

theorem uses_concatMutL (el : Nat) (er : Option Nat) (l r : Vc) : Uses .alloc (concatAmt c (levels c l.shift) (levels c r.shift)) (concatMutL c E el er l r) := by
  have hl := tail_le c (levels c l.shift) (levels c r.shift)
  unfold concatMutL
  split
  · exact uses_ret _
  split
  · exact uses_ret _
  refine uses_bind (uses_off c r) (Nat.zero_le _) fun ro => uses_bind (uses_off c l) (Nat.zero_le _) fun o => ?_
  split
  · split
    · exact uses_bind (uses_fpushTailMut c E _ _ _ _ _ _) (by simp only [amt]; omega) fun x => uses_ret _
    · unfold Vc.mutableTail
      rw [assoc_eq]
      refine uses_bind (uses_canMutate _ _ _) (Nat.zero_le _) fun b => ?_
      have key : ∀ v : Vc, v.shift = l.shift → Uses .alloc (2 * levels c l.shift + 3) ((can E er r.tail).bind fun b => (attempt
                ((fill b r.tail 0 (min r.size (2 ^ c.BL - (v.size - o))) v.tail (v.size - o)).bind fun _ =>
                  if v.size - o + r.size ≤ 2 ^ c.BL then M.ret { v with size := v.size + r.size }
                  else
                    (copyLeafI c E (some el) r.tail (min r.size (2 ^ c.BL - (v.size - o))) r.size).bind fun nt =>
                      (Fc.pushTailMut c E el v.root v.shift o v.tail (2 ^ c.BL)).bind fun x =>
                        M.ret (Vc.mk (v.size + r.size) x.1 x.2 nt))).bind fun x =>
              match x with
              | some l' => M.ret (l', false)
              | none => M.ret (v, true)) := by
        intro v hv
        refine uses_bind (uses_can _ _ _) (Nat.zero_le _) fun b => uses_attempt_bind (uses_intoTail c E b el v r o) (by rw [hv]; omega) fun _ => uses_ret _
      split
      · exact uses_mono (key l rfl) (by omega)
      · rw [assoc_eq]
        refine uses_bind (uses_copyLeaf c E _ _ _) (by simp only [amt]; omega) fun t => ?_
        rw [assoc_eq]
        exact uses_bind (uses_decLeaf c E _ _) (Nat.zero_le _) fun _ => uses_mono (key { l with tail := t } rfl) (by simp only [amt]; omega)
  · exact uses_bind (uses_either c E _ _ _ l o r ro) (Nat.le_refl _) fun x => uses_ret _

theorem uses_concatMutR (el : Option Nat) (er : Nat) (l r : Vc) : Uses .alloc (concatAmt c (levels c l.shift) (levels c r.shift)) (concatMutR c E el er l r) := by
  unfold concatMutR
  split
  · exact uses_ret _
  split
  · exact uses_ret _
  refine uses_bind (uses_off c r) (Nat.zero_le _) fun ro => uses_bind (uses_off c l) (Nat.zero_le _) fun o => ?_
  refine uses_bind (k := concatAmt c (levels c l.shift) (levels c r.shift)) ?_ (Nat.le_refl _) fun x => uses_ret _
  split
  · exact uses_mono (uses_concatTail c E _ _ _ _ _) (tail_le c _ _)
  · exact uses_bind (uses_either c E _ _ _ l o r ro) (Nat.le_refl _) fun x => uses_ret _

theorem honest_concatMutL (el : Nat) (er : Option Nat) (l r : Vc) : Honest (concatMutL c E el er l r) := by
  unfold concatMutL
  refine honest_ite (honest_ret _) (honest_ite (honest_ret _) ?_)
  refine honest_bindQ (quiet_of_uses (kd := .alloc) (uses_off c r)) fun ro => honest_bindQ (quiet_of_uses (kd := .alloc) (uses_off c l)) fun o => honest_ite (honest_ite ?_ ?_) ?_
  · exact honest_bindQ (quiet_of_uses (kd := .alloc) (uses_fpushTailMut c E _ _ _ _ _ _)) fun _ => honest_ret _
  · exact honest_bindQ (quiet_of_uses (kd := .alloc) (uses_mutableTail c E _ _ _)) fun v => honest_bindQ (quiet_of_uses (kd := .alloc) (uses_can _ _ _)) fun b =>
      honest_attemptQ (quiet_of_uses (uses_intoTail c E b el v r o)) fun _ => honest_ret _
  · exact honest_bindQ (quiet_of_uses (uses_either c E _ _ _ l o r ro)) fun _ => honest_ret _

theorem wuses_change (b : Bin) (i j : Nat) (h h' : Obj) : WUses .alloc (concatAmt c (levels c h.v.shift) (levels c h'.v.shift) + 1) (change c E b i j h h') := by
  have ht : WUses .alloc 1 (newTok (T := T) E) := wuses_mono (wuses_newTok E) (by simp only [amt]; split <;> omega)
  unfold change
  split
  · exact wuses_ret _
  cases b with
  | plus => exact wuses_ret _
  | appendTo =>
    exact wuses_bind ht (Nat.le_add_left _ _) fun t => wuses_bind (wuses_setOwner _ _) (Nat.zero_le _) fun _ => wuses_honest (uses_concatMutL c E _ _ _ _) (honest_concatMutL c E _ _ _ _) (by omega) fun v =>
      wuses_bind (wuses_setVc _ _) (Nat.zero_le _) fun _ => wuses_pure fun _ => ⟨rfl, rfl, rfl⟩
  | prependTo =>
    exact wuses_bind ht (Nat.le_add_left _ _) fun t => wuses_bind (wuses_setOwner _ _) (Nat.zero_le _) fun _ => wuses_bind (wuses_lift (uses_concatMutR c E _ _ _ _)) (by omega) fun v => wuses_mono (wuses_setVc _ _) (Nat.zero_le _)
  | appendMove =>
    exact wuses_honest (uses_concatMutL c E _ _ _ _) (honest_concatMutL c E _ _ _ _) (by omega) fun v => wuses_bind (wuses_setVc _ _) (Nat.zero_le _) fun _ => wuses_pure fun _ => ⟨rfl, rfl, rfl⟩
  | prependMove => exact wuses_bind (wuses_lift (uses_concatMutR c E _ _ _ _)) (by omega) fun v => wuses_bind (wuses_setVc _ _) (Nat.zero_le _) fun _ => wuses_pure fun _ => ⟨rfl, rfl, rfl⟩

end Gc

section
variable {c : Cfg} {E : Env Dat T} {w : World T}

/-- Under the collector, `append` and `prepend` of transients. -/
theorem gc_bound {b : Bin} {i j : Nat} {oi oj : Obj} (hi : w.objs[i]? = some oi) (hj : w.objs[j]? = some oj) {l r : Nat}
    (hl : levels c oi.v.shift ≤ l) (hr : levels c oj.v.shift ≤ r) {n : Nat} (hn : (l + r + 1) * (4 * 2 ^ c.B + 8) + 3 ≤ n) :
    Within .alloc ((l + r + 1) * (4 * 2 ^ c.B + 8) + 3) n (Gc.call c E (some (.alloc, n)) b i j w) (Gc.call c E none b i j w) := by
  have hle : concatAmt c (levels c oi.v.shift) (levels c oj.v.shift) ≤ (l + r + 1) * (4 * 2 ^ c.B + 8) + 2 := concatAmt_mono c hl hr
  have h3 := Gc.wuses_change c E b i j oi oj { w with st := { w.st with fault := some (.alloc, n) } } n rfl (by omega)
  simp only [Gc.call, withObj, hi, hj]
  split
  · split
    · exact within_mono h3 (by omega)
    · exact ⟨n, rfl, by omega, rfl⟩
  · exact ⟨n, rfl, by omega, rfl⟩

/-- A concatenation as the interface offers it.  Transients under the collector use their nodes again, values do not.  To join a
transient with itself is an error (`assert(&l != &r)`, rrbtree.hpp 786, 912, 1054, 1190). -/
def joinCall (c : Cfg) (E : Env Dat T) (X : Elem T) (er et : Nat) (f : Option (Kind × Nat)) (b : Bin) (i j : Nat) (w : World T) : Ans T Unit :=
  if E.gc = true ∧ b ≠ .plus ∧ (w.objs[i]?).map (·.kd) = some .transient then Gc.call c E f b i j w else ccall c E X er et f (.two b i j) w

/-- **C50**.  Concatenating objects with at most `l` and `r` levels of inner nodes, in any of the five ways, with reference counting
and under the collector, makes at most `(l + r + 1)·(4·2^B + 8) + 3` allocations, however many elements there are and whatever is
shared with other objects; this is so in all states of memory.  With that many allocations it does not throw, and what it does,
also where it is undefined, is what it does when nothing is to throw. -/
theorem C50_bound {X : Elem T} {er et : Nat} {b : Bin} {i j : Nat} {oi oj : Obj} (hi : w.objs[i]? = some oi) (hj : w.objs[j]? = some oj) {l r : Nat}
    (hl : levels c oi.v.shift ≤ l) (hr : levels c oj.v.shift ≤ r) {n : Nat} (hn : (l + r + 1) * (4 * 2 ^ c.B + 8) + 3 ≤ n) :
    (∃ w' n', joinCall c E X er et (some (.alloc, n)) b i j w = .ok w' () ∧ w'.st.fault = some (.alloc, n') ∧ n ≤ n' + ((l + r + 1) * (4 * 2 ^ c.B + 8) + 3) ∧
      joinCall c E X er et none b i j w = .ok w'.calm ()) ∨
    (joinCall c E X er et (some (.alloc, n)) b i j w = .ub ∧ joinCall c E X er et none b i j w = .ub) := by
  unfold joinCall
  split
  · have h2 := gc_bound (E := E) (b := b) hi hj hl hr hn
    cases hx : Gc.call c E (some (.alloc, n)) b i j w with
    | ub => rw [hx] at h2; exact .inr ⟨rfl, h2⟩
    | thrown _ => rw [hx] at h2; exact h2.elim
    | ok w' u =>
      rw [hx] at h2
      obtain ⟨n', h3, h4, h5⟩ := h2
      exact .inl ⟨w', n', rfl, h3, by omega, h5⟩
  · rcases C50_bound_partial (E := E) (X := X) (er := er) (et := et) (b := b) hi hj hl hr (n := n) (by omega) with ⟨w', n', h1, h2, h3, h4⟩ | h
    · exact .inl ⟨w', n', h1, h2, by omega, h4⟩
    · exact .inr h

end
end FlexHeap
