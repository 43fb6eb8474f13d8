import Verif.FlexHeap.Cost
import Verif.FlexHeap.ConcatMut

/-!
# What concatenation allocates (helper lemmas for C50)

The merger makes at most one node for each entry of the plan, which has no more entries than there are nodes to merge, and at
most three parents.
-/

namespace Rrb.Plan

theorem redist_length {br : Nat} : ∀ {xs : List Nat} {rem : Nat} {w r : List Nat}, redist br rem xs = some (w, r) → w.length + r.length = xs.length
  | [], _, _, _, h => by simp [redist] at h
  | x :: xs, rem, w, r, h => by
    unfold redist at h
    simp only at h
    split at h
    · simp only [Option.map_eq_some_iff, Prod.mk.injEq, Prod.exists] at h
      obtain ⟨w', r', h1, rfl, rfl⟩ := h
      have := redist_length h1
      simp only [List.length_cons]
      omega
    · simp only [Option.some.injEq, Prod.mk.injEq] at h
      obtain ⟨rfl, rfl⟩ := h
      simp only [List.length_cons, List.length_nil]
      omega

theorem loop_length {br opt : Nat} : ∀ {fuel : Nat} {counts : List Nat} {i : Nat} {res : List Nat}, loop br opt fuel counts i = some res → res.length ≤ counts.length
  | 0, _, _, _, h => by simp [loop] at h
  | fuel + 1, counts, i, res, h => by
    unfold loop at h
    split at h
    · simp only [Option.bind_eq_bind, Option.bind_eq_some_iff, Prod.exists] at h
      obtain ⟨j, -, rem, hj, w, r, hr, h⟩ := h
      have h1 := loop_length h
      have h2 := redist_length hr
      have h3 : j < counts.length := (List.getElem?_eq_some_iff.mp hj).1
      simp only [List.length_append, List.length_take, List.length_drop] at h1 h2
      omega
    · cases h
      exact Nat.le_refl _

theorem shuffle_length {c : Cfg} {shift : Nat} {counts res : List Nat} (h : shuffle c shift counts = some res) : res.length ≤ counts.length := loop_length h

end Rrb.Plan

namespace FlexHeap
open Mm Rrb VecHeap

variable {T : Type} (c : Cfg) (E : Env Dat T) {kd : Kind}

theorem plan_length {shift : Nat} {ps : List HPos} {counts : List Nat} (h : planOf c shift ps = some counts) : counts.length ≤ 2 * 2 ^ c.B + 1 := by
  unfold planOf at h
  split at h
  · have := Plan.shuffle_length h
    rw [List.length_map] at this
    omega
  · cases h

theorem uses_relSubs (s : Nat) : ∀ prev ps es, Uses kd 0 (relSubs c s prev ps es : HM T (List HPos))
  | _, _, [] => by unfold relSubs; uses
  | _, p :: ps, e :: es => uses_bind (uses_kidRel c _ _ _) (Nat.le_refl _) fun sh => uses_bind (uses_relSubs s e ps es) (Nat.le_refl _) fun _ => uses_ret _
  | _, [], _ :: _ => uses_undef
macro_rules | `(tactic| uses0) => `(tactic| with_reducible exact uses_relSubs _ _ _ _ _)
theorem uses_eachLeftSub (p : Nat) (sh : RShp) : Uses kd 0 (eachLeftSub c p sh : HM T (List HPos)) := by unfold eachLeftSub; uses
theorem uses_eachRightSub (p : Nat) (sh : RShp) : Uses kd 0 (eachRightSub c p sh : HM T (List HPos)) := by unfold eachRightSub; uses
theorem uses_lastSub (p : Nat) (sh : RShp) : Uses kd 0 (lastSub c p sh : HM T HPos) := by unfold lastSub; uses
theorem uses_firstSub (p : Nat) (sh : RShp) : Uses kd 0 (firstSub c p sh : HM T HPos) := by unfold firstSub; uses
theorem uses_firstSubLeaf (p : Nat) (sh : RShp) : Uses kd 0 (firstSubLeaf c p sh : HM T HPos) := by unfold firstSubLeaf; uses
macro_rules | `(tactic| uses0) => `(tactic| with_reducible first | exact uses_eachLeftSub _ _ _ | exact uses_eachRightSub _ _ _ | exact uses_lastSub _ _ _ | exact uses_firstSub _ _ _ | exact uses_firstSubLeaf _ _ _)
theorem uses_hlLastSub (l : HLeft) : Uses kd 0 (l.lastSub c : HM T HPos) := by cases l <;> unfold HLeft.lastSub <;> uses
theorem uses_hlEachLeftSub (l : HLeft) : Uses kd 0 (l.eachLeftSub c : HM T (List HPos)) := by cases l <;> unfold HLeft.eachLeftSub <;> uses
theorem uses_relNodes (s : Nat) : ∀ ps, Uses kd 0 (relNodes s ps : HM T (List HPos))
  | [] => uses_ret _
  | p :: ps => by
    have ih := uses_relNodes s ps
    unfold relNodes
    uses
    exact uses_bind ih (Nat.le_refl _) fun _ => uses_ret _
macro_rules | `(tactic| uses0) => `(tactic| with_reducible first | exact uses_hlLastSub _ _ | exact uses_hlEachLeftSub _ _ | exact uses_relNodes _ _)
theorem uses_subs (x : HCenter) : Uses kd 0 (x.subs c : HM T (List HPos)) := by unfold HCenter.subs; uses
theorem uses_decAll (L : Nat) : ∀ ps, Uses kd 0 (decAll c E L ps)
  | [] => uses_ret _
  | p :: ps => uses_bind (uses_decR c E _ _ _) (Nat.le_refl _) fun _ => uses_decAll L ps
macro_rules | `(tactic| uses0) => `(tactic| with_reducible first | exact uses_subs _ _ | exact uses_decAll _ _ _ _)
theorem uses_realize (x : HCenter) : Uses kd (amt 2 0 0 0 kd) (x.realize c E) := by unfold HCenter.realize; uses

/-! ### The merger -/

namespace HMerger

/-- what remains to be made: a node (of up to two pieces) for each entry of the plan, and parents -/
def pot0 (m : HMerger) : Nat := 2 * m.curr.length + 2 * (3 - m.nodes.length)

/-- the node for the first entry may have been made already -/
def pot (m : HMerger) : Nat := m.pot0 - if m.dst.isSome then 2 else 0

/-- once the node for the first entry has been made -/
def pot1 (m : HMerger) : Nat := 2 * (m.curr.length - 1) + 2 * (3 - m.nodes.length)

theorem pot_le (m : HMerger) : m.pot ≤ m.pot0 := Nat.sub_le _ _

theorem pays_mkRoom (m : HMerger) : Pays .alloc m.pot1 pot0 (m.mkRoom c E) := by
  unfold mkRoom
  refine pays_bind (uses_liftO _) (Nat.zero_le _) fun p => pays_bind (uses_theTable _) (Nat.zero_le _) fun t => pays_bind (uses_sizesOf _) (Nat.zero_le _) fun sz => ?_
  split
  · split
    · refine pays_bind (uses_liftO _) (Nat.zero_le _) fun z => pays_bind (uses_newInnerR c E _ _) (by simp only [amt, pot1]; omega) fun q => pays_ret ?_
      simp only [amt, pot1, pot0, List.length_append, List.length_tail, List.length_cons, List.length_nil]
      omega
    · exact pays_undef
  · refine pays_ret ?_
    simp only [pot1, pot0, List.length_tail]
    omega

theorem pays_put (m : HMerger) (q size : Nat) : Pays .alloc m.pot0 pot0 (m.put q size : HM T HMerger) := by
  unfold put
  refine pays_bind (uses_liftO _) (Nat.zero_le _) fun p => pays_bind (uses_theTable _) (Nat.zero_le _) fun t => pays_bind (uses_sizesOf _) (Nat.zero_le _) fun sz =>
    pays_bind (uses_liftO _) (Nat.zero_le _) fun _ => pays_bind (uses_liftO _) (Nat.zero_le _) fun _ => pays_bind (uses_setSizes _ _) (Nat.zero_le _) fun _ =>
    pays_bind (uses_putKid _ _ _) (Nat.zero_le _) fun _ => pays_ret (Nat.le_refl _)

theorem pays_addDst (m : HMerger) (q size : Nat) : Pays .alloc m.pot1 pot (m.addDst c E q size) := by
  unfold addDst
  exact pays_bindP (pays_guard (pays_mkRoom c E m)) fun m => pays_bindP (pays_put m q size) fun m => pays_ret (pot_le _)

theorem pays_addShared (m : HMerger) (q size : Nat) : Pays .alloc m.pot1 pot (m.addShared c E q size) := by
  unfold addShared
  exact pays_bindP (pays_guard (pays_mkRoom c E m)) fun m => pays_bind (uses_inc _ _) (Nat.zero_le _) fun _ =>
    pays_mono (pays_put m q size) (Nat.le_refl _) fun b => Nat.add_le_add_right (pot_le b) _

theorem pays_liftO_bind {β δ : Type} {n : Nat} {r : δ → Nat} (o : Option β) {f : β → HM T δ} (h : ∀ b, o = some b → Pays kd n r (f b)) : Pays kd n r ((liftO o).bind f) := by
  cases o with
  | none => exact pays_undef_bind
  | some b => exact h b rfl

theorem pot1_of {m : HMerger} {d count : Nat} (hd : m.dst = some d) (hc : m.curr.head? = some count) : m.pot = m.pot1 := by
  have : m.curr ≠ [] := by rintro h; rw [h] at hc; cases hc
  have := List.length_pos_iff.mpr this
  simp only [pot, pot0, pot1, hd, Option.isSome_some, if_true]
  omega

theorem pays_leafLoop (q : Nat) : ∀ fuel (m : HMerger) off rem, Pays .alloc m.pot pot (leafLoop c E q fuel m off rem)
  | 0, _, _, _ => pays_undef
  | fuel + 1, m, off, rem => by
    have ih := pays_leafLoop q fuel
    unfold leafLoop
    refine pays_liftO_bind _ fun count hc => ?_
    have key : ∀ (m : HMerger) (d : Nat), m.dst = some d → m.curr.head? = some count → Pays .alloc m.pot1 pot
        (((uninitCopy q off (min rem (count - m.toOff)) d m.toOff).guard (m.abort c E)).bind fun _ =>
            let m' := { m with toOff := m.toOff + min rem (count - m.toOff) }
            (if count = m'.toOff then addDst c E m' d m'.toOff else M.ret m').bind fun m' =>
              if min rem (count - m.toOff) = rem then M.ret m'
              else leafLoop c E q fuel m' (off + min rem (count - m.toOff)) (rem - min rem (count - m.toOff))) := by
      intro m d hd hc
      refine pays_bind (uses_guard (uses_uninitCopy _ _ _ _ _)) (Nat.zero_le _) fun _ => pays_bindP (r := pot) ?_ fun m' => ?_
      · split
        · exact pays_addDst c E { m with toOff := m.toOff + min rem (count - m.toOff) } _ _
        · refine pays_ret (Nat.le_of_eq ?_)
          exact pot1_of (m := { m with toOff := m.toOff + min rem (count - m.toOff) }) hd hc
      · split
        · exact pays_ret (Nat.le_refl _)
        · exact ih _ _ _
    cases hd : m.dst with
    | some d =>
      rw [pot1_of hd hc]
      exact pays_ret_bind (key m d hd hc)
    | none =>
      refine pays_assoc (pays_bind (uses_guard (uses_newLeaf c E _ _)) ?_ fun d => pays_ret_bind (pays_mono (key { m with dst := some d, toOff := 0 } d rfl hc) ?_ fun b => ?_))
      all_goals
        have : m.curr ≠ [] := by rintro h; rw [h] at hc; cases hc
        have := List.length_pos_iff.mpr this
        simp only [amt, pot, pot0, pot1, hd, Option.isSome_none, Bool.false_eq_true, if_false]
        omega

theorem pays_mergeLeaf (m : HMerger) (q : Nat) (sh : RShp) : Pays .alloc m.pot pot (mergeLeaf c E m q sh) := by
  unfold mergeLeaf
  refine pays_bind (uses_liftO _) (Nat.zero_le _) fun size => pays_liftO_bind _ fun count hc => ?_
  split
  · rename_i h
    refine pays_mono (pays_addShared c E m q size) ?_ fun b => ?_
    all_goals
      simp only [pot, pot0, pot1, h.1, Option.isSome_none, Bool.false_eq_true, if_false, Nat.sub_zero]
      omega
  · exact pays_leafLoop c E _ _ _ _ _

theorem uses_takeKids (m : HMerger) (q : Nat) (sh : RShp) (d off k : Nat) : Uses kd 0 (takeKids E m q sh d off k) := by unfold takeKids; uses

theorem pays_innerLoop (q : Nat) (sh : RShp) : ∀ fuel (m : HMerger) off rem, Pays .alloc m.pot pot (innerLoop c E q sh fuel m off rem)
  | 0, _, _, _ => pays_undef
  | fuel + 1, m, off, rem => by
    have ih := pays_innerLoop q sh fuel
    unfold innerLoop
    refine pays_liftO_bind _ fun count hc => ?_
    have key : ∀ (m : HMerger) (d : Nat), m.dst = some d → m.curr.head? = some count → Pays .alloc m.pot1 pot
        ((takeKids E m q sh d off (min rem (count - m.toOff))).bind fun z =>
            let m' := { m with toOff := m.toOff + min rem (count - m.toOff), toSize := z }
            (if count = m'.toOff then addDst c E m' d z else M.ret m').bind fun m' =>
              if min rem (count - m.toOff) = rem then M.ret m'
              else innerLoop c E q sh fuel m' (off + min rem (count - m.toOff)) (rem - min rem (count - m.toOff))) := by
      intro m d hd hc
      refine pays_bind (uses_takeKids E _ _ _ _ _ _) (Nat.zero_le _) fun z => pays_bindP (r := pot) ?_ fun m' => ?_
      · split
        · exact pays_addDst c E { m with toOff := m.toOff + min rem (count - m.toOff), toSize := z } _ _
        · refine pays_ret (Nat.le_of_eq ?_)
          exact pot1_of (m := { m with toOff := m.toOff + min rem (count - m.toOff), toSize := z }) hd hc
      · split
        · exact pays_ret (Nat.le_refl _)
        · exact ih _ _ _
    cases hd : m.dst with
    | some d =>
      rw [pot1_of hd hc]
      exact pays_ret_bind (key m d hd hc)
    | none =>
      refine pays_assoc (pays_bind (uses_guard (uses_newInnerR c E _ _)) ?_ fun d => pays_ret_bind (pays_mono (key { m with dst := some d, toOff := 0, toSize := 0 } d rfl hc) ?_ fun b => ?_))
      all_goals
        have : m.curr ≠ [] := by rintro h; rw [h] at hc; cases hc
        have := List.length_pos_iff.mpr this
        simp only [amt, pot, pot0, pot1, hd, Option.isSome_none, Bool.false_eq_true, if_false]
        omega

theorem pays_mergeInner (m : HMerger) (q : Nat) (sh : RShp) : Pays .alloc m.pot pot (mergeInner c E m q sh) := by
  unfold mergeInner
  refine pays_bind (uses_liftO _) (Nat.zero_le _) fun size => pays_liftO_bind _ fun count hc => ?_
  split
  · rename_i h
    refine pays_mono (pays_addShared c E m q size) ?_ fun b => ?_
    all_goals
      simp only [pot, pot0, pot1, h.1, Option.isSome_none, Bool.false_eq_true, if_false, Nat.sub_zero]
      omega
  · exact pays_innerLoop c E _ _ _ _ _ _

theorem pays_visitAll : ∀ (ps : List HPos) (m : HMerger), Pays .alloc m.pot pot (visitAll c E m ps)
  | [], _ => pays_ret (Nat.le_refl _)
  | p :: ps, m => by
    unfold visitAll
    refine pays_bindP (r := pot) ?_ fun m => pays_visitAll ps m
    unfold visit
    split
    · exact pays_mergeLeaf c E _ _ _
    · exact pays_mergeInner c E _ _ _

theorem pays_init (shift : Nat) (counts : List Nat) : Pays .alloc (2 * counts.length + 6) pot (init c E shift counts) := by
  unfold init
  refine pays_bind (uses_newInnerR c E _ _) (by simp only [amt]; omega) fun p => pays_ret ?_
  simp only [pot, pot0, List.length_cons, List.length_nil, Option.isSome_none, Bool.false_eq_true, if_false, amt]
  omega

theorem uses_finish (m : HMerger) : Uses kd 0 (m.finish : HM T HCenter) := by unfold finish; uses

end HMerger

/-- allocations made on each level -/
def perLevel (c : Cfg) : Nat := 4 * 2 ^ c.B + 8

theorem uses_concatRebalance (ls : List HPos) (x : HCenter) (rs : List HPos) : Uses .alloc (perLevel c) (concatRebalance c E ls x rs) := by
  unfold concatRebalance
  refine uses_bind (uses_subs c x) (Nat.zero_le _) fun xs => uses_liftO_bind _ fun counts hc => ?_
  have := plan_length c hc
  refine uses_bind (k := 2 * counts.length + 6) (uses_guard (uses_of_pays (pays_bindP (HMerger.pays_init c E _ _) fun m => HMerger.pays_visitAll c E _ m))) ?_ fun m =>
    uses_bind (uses_decAll c E _ _) (Nat.zero_le _) fun _ => uses_mono (HMerger.uses_finish m) (Nat.zero_le _)
  unfold perLevel
  omega

theorem uses_concatLeafs (l : HPos) (t : Option HPos) (r : HPos) : Uses kd 0 (concatLeafs c E l t r) := by unfold concatLeafs; uses
macro_rules | `(tactic| uses0) => `(tactic| with_reducible exact uses_concatLeafs _ _ _ _ _)

theorem uses_concatInners : ∀ fuel l t r, Uses .alloc (fuel * perLevel c) (concatInners c E fuel l t r)
  | 0, _, _, _ => uses_undef
  | fuel + 1, l, t, r => by
    have ih := uses_concatInners fuel
    have he : (fuel + 1) * perLevel c = fuel * perLevel c + perLevel c := by rw [Nat.add_mul, Nat.one_mul]
    rw [he]
    unfold concatInners
    have hl : ∀ {x : HM T HCenter}, Uses .alloc 0 x → Uses .alloc (fuel * perLevel c) x := fun h => uses_mono h (Nat.zero_le _)
    split
    · refine uses_bind (uses_hlLastSub c l) (Nat.zero_le _) fun q => uses_bind (k := fuel * perLevel c) ?_ (by omega) fun x =>
        uses_bind (uses_hlEachLeftSub c l) (Nat.zero_le _) fun ls => uses_mono (uses_concatRebalance c E _ _ _) (by omega)
      split
      · exact uses_undef
      · exact ih _ _ _
    · split
      · refine uses_bind (uses_firstSub c _ _) (Nat.zero_le _) fun q => uses_bind (k := fuel * perLevel c) ?_ (by omega) fun x =>
          uses_bind (uses_eachRightSub c _ _) (Nat.zero_le _) fun ls => uses_mono (uses_concatRebalance c E _ _ _) (by omega)
        split
        · split
          · exact hl (uses_concatLeafs c E _ _ _)
          · exact uses_undef
        · exact ih _ _ _
      · refine uses_bind (uses_hlLastSub c l) (Nat.zero_le _) fun q => uses_bind (k := fuel * perLevel c) ?_ (by omega) fun x =>
          uses_bind (uses_hlEachLeftSub c l) (Nat.zero_le _) fun ls => uses_bind (uses_eachRightSub c _ _) (Nat.zero_le _) fun rs =>
          uses_mono (uses_concatRebalance c E _ _ _) (by omega)
        split
        · exact uses_bind (uses_firstSubLeaf c _ _) (Nat.zero_le _) fun _ => hl (uses_concatLeafs c E _ _ _)
        · refine uses_bind (uses_firstSub c _ _) (Nat.zero_le _) fun q' => ?_
          split
          · exact hl (uses_concatLeafs c E _ _ _)
          · exact ih _ _ _

theorem uses_concatTrees (lroot lshift lsize ltail ltcount rroot rshift rsize : Nat) :
    Uses .alloc ((levels c lshift + levels c rshift) * perLevel c + 2) (concatTrees c E lroot lshift lsize ltail ltcount rroot rshift rsize) := by
  unfold concatTrees
  exact uses_bind (uses_maybeRel _ _ _) (Nat.zero_le _) fun l => uses_bind (uses_maybeRel _ _ _) (Nat.zero_le _) fun r =>
    uses_bind (uses_concatInners c E _ _ _ _) (by omega) fun x => uses_mono (uses_realize c E x) (by simp only [amt]; omega)

theorem uses_concatTreesTail (ltail ltcount rroot rshift rsize : Nat) :
    Uses .alloc ((1 + levels c rshift) * perLevel c + 2) (concatTreesTail c E ltail ltcount rroot rshift rsize) := by
  unfold concatTreesTail
  exact uses_bind (uses_maybeRel _ _ _) (Nat.zero_le _) fun r =>
    uses_bind (uses_concatInners c E _ _ _ _) (by omega) fun x => uses_mono (uses_realize c E x) (by simp only [amt]; omega)

/-! ### Concatenation -/

/-- allocations of a concatenation of vectors with `l` and `r` levels of inner nodes -/
def concatAmt (c : Cfg) (l r : Nat) : Nat := (l + r + 1) * perLevel c + 2

theorem perLevel_ge : 12 ≤ perLevel c := by
  have : 0 < 2 ^ c.B := Nat.two_pow_pos _
  unfold perLevel
  omega

theorem tail_le (l r : Nat) : 2 * l + 4 ≤ concatAmt c l r := by
  have := Nat.mul_le_mul_left (l + r + 1) (perLevel_ge c)
  unfold concatAmt
  omega

theorem tree_le (l r : Nat) : (l + r) * perLevel c + 2 ≤ concatAmt c l r := by
  unfold concatAmt
  rw [Nat.add_mul _ 1]
  omega

theorem tree_tail_le (l r : Nat) : (1 + r) * perLevel c + 2 ≤ concatAmt c l r := by
  unfold concatAmt
  rw [show l + r + 1 = l + (1 + r) by omega, Nat.add_mul l]
  omega

theorem concatAmt_mono {l l' r r' : Nat} (hl : l ≤ l') (hr : r ≤ r') : concatAmt c l r ≤ concatAmt c l' r' := by
  have := Nat.mul_le_mul_right (perLevel c) (show l + r + 1 ≤ l' + r' + 1 by omega)
  unfold concatAmt
  omega

theorem uses_attempt_bind {β δ : Type} {x : HM T β} {f : Option β → HM T δ} {k n : Nat} (hx : Uses kd k x) (h : k ≤ n) (hf : ∀ b, Uses kd (n - k) (f (some b))) : Uses kd n ((attempt x).bind f) := by
  have : Uses kd n (x.bind fun b => f (some b)) := uses_bind hx h hf
  intro s m hs hm
  have h1 := this s m hs hm
  have h2 := hx s m hs (by omega)
  simp only [M.bind, attempt] at h1 ⊢
  cases hc : x s with
  | thrown _ => rw [hc] at h2; exact h2.elim
  | ub =>
    rw [hc] at h2
    simp only [Spent] at h2
    simp only [h2, Spent]
  | ok s' b =>
    rw [hc] at h1 h2
    obtain ⟨m', _, _, h3⟩ := h2
    rw [h3] at h1 ⊢
    exact h1

theorem uses_uninitMove (src i n dst j : Nat) : Uses kd 0 (uninitMove src i n dst j : HM T Unit) := by unfold uninitMove; uses

theorem uses_copyLeaf2 (own : Option Nat) (p n q k : Nat) : Uses kd (amt 1 (n + k) 0 0 kd) (copyLeaf2 c E own p n q k) := by unfold copyLeaf2; uses
macro_rules | `(tactic| uses0) => `(tactic| with_reducible first | exact uses_copyLeaf2 _ _ _ _ _ _ _ | exact uses_uninitMove _ _ _ _ _)

theorem uses_concatTail (own : Option Nat) (share : Bool) (l : Vc) (o : Nat) (r : Vc) : Uses .alloc (2 * levels c l.shift + 4) (Fc.concatTail c E own share l o r) := by
  unfold Fc.concatTail
  uses

theorem uses_trees (l : Vc) (o : Nat) (r : Vc) (ro : Nat) : Uses .alloc (concatAmt c (levels c l.shift) (levels c r.shift))
    (if o = 0 then concatTreesTail c E l.tail (l.size - o) r.root r.shift ro else concatTrees c E l.root l.shift o l.tail (l.size - o) r.root r.shift ro) := by
  split
  · exact uses_mono (uses_concatTreesTail c E _ _ _ _ _) (tree_tail_le c _ _)
  · exact uses_mono (uses_concatTrees c E _ _ _ _ _ _ _ _) (tree_le c _ _)

theorem uses_concat (l r : Vc) : Uses .alloc (concatAmt c (levels c l.shift) (levels c r.shift)) (Fc.concat c E l r) := by
  unfold Fc.concat
  split
  · uses
  split
  · uses
  refine uses_bind (uses_off c r) (Nat.zero_le _) fun ro => uses_bind (uses_off c l) (Nat.zero_le _) fun o => ?_
  split
  · exact uses_bind (uses_concatTail c E _ _ _ _ _) (tail_le c _ _) fun _ => uses_ret _
  · exact uses_bind (uses_trees c E l o r ro) (Nat.le_refl _) fun x => uses_bind (uses_inc _ _) (Nat.zero_le _) fun _ => uses_ret _

theorem uses_concatMutR (share : Bool) (e : Nat) (l r : Vc) : Uses .alloc (concatAmt c (levels c l.shift) (levels c r.shift)) (Fc.concatMutR c E share e l r) := by
  unfold Fc.concatMutR
  split
  · uses
  split
  · uses
  refine uses_bind (uses_off c r) (Nat.zero_le _) fun ro => uses_bind (uses_off c l) (Nat.zero_le _) fun o => ?_
  refine uses_bind (k := concatAmt c (levels c l.shift) (levels c r.shift)) ?_ (Nat.le_refl _) fun x => uses_bind (uses_fdrop c E r) (Nat.zero_le _) fun _ => uses_ret _
  split
  · exact uses_mono (uses_concatTail c E _ _ _ _ _) (tail_le c _ _)
  · exact uses_bind (uses_trees c E l o r ro) (Nat.le_refl _) fun x => uses_bind (uses_inc _ _) (Nat.zero_le _) fun _ => uses_ret _

/-- the elements of a short second operand go to the tail of the first, which is now its own -/
theorem uses_fillTail (mv : Bool) (e : Nat) (l r : Vc) (o : Nat) : Uses .alloc (2 * levels c l.shift + 3)
    ((canMutate E e r.tail).bind fun b =>
      (attempt
        ((if mv && b then uninitMove r.tail 0 (min r.size (2 ^ c.BL - (l.size - o))) l.tail (l.size - o) else uninitCopy r.tail 0 (min r.size (2 ^ c.BL - (l.size - o))) l.tail (l.size - o)).bind fun _ =>
          if l.size - o + r.size ≤ 2 ^ c.BL then M.ret { l with size := l.size + r.size }
          else
            ((copyLeafI c E (some e) r.tail (min r.size (2 ^ c.BL - (l.size - o))) r.size).bind fun nt =>
              ((Fc.pushTailMut c E e l.root l.shift o l.tail (2 ^ c.BL)).bind fun x =>
                M.ret (Vc.mk (l.size + r.size) x.1 x.2 nt)).guard (delLeaf c E nt (r.size - min r.size (2 ^ c.BL - (l.size - o))))).guard
            (destroyN r.tail (l.size - o) (min r.size (2 ^ c.BL - (l.size - o)))))).bind fun x =>
      match x with
      | some l' => M.ret (l', false)
      | none => M.ret (l, true)) := by
  refine uses_bind (uses_canMutate _ _ _) (Nat.zero_le _) fun b => uses_attempt_bind (k := 2 * levels c l.shift + 3) ?_ (Nat.le_refl _) fun _ => uses_ret _
  refine uses_bind (k := 0) ?_ (Nat.zero_le _) fun _ => ?_
  · uses
  · uses

theorem uses_concatMutL (mv : Bool) (e : Nat) (l r : Vc) : Uses .alloc (concatAmt c (levels c l.shift) (levels c r.shift)) (Fc.concatMutL c E mv e l r) := by
  have hl := tail_le c (levels c l.shift) (levels c r.shift)
  unfold Fc.concatMutL
  split
  · uses
  split
  · uses
  refine uses_bind (uses_off c r) (Nat.zero_le _) fun ro => uses_bind (uses_off c l) (Nat.zero_le _) fun o => ?_
  split
  · split
    · exact uses_bind (uses_fpushTailMut c E _ _ _ _ _ _) (by simp only [amt]; omega) fun x => uses_bind (uses_inc _ _) (Nat.zero_le _) fun _ => uses_ret _
    · unfold Vc.mutableTail
      rw [assoc_eq]
      refine uses_bind (uses_canMutate _ _ _) (Nat.zero_le _) fun b => ?_
      split
      · exact uses_mono (uses_fillTail c E mv e l r o) (by omega)
      · rw [assoc_eq]
        refine uses_bind (uses_copyLeaf c E _ _ _) (by simp only [amt]; omega) fun t => ?_
        rw [assoc_eq]
        exact uses_bind (uses_decLeaf c E _ _) (Nat.zero_le _) fun _ => uses_mono (uses_fillTail c E mv e { l with tail := t } r o) (by simp only [amt]; omega)
  · exact uses_bind (uses_trees c E l o r ro) (Nat.le_refl _) fun x => uses_bind (uses_inc _ _) (Nat.zero_le _) fun _ => uses_bind (uses_fdrop c E l) (Nat.zero_le _) fun _ => uses_ret _

end FlexHeap
