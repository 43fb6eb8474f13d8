import Verif.FlexHeap.InsertOk

/-!
# How many levels the results of operations have (C55)
-/

namespace FlexHeap
open Mm Rrb VecHeap

section levels
variable (c : Cfg)

theorem levels_mono {s t : Nat} (h : s ≤ t) : levels c s ≤ levels c t := Nat.succ_le_succ (Nat.div_le_div_right (by omega))

theorem levels_BL : levels c c.BL = 1 := by unfold levels; rw [Nat.sub_self, Nat.zero_div]

theorem levels_pos (s : Nat) : 1 ≤ levels c s := Nat.succ_le_succ (Nat.zero_le _)

theorem levels_add (s : Nat) : levels c (s + c.B) ≤ levels c s + 1 := by
  unfold levels
  rcases Nat.eq_zero_or_pos c.B with h | h
  · rw [h]; simp
  · have : (s + c.B - c.BL) / c.B ≤ (s - c.BL + c.B) / c.B := Nat.div_le_div_right (by omega)
    rw [Nat.add_div_right _ h] at this
    omega

theorem levels_mul (k : Nat) : levels c (c.BL + k * c.B) ≤ k + 1 := by
  unfold levels
  rw [Nat.add_sub_cancel_left]
  exact Nat.succ_le_succ (Nat.div_le_of_le_mul (by rw [Nat.mul_comm]))

end levels

variable {T β δ : Type} {c : Cfg} {E : Env Dat T} {X : Elem T} {er et : Nat}

/-- steps whose results do not matter -/
macro "ends" : tactic => `(tactic| repeat' first
  | with_reducible exact ends_undef
  | with_reducible refine ends_ret ?_
  | with_reducible refine ends_guard ?_
  | with_reducible refine ends_any fun _ => ?_
  | split)

/-! ### `take` and `drop` -/

theorem kidReg_shift (s z : Nat) : (Shp.kidReg c s z).shift ≤ s := by
  unfold Shp.kidReg
  split
  · exact Nat.zero_le _
  · exact Nat.sub_le _ _

theorem towards_shift {sh sh' : Shp} {k : Nat} (h : sh.towards c k = some sh') : sh'.shift ≤ sh.shift := by
  unfold Shp.towards at h
  split at h
  · cases h
    split
    · exact kidFull_shift _
    · exact kidReg_shift _ _
  · cases h
    split
    · exact kidFull_shift _
    · exact kidReg_shift _ _
  · cases h; exact kidFull_shift _
  · cases h

theorem ends_sliceNode (own : Option Nat) (mu b co : Bool) (L p : Nat) (sh : Shp) (idx : Nat) (r : Sliced) : Ends (sliceNode c E own mu b co L p sh idx r) (fun r => r.1 ≤ sh.shift) := by
  unfold sliceNode
  ends
  all_goals first | exact Nat.le_refl _ | exact Nat.sub_le _ _

theorem ends_sliceRight (own : Option Nat) : ∀ (L : Nat) (mu co : Bool) (p : Nat) (sh : Shp) (i : Nat), Ends (sliceRight c E own mu co L p sh i) (fun r => r.1 ≤ sh.shift)
  | 0, mu, co, p, sh, i => by
    unfold VecHeap.sliceRight
    ends
    all_goals exact Nat.zero_le _
  | L + 1, mu, co, p, sh, i => by
    unfold VecHeap.sliceRight
    refine ends_any fun idx => ends_any fun b => ends_bind (ends_liftO fun sh' h => towards_shift h) fun sh' hs => ends_any fun q => ends_ite ?_ ?_
    · exact ends_bind (ends_sliceRight own L b co q sh' i) fun r hr => ends_any fun _ => ends_ret (Nat.le_trans hr hs)
    · exact ends_any fun r => ends_guard (ends_sliceNode _ _ _ _ _ _ _ _ _)

theorem ends_sliceNodeR (own : Option Nat) (mu b co : Bool) (L p s : Nat) (sz : List Nat) (last idx : Nat) (r : Sliced) :
    Ends (sliceNodeR c E own mu b co L p s sz last idx r) (fun r => r.1 ≤ s) := by
  unfold sliceNodeR
  ends
  all_goals first | exact Nat.le_refl _ | exact Nat.sub_le _ _

theorem ends_sliceRightR (own : Option Nat) : ∀ (L : Nat) (mu co : Bool) (p : Nat) (sh : RShp) (i : Nat), Ends (sliceRightR c E own mu co L p sh i) (fun r => r.1 ≤ sh.shift)
  | L, mu, co, p, .reg sh, i => by
    unfold sliceRightR
    exact ends_sliceRight own L mu co p sh i
  | 0, mu, co, p, .rel s sz, i => by unfold sliceRightR; exact ends_undef
  | L + 1, mu, co, p, .rel s sz, i => by
    unfold sliceRightR
    refine ends_any fun idx => ends_any fun b => ends_bind (ends_subTowards p (.rel s sz) i idx) fun q hq => ends_ite ?_ ?_
    · exact ends_bind (ends_sliceRightR own L b co q.1 q.2.1 q.2.2) fun r hr => ends_any fun _ => ends_ret (Nat.le_trans hr hq)
    · exact ends_any fun r => ends_guard (ends_sliceNodeR _ _ _ _ _ _ _ _ _ _ _)

/-- at most `d` levels -/
def LevelsLe (c : Cfg) (d : Nat) (v : Vc) : Prop := levels c v.shift ≤ d

theorem le_BL {d s : Nat} (h : levels c s ≤ d) : levels c c.BL ≤ d := by rw [levels_BL]; exact Nat.le_trans (levels_pos c s) h

theorem depth_dropN {v : Vc} {d : Nat} (hv : LevelsLe c d v) (n : Nat) : Ends (Fc.dropN c E X er et v n) (LevelsLe c d) := by
  unfold Fc.dropN
  refine ends_ite (ends_any fun _ => ends_ret hv) (ends_ite ?_ (ends_any fun o => ends_ite ?_ (ends_ite ?_ ?_)))
  · unfold Vc.empty
    exact ends_any fun _ => ends_any fun _ => ends_ret (le_BL hv)
  · exact ends_any fun _ => ends_any fun _ => ends_ret (le_BL hv)
  · exact ends_any fun _ => ends_any fun _ => ends_ret (le_BL hv)
  · refine ends_bind (ends_maybeRel v.root v.shift o) fun sh hsh => ends_bind (ends_sliceLeftR none (levels c v.shift) false true v.root sh n) fun r hr => ends_any fun _ => ends_ret ?_
    exact Nat.le_trans (levels_mono c (hsh ▸ hr)) hv

theorem depth_take {v : Vc} {d : Nat} (hv : LevelsLe c d v) (n : Nat) : Ends (Fc.take c E er et v n) (LevelsLe c d) := by
  unfold Fc.take
  refine ends_any fun o => ends_ite ?_ (ends_ite (ends_any fun _ => ends_ret hv) (ends_ite (ends_any fun _ => ends_any fun _ => ends_ret hv) ?_))
  · unfold Vc.empty
    exact ends_any fun _ => ends_any fun _ => ends_ret (le_BL hv)
  · refine ends_bind (ends_maybeRel v.root v.shift o) fun sh hsh => ends_bind (ends_sliceRightR none (levels c v.shift) false true v.root sh (n - 1)) fun r hr => ?_
    split
    · exact ends_ret (Nat.le_trans (levels_mono c (hsh ▸ hr)) hv)
    · exact ends_any fun _ => ends_ret (le_BL hv)

theorem depth_takeMut {v : Vc} {d : Nat} (hv : LevelsLe c d v) (e n : Nat) : Ends (Fc.takeMut c E e er et v n) (LevelsLe c d) := by
  unfold Fc.takeMut
  refine ends_any fun o => ends_ite ?_ (ends_ite (ends_ret hv) (ends_ite (ends_any fun _ => ends_ite (ends_any fun _ => ends_ret hv) (ends_any fun _ => ends_any fun _ => ends_ret hv)) ?_))
  · refine ends_bind (P := LevelsLe c d) ?_ fun u hu => ends_any fun _ => ends_ret hu
    unfold Vc.empty
    exact ends_any fun _ => ends_any fun _ => ends_ret (le_BL hv)
  · refine ends_bind (ends_maybeRel v.root v.shift o) fun sh hsh => ends_bind (ends_sliceRightR (some e) (levels c v.shift) true true v.root sh (n - 1)) fun r hr => ?_
    refine ends_bind (P := LevelsLe c d) ?_ fun u hu => ends_any fun _ => ends_ret hu
    split
    · exact ends_ret (Nat.le_trans (levels_mono c (hsh ▸ hr)) hv)
    · exact ends_any fun _ => ends_ret (le_BL hv)

/-! ### `push_back` -/

theorem ends_pushTail (root shift size tail ts : Nat) : Ends (Fc.pushTail c E root shift size tail ts) (fun x => x.1 ≤ shift + c.B) := by
  unfold Fc.pushTail
  ends
  all_goals first | exact Nat.le_refl _ | exact Nat.le_add_right _ _

theorem ends_pushTailMut (e root shift size tail ts : Nat) : Ends (Fc.pushTailMut c E e root shift size tail ts) (fun x => x.1 ≤ shift + c.B) := by
  unfold Fc.pushTailMut
  ends
  all_goals first | exact Nat.le_refl _ | exact Nat.le_add_right _ _

theorem le_add {s t d : Nat} (h : levels c s ≤ d) (ht : t ≤ s + c.B) : levels c t ≤ d + 1 :=
  Nat.le_trans (levels_mono c ht) (Nat.le_trans (levels_add c s) (Nat.succ_le_succ h))

theorem depth_pushBack {v : Vc} {d : Nat} (hv : LevelsLe c d v) (x : T) : Ends (Fc.pushBack c E v x) (LevelsLe c (d + 1)) := by
  unfold Fc.pushBack
  refine ends_any fun o => ends_ite (ends_any fun _ => ends_any fun _ => ends_ret (Nat.le_succ_of_le hv)) ?_
  exact ends_any fun nt => ends_guard (ends_bind (ends_pushTail _ _ _ _ _) fun r hr => ends_any fun _ => ends_ret (le_add hv hr))

theorem ends_mutableTail (e : Nat) (v : Vc) (n : Nat) : Ends (Vc.mutableTail c E e v n) (fun u => u.shift = v.shift) := by
  unfold Vc.mutableTail
  ends
  all_goals rfl

theorem depth_pushBackMut {v : Vc} {d : Nat} (hv : LevelsLe c d v) (e : Nat) (x : T) : Ends (Fc.pushBackMut c E e v x) (LevelsLe c (d + 1)) := by
  unfold Fc.pushBackMut
  refine ends_any fun o => ends_ite (ends_bind (ends_mutableTail _ _ _) fun u hu => ends_any fun _ => ends_ret ?_) ?_
  · show levels c u.shift ≤ d + 1
    rw [hu]
    exact Nat.le_succ_of_le hv
  · exact ends_any fun nt => ends_guard (ends_bind (ends_pushTailMut _ _ _ _ _ _) fun r hr => ends_ret (le_add hv hr))

/-! ### Concatenation -/

namespace HMerger

theorem ends_mkRoom (m : HMerger) : Ends (m.mkRoom c E) (fun m' => m'.shift = m.shift) := by
  unfold mkRoom
  ends
  all_goals rfl

theorem ends_put (m : HMerger) (q size : Nat) : Ends (m.put q size : HM T HMerger) (fun m' => m'.shift = m.shift) := by
  unfold put
  ends
  all_goals rfl

theorem ends_addDst (m : HMerger) (q size : Nat) : Ends (m.addDst c E q size) (fun m' => m'.shift = m.shift) := by
  unfold addDst
  exact ends_bind (ends_guard (ends_mkRoom m)) fun m1 h1 => ends_bind (ends_put m1 q size) fun m2 h2 => ends_ret (h2.trans h1)

theorem ends_addShared (m : HMerger) (q size : Nat) : Ends (m.addShared c E q size) (fun m' => m'.shift = m.shift) := by
  unfold addShared
  refine ends_bind (ends_guard (ends_mkRoom m)) fun m1 h1 => ends_any fun _ s s' b e => (ends_put m1 q size s s' b e).trans h1

theorem ends_leafLoop (q : Nat) : ∀ fuel (m : HMerger) off rem, Ends (leafLoop c E q fuel m off rem) (fun m' => m'.shift = m.shift)
  | 0, _, _, _ => ends_undef
  | fuel + 1, m, off, rem => by
    unfold leafLoop
    refine ends_any fun count => ends_bind (P := fun r => r.1.shift = m.shift) ?_ fun r hr => ends_any fun _ => ends_bind (P := fun m' => m'.shift = m.shift) ?_ fun m' hm => ?_
    · ends
      all_goals rfl
    · refine ends_ite (fun s s' b e => (ends_addDst _ _ _ s s' b e).trans hr) (ends_ret hr)
    · exact ends_ite (ends_ret hm) fun s s' b e => (ends_leafLoop q fuel _ _ _ s s' b e).trans hm

theorem ends_innerLoop (q : Nat) (sh : RShp) : ∀ fuel (m : HMerger) off rem, Ends (innerLoop c E q sh fuel m off rem) (fun m' => m'.shift = m.shift)
  | 0, _, _, _ => ends_undef
  | fuel + 1, m, off, rem => by
    unfold innerLoop
    refine ends_any fun count => ends_bind (P := fun r => r.1.shift = m.shift) ?_ fun r hr => ends_any fun _ => ends_bind (P := fun m' => m'.shift = m.shift) ?_ fun m' hm => ?_
    · ends
      all_goals rfl
    · refine ends_ite (fun s s' b e => (ends_addDst _ _ _ s s' b e).trans hr) (ends_ret hr)
    · exact ends_ite (ends_ret hm) fun s s' b e => (ends_innerLoop q sh fuel _ _ _ s s' b e).trans hm

theorem ends_visit (m : HMerger) (p : HPos) : Ends (visit c E m p) (fun m' => m'.shift = m.shift) := by
  unfold visit mergeLeaf mergeInner
  exact ends_ite (ends_any fun _ => ends_any fun _ => ends_ite (ends_addShared _ _ _) (ends_leafLoop _ _ _ _ _))
    (ends_any fun _ => ends_any fun _ => ends_ite (ends_addShared _ _ _) (ends_innerLoop _ _ _ _ _ _))

theorem ends_visitAll : ∀ (ps : List HPos) (m : HMerger), Ends (visitAll c E m ps) (fun m' => m'.shift = m.shift)
  | [], _ => ends_ret rfl
  | p :: ps, m => ends_bind (ends_visit m p) fun m1 h1 s s' b e => (ends_visitAll ps m1 s s' b e).trans h1

end HMerger

theorem ends_concatRebalance (ls : List HPos) (x : HCenter) (rs : List HPos) : Ends (concatRebalance c E ls x rs) (fun y => y.shift = x.shift + c.B) := by
  unfold concatRebalance
  refine ends_any fun xs => ends_any fun counts => ends_bind (P := fun m => m.shift = x.shift + c.B) (ends_guard ?_) fun m hm => ends_any fun _ => ?_
  · refine ends_bind (P := fun m => m.shift = x.shift + c.B) ?_ fun m hm s s' b e => (HMerger.ends_visitAll _ m s s' b e).trans hm
    unfold HMerger.init
    exact ends_any fun _ => ends_ret rfl
  · unfold HMerger.finish
    ends
    exact hm

theorem ends_concatLeafs (l : HPos) (t : Option HPos) (r : HPos) : Ends (concatLeafs c E l t r) (fun x => x.shift = c.BL) := by
  unfold concatLeafs
  ends
  all_goals rfl

/-- from a centre that is low enough -/
theorem ends_rebalance {k : Nat} {x : HCenter} (h : x.shift ≤ c.BL + k * c.B) (ls rs : List HPos) : Ends (concatRebalance c E ls x rs) (fun y => y.shift ≤ c.BL + (k + 1) * c.B) := by
  intro s s' b e
  rw [ends_concatRebalance ls x rs s s' b e, Nat.add_mul]
  omega

theorem ends_concatInners : ∀ fuel l t r, Ends (concatInners c E fuel l t r) (fun x => x.shift ≤ c.BL + fuel * c.B)
  | 0, _, _, _ => ends_undef
  | fuel + 1, l, t, r => by
    have hl : ∀ l t r, Ends (concatLeafs c E l t r) (fun x => x.shift ≤ c.BL + fuel * c.B) := fun l t r s s' b e => by
      have := ends_concatLeafs l t r s s' b e
      show b.shift ≤ _
      omega
    have ih := ends_concatInners fuel
    unfold concatInners
    refine ends_ite ?_ (ends_ite ?_ ?_)
    · exact ends_any fun q => ends_bind (ends_ite ends_undef (ih _ _ _)) fun x hx => ends_any fun _ => ends_rebalance hx _ _
    · refine ends_any fun q => ends_bind (ends_ite ?_ (ih _ _ _)) fun x hx => ends_any fun _ => ends_rebalance hx _ _
      split
      · exact hl _ _ _
      · exact ends_undef
    · exact ends_any fun q => ends_bind (ends_ite (ends_any fun _ => hl _ _ _) (ends_any fun q' => ends_ite (hl _ _ _) (ih _ _ _))) fun x hx => ends_any fun _ => ends_any fun _ => ends_rebalance hx _ _

theorem ends_realize (x : HCenter) : Ends (x.realize c E) (fun y => y.1 ≤ x.shift) := by
  unfold HCenter.realize
  ends
  all_goals first | exact Nat.le_refl _ | exact Nat.sub_le _ _

theorem depth_concatTrees (lroot lshift lsize ltail ltcount rroot rshift rsize : Nat) :
    Ends (concatTrees c E lroot lshift lsize ltail ltcount rroot rshift rsize) (fun x => levels c x.1 ≤ levels c lshift + levels c rshift + 1) := by
  unfold concatTrees
  exact ends_any fun l => ends_any fun r => ends_bind (ends_concatInners _ _ _ _) fun x hx s s' b e =>
    Nat.le_trans (levels_mono c (Nat.le_trans (ends_realize x s s' b e) hx)) (levels_mul c _)

theorem depth_concatTreesTail (ltail ltcount rroot rshift rsize : Nat) :
    Ends (concatTreesTail c E ltail ltcount rroot rshift rsize) (fun x => levels c x.1 ≤ 1 + levels c rshift + 1) := by
  unfold concatTreesTail
  exact ends_any fun r => ends_bind (ends_concatInners _ _ _ _) fun x hx s s' b e =>
    Nat.le_trans (levels_mono c (Nat.le_trans (ends_realize x s s' b e) hx)) (levels_mul c _)

section
variable {l r : Vc} {dl dr : Nat}

theorem depth_trees (hl : LevelsLe c dl l) (hr : LevelsLe c dr r) (o ro : Nat) :
    Ends (if o = 0 then concatTreesTail c E l.tail (l.size - o) r.root r.shift ro else concatTrees c E l.root l.shift o l.tail (l.size - o) r.root r.shift ro)
      (fun x => levels c x.1 ≤ dl + dr + 1) := by
  have hl' : levels c l.shift ≤ dl := hl
  have hr' : levels c r.shift ≤ dr := hr
  have := levels_pos c l.shift
  refine ends_ite (fun s s' b e => ?_) fun s s' b e => ?_
  · have := depth_concatTreesTail _ _ _ _ _ s s' b e
    omega
  · have := depth_concatTrees _ _ _ _ _ _ _ _ s s' b e
    omega

theorem depth_concatTail (hl : LevelsLe c dl l) (own : Option Nat) (share : Bool) (o : Nat) (dr : Nat) : Ends (Fc.concatTail c E own share l o r) (fun x => levels c x.1 ≤ dl + dr + 1) := by
  have hl' : levels c l.shift ≤ dl := hl
  have h1 : ∀ t, t ≤ l.shift + c.B → levels c t ≤ dl + dr + 1 := fun t ht => Nat.le_trans (le_add hl' ht) (by omega)
  unfold Fc.concatTail
  refine ends_ite (ends_bind (ends_pushTail _ _ _ _ _) fun x hx => ends_any fun _ => ends_any fun _ => ends_ret (h1 _ hx)) (ends_ite (ends_any fun _ => ends_any fun _ => ends_ret (h1 _ (Nat.le_add_right _ _))) ?_)
  exact ends_any fun a => ends_guard (ends_any fun nt => ends_guard (ends_bind (ends_pushTail _ _ _ _ _) fun x hx => ends_ret (h1 _ hx)))

theorem depth_concat (hl : LevelsLe c dl l) (hr : LevelsLe c dr r) : Ends (Fc.concat c E l r) (LevelsLe c (dl + dr + 1)) := by
  have hl' : levels c l.shift ≤ dl := hl
  have hr' : levels c r.shift ≤ dr := hr
  unfold Fc.concat
  refine ends_ite (ends_any fun _ => ends_ret (show levels c r.shift ≤ dl + dr + 1 by omega)) (ends_ite (ends_any fun _ => ends_ret (show levels c l.shift ≤ dl + dr + 1 by omega))
    (ends_any fun ro => ends_any fun o => ends_ite ?_ ?_))
  · exact ends_bind (depth_concatTail hl _ _ _ dr) fun x hx => ends_ret hx
  · exact ends_bind (depth_trees hl hr o ro) fun x hx => ends_any fun _ => ends_ret hx

theorem ends_attempt {x : HM T β} {P : β → Prop} (hx : Ends x P) : Ends (attempt x) (fun o => ∀ b, o = some b → P b) := by
  intro s s' o e b ho
  subst ho
  unfold attempt at e
  split at e
  · rename_i h; cases e; exact hx _ _ _ h
  · cases e
  · cases e

theorem depth_concatMutL (hl : LevelsLe c dl l) (hr : LevelsLe c dr r) (mv : Bool) (e : Nat) : Ends (Fc.concatMutL c E mv e l r) (fun x => LevelsLe c (dl + dr + 1) x.1) := by
  have hl' : levels c l.shift ≤ dl := hl
  have hr' : levels c r.shift ≤ dr := hr
  have h1 : ∀ t, t ≤ l.shift + c.B → levels c t ≤ dl + dr + 1 := fun t ht => Nat.le_trans (le_add hl' ht) (by omega)
  unfold Fc.concatMutL
  refine ends_ite (ends_any fun _ => ends_any fun _ => ends_ret (show levels c r.shift ≤ dl + dr + 1 by omega)) (ends_ite (ends_ret (show levels c l.shift ≤ dl + dr + 1 by omega))
    (ends_any fun ro => ends_any fun o => ends_ite (ends_ite ?_ ?_) ?_))
  · exact ends_bind (ends_pushTailMut _ _ _ _ _ _) fun x hx => ends_any fun _ => ends_ret (h1 _ hx)
  · refine ends_bind (ends_mutableTail _ _ _) fun u hu => ends_any fun b => ends_bind (ends_attempt (P := LevelsLe c (dl + dr + 1)) ?_) fun x hx => ?_
    · refine ends_any fun _ => ends_ite (ends_ret ?_) (ends_guard (ends_any fun nt => ends_guard (ends_bind (ends_pushTailMut _ _ _ _ _ _) fun x hx => ends_ret (h1 _ (hu ▸ hx)))))
      show levels c u.shift ≤ _
      rw [hu]
      exact h1 _ (Nat.le_add_right _ _)
    · split
      · exact ends_ret (hx _ rfl)
      · refine ends_ret ?_
        show levels c u.shift ≤ _
        rw [hu]
        exact h1 _ (Nat.le_add_right _ _)
  · exact ends_bind (depth_trees hl hr o ro) fun x hx => ends_any fun _ => ends_any fun _ => ends_ret hx

end
end FlexHeap
