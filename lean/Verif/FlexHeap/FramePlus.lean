import Verif.FlexHeap.FrameGc

/-!
# What `concat` leaves alone under the collector (helper lemmas for C54)
-/

namespace FlexHeap
open Mm Rrb VecHeap

variable {T β δ : Type} {c : Cfg} {E : Env Dat T} {m0 : Mem Dat T} {S : Nat → Prop} {s s' : St Dat T} {p q t i n : Nat}

namespace Plus
open Gc (ro_relSubs ro_eachLeftSub ro_eachRightSub ro_lastSub ro_firstSub ro_firstSubLeaf ro_left ro_last ro_relNodes ro_subs)

theorem ro_decAll {L : Nat} (hg : E.gc = true) : ∀ ps : List HPos, Ro (decAll c E L ps)
  | [] => ro_ret _
  | p :: ps => ro_bind (ro_decR hg L p.1 p.2) fun _ => ro_decAll hg ps

theorem ro_drop {x : HCenter} (hg : E.gc = true) : Ro (x.drop c E) := ro_bind ro_subs fun _ => ro_decAll hg _

/-- the merger writes to nodes that are open -/
structure HOk (m0 : Mem Dat T) (S : Nat → Prop) (mem : Mem Dat T) (m : HMerger) : Prop where
  node : ∀ p, m.nodes.getLast? = some p → Open m0 S mem p
  dst : ∀ d, m.dst = some d → Open m0 S mem d

variable {m : HMerger}

theorem HOk.mono {mem mem' : Mem Dat T} (h : HOk m0 S mem m) (k : ∀ p, TabOk m0 S mem p → TabOk m0 S mem' p) : HOk m0 S mem' m :=
  ⟨fun p hp => ⟨(h.node p hp).1, k _ (h.node p hp).2⟩, fun d hd => ⟨(h.dst d hd).1, k _ (h.dst d hd).2⟩⟩

theorem fr_realize {x : HCenter} (hg : E.gc = true) (hE : E.Fresh) (hs : Held m0 S s.mem) : Fr m0 S (x.realize c E) s (fun _ _ => True) :=
  fr_ite (fun _ => fr_bind (fr_guard (fr_newInnerR hE hs) fun _ hs' => fr_sv (fr_ro hs' (ro_drop hg))) fun _ _ hs1 _ h1 => fr_bind (fr_theTable hs1 h1.2) fun _ _ hs2 _ h2 =>
      fr_bind (fr_setKids hs2 h1.1) fun _ _ hs3 _ _ => fr_bind (fr_setSizes hs3 h2) fun _ _ hs4 _ _ => fr_ret hs4 trivial)
    fun _ => fr_bind (fr_ro hs (ro_liftO _)) fun _ _ hs1 _ _ => fr_ret hs1 trivial

theorem fr_init {shift : Nat} {counts : List Nat} (hE : E.Fresh) (hs : Held m0 S s.mem) : Fr m0 S (HMerger.init c E shift counts) s (HOk m0 S) :=
  fr_bind (fr_newInnerR hE hs) fun _ p hs1 _ h1 => fr_ret hs1 ⟨fun q hq => by simp at hq; subst hq; exact h1, fun _ h => by cases h⟩

theorem sv_abort (hg : E.gc = true) (hs : Held m0 S s.mem) (hd : ∀ d, m.dst = some d → ¬ Shut m0 S d) : Sv m0 S (m.abort c E) s := by
  unfold HMerger.abort
  refine sv_bind' ?_ fun _ _ hs1 => sv_bind (fr_ro hs1 (ro_relNodes _)) fun _ _ hs2 _ => fr_sv (fr_ro hs2 (ro_decAll hg _))
  cases h : m.dst with
  | none => exact fr_sv (fr_ro hs (ro_ret _))
  | some q =>
    simp only
    split
    · exact sv_delLeaf hs (hd q h)
    · exact fr_sv (fr_ro hs (ro_bind (ro_theTable _) fun _ => ro_bind (ro_sizesOf _) fun _ => ro_decR hg _ _ _))

theorem fr_mkRoom (hE : E.Fresh) (hs : Held m0 S s.mem) (hm : HOk m0 S s.mem m) : Fr m0 S (m.mkRoom c E) s (fun mem m' => HOk m0 S mem m') := by
  refine fr_bind (fr_ro hs (ro_liftO _)) fun _ p hs1 k1 _ => fr_bind (fr_ro hs1 (ro_theTable _)) fun _ t hs2 k2 _ => fr_bind (fr_ro hs2 (ro_sizesOf _)) fun _ _ hs3 k3 _ => ?_
  have hm3 := ((hm.mono k1).mono k2).mono k3
  refine fr_ite (fun _ => fr_ite (fun _ => ?_) fun _ => trivial) fun _ => fr_ret hs3 ⟨hm3.node, hm3.dst⟩
  refine fr_bind (fr_ro hs3 (ro_liftO _)) fun _ _ hs4 k4 _ => fr_bind (fr_newInnerR hE hs4) fun _ q hs5 k5 h5 => fr_ret hs5 ⟨fun q hq => ?_, ((hm3.mono k4).mono k5).dst⟩
  simp at hq
  subst hq
  exact h5

theorem fr_put {size : Nat} (hs : Held m0 S s.mem) (hm : HOk m0 S s.mem m) : Fr m0 S (m.put q size) s (HOk m0 S) := by
  refine fr_bind (fr_liftO hs _) fun _ p hs1 k1 h1 => ?_
  have hm1 := hm.mono k1
  refine fr_bind (fr_theTable hs1 (hm1.node p h1).2) fun _ t hs2 k2 h2 => fr_bind (fr_ro hs2 (ro_sizesOf _)) fun _ _ hs3 k3 _ => fr_bind (fr_ro hs3 (ro_liftO _)) fun _ _ hs4 k4 _ => fr_bind (fr_ro hs4 (ro_liftO _)) fun _ _ hs5 k5 _ =>
    fr_bind (fr_setSizes hs5 h2) fun _ _ hs6 k6 _ => fr_bind (fr_putKid hs6 (hm1.node p h1).1) fun _ _ hs7 k7 _ => fr_ret hs7 ?_
  have := (((((hm1.mono k2).mono k3).mono k4).mono k5).mono k6).mono k7
  exact ⟨this.node, this.dst⟩

theorem fr_room (hg : E.gc = true) (hE : E.Fresh) (hs : Held m0 S s.mem) (hm : HOk m0 S s.mem m) : Fr m0 S ((m.mkRoom c E).guard (m.abort c E)) s (HOk m0 S) :=
  fr_guard (fr_mkRoom hE hs hm) fun _ hs' => sv_abort hg hs' fun d hd => (hm.dst d hd).1

theorem fr_addDst {size : Nat} (hg : E.gc = true) (hE : E.Fresh) (hs : Held m0 S s.mem) (hm : HOk m0 S s.mem m) : Fr m0 S (m.addDst c E q size) s (HOk m0 S) :=
  fr_bind (fr_room hg hE hs hm) fun _ _ hs1 _ h1 => fr_bind (fr_put hs1 h1) fun _ _ hs2 _ h2 => fr_ret hs2 ⟨h2.node, fun _ h => by cases h⟩

theorem fr_addShared {size : Nat} (hg : E.gc = true) (hE : E.Fresh) (hs : Held m0 S s.mem) (hm : HOk m0 S s.mem m) : Fr m0 S (m.addShared c E q size) s (HOk m0 S) :=
  fr_bind (fr_room hg hE hs hm) fun _ _ hs1 _ h1 => fr_bind (fr_ro hs1 (ro_inc hg _)) fun _ _ hs2 k2 _ => fr_put hs2 (h1.mono k2)

theorem fr_leafLoop (hg : E.gc = true) (hE : E.Fresh) : ∀ (fuel : Nat) (m : HMerger) (off rem : Nat) (s : St Dat T), Held m0 S s.mem → HOk m0 S s.mem m → Fr m0 S (HMerger.leafLoop c E q fuel m off rem) s (HOk m0 S)
  | 0, _, _, _, _, _, _ => trivial
  | fuel + 1, m, off, rem, s, hs, hm => by
    unfold HMerger.leafLoop
    refine fr_bind (fr_ro hs (ro_liftO _)) fun _ count hs1 k1 _ => ?_
    refine fr_bind (Q := fun mem (r : HMerger × Nat) => HOk m0 S mem r.1 ∧ Open m0 S mem r.2) ?_ fun _ r hs2 k2 h2 => ?_
    · have hm1 := hm.mono k1
      cases hd : m.dst with
      | some d => exact fr_ret hs1 ⟨hm1, hm1.dst d hd⟩
      | none =>
        refine fr_bind (fr_guard (fr_newLeaf hE hs1) fun _ hs' => sv_abort hg hs' fun d hd => (hm1.dst d hd).1) fun _ d hs2 k2 h2 => fr_ret hs2 ⟨⟨(hm1.mono k2).node, ?_⟩, h2⟩
        rintro d' h
        cases h
        exact h2
    · refine fr_bind (fr_guard (fr_uninitCopy hs2 h2.2.1) fun _ hs' => sv_abort hg hs' fun d hd => (h2.1.dst d hd).1) fun _ _ hs3 k3 _ => ?_
      have hm3 := h2.1.mono k3
      exact fr_bind (Q := HOk m0 S) (fr_ite (fun _ => fr_addDst hg hE hs3 ⟨hm3.node, hm3.dst⟩) fun _ => fr_ret hs3 ⟨hm3.node, hm3.dst⟩) fun _ m' hs4 k4 h4 => fr_ite (fun _ => fr_ret hs4 h4) fun _ => fr_leafLoop hg hE fuel _ _ _ _ hs4 h4

theorem fr_mergeLeaf {sh : RShp} (hg : E.gc = true) (hE : E.Fresh) (hs : Held m0 S s.mem) (hm : HOk m0 S s.mem m) : Fr m0 S (m.mergeLeaf c E q sh) s (HOk m0 S) :=
  fr_bind (fr_ro hs (ro_liftO _)) fun _ _ hs1 k1 _ => fr_bind (fr_ro hs1 (ro_liftO _)) fun _ _ hs2 k2 _ =>
    fr_ite (fun _ => fr_addShared hg hE hs2 ((hm.mono k1).mono k2)) fun _ => fr_leafLoop hg hE _ _ _ _ _ hs2 ((hm.mono k1).mono k2)

theorem fr_takeKids {sh : RShp} {d off k : Nat} (hg : E.gc = true) (hs : Held m0 S s.mem) (hd : Open m0 S s.mem d) : Fr m0 S (m.takeKids E q sh d off k) s (fun _ _ => True) := by
  refine fr_bind (fr_ro hs (ro_kids _)) fun _ _ hs1 k1 _ => fr_bind (fr_ro hs1 (ro_liftO _)) fun _ _ hs2 k2 _ => fr_bind (fr_ro hs2 (ro_incAll hg _)) fun _ _ hs3 k3 _ => fr_bind (fr_ro hs3 (ro_kids _)) fun _ _ hs4 k4 _ =>
    fr_bind (fr_setKids hs4 hd.1) fun _ _ hs5 k5 _ => fr_bind (fr_ro hs5 (ro_liftO _)) fun _ _ hs6 k6 _ => fr_bind (fr_theTable hs6 (k6 _ (k5 _ (k4 _ (k3 _ (k2 _ (k1 _ hd.2))))))) fun _ _ hs7 _ h7 =>
    fr_bind (fr_ro hs7 (ro_sizesOf _)) fun _ _ hs8 _ _ => fr_bind (fr_setSizes hs8 h7) fun _ _ hs9 _ _ => fr_ro hs9 (ro_liftO _)

theorem fr_innerLoop {sh : RShp} (hg : E.gc = true) (hE : E.Fresh) : ∀ (fuel : Nat) (m : HMerger) (off rem : Nat) (s : St Dat T), Held m0 S s.mem → HOk m0 S s.mem m → Fr m0 S (HMerger.innerLoop c E q sh fuel m off rem) s (HOk m0 S)
  | 0, _, _, _, _, _, _ => trivial
  | fuel + 1, m, off, rem, s, hs, hm => by
    unfold HMerger.innerLoop
    refine fr_bind (fr_ro hs (ro_liftO _)) fun _ count hs1 k1 _ => ?_
    refine fr_bind (Q := fun mem (r : HMerger × Nat) => HOk m0 S mem r.1 ∧ Open m0 S mem r.2) ?_ fun _ r hs2 k2 h2 => ?_
    · have hm1 := hm.mono k1
      cases hd : m.dst with
      | some d => exact fr_ret hs1 ⟨hm1, hm1.dst d hd⟩
      | none =>
        refine fr_bind (fr_guard (fr_newInnerR hE hs1) fun _ hs' => sv_abort hg hs' fun d hd => (hm1.dst d hd).1) fun _ d hs2 k2 h2 => fr_ret hs2 ⟨⟨(hm1.mono k2).node, ?_⟩, h2⟩
        rintro d' h
        cases h
        exact h2
    · refine fr_bind (fr_takeKids hg hs2 h2.2) fun _ _ hs3 k3 _ => ?_
      have hm3 := h2.1.mono k3
      exact fr_bind (Q := HOk m0 S) (fr_ite (fun _ => fr_addDst hg hE hs3 ⟨hm3.node, hm3.dst⟩) fun _ => fr_ret hs3 ⟨hm3.node, hm3.dst⟩) fun _ m' hs4 k4 h4 => fr_ite (fun _ => fr_ret hs4 h4) fun _ => fr_innerLoop hg hE fuel _ _ _ _ hs4 h4

theorem fr_mergeInner {sh : RShp} (hg : E.gc = true) (hE : E.Fresh) (hs : Held m0 S s.mem) (hm : HOk m0 S s.mem m) : Fr m0 S (m.mergeInner c E q sh) s (HOk m0 S) :=
  fr_bind (fr_ro hs (ro_liftO _)) fun _ _ hs1 k1 _ => fr_bind (fr_ro hs1 (ro_liftO _)) fun _ _ hs2 k2 _ =>
    fr_ite (fun _ => fr_addShared hg hE hs2 ((hm.mono k1).mono k2)) fun _ => fr_innerLoop hg hE _ _ _ _ _ hs2 ((hm.mono k1).mono k2)

theorem fr_visitAll (hg : E.gc = true) (hE : E.Fresh) : ∀ (ps : List HPos) (m : HMerger) (s : St Dat T), Held m0 S s.mem → HOk m0 S s.mem m → Fr m0 S (HMerger.visitAll c E m ps) s (HOk m0 S)
  | [], _, _, hs, hm => fr_ret hs hm
  | _ :: ps, _, _, hs, hm => fr_bind (Q := HOk m0 S) (fr_ite (fun _ => fr_mergeLeaf hg hE hs hm) fun _ => fr_mergeInner hg hE hs hm) fun _ _ hs1 _ h1 => fr_visitAll hg hE ps _ _ hs1 h1

theorem fr_rebalance {ls rs : List HPos} {x : HCenter} (hg : E.gc = true) (hE : E.Fresh) (hs : Held m0 S s.mem) : Fr m0 S (concatRebalance c E ls x rs) s (fun _ _ => True) := by
  refine fr_bind (fr_ro hs ro_subs) fun _ xs hs1 _ _ => fr_bind (fr_ro hs1 (ro_liftO _)) fun _ _ hs2 _ _ =>
    fr_bind (fr_guard (fr_bind (fr_init hE hs2) fun _ _ hs3 _ h3 => fr_visitAll hg hE _ _ _ hs3 h3) fun _ hs' => fr_sv (fr_ro hs' (ro_decAll hg _))) fun _ m hs3 _ _ => fr_bind (fr_ro hs3 (ro_decAll hg _)) fun _ _ hs4 _ _ => ?_
  unfold HMerger.finish
  cases m.dst with
  | none => exact fr_ret hs4 trivial
  | some _ => trivial

theorem ro_leafs {l : HPos} {t : Option HPos} {r : HPos} (hg : E.gc = true) : Ro (concatLeafs c E l t r) := by
  refine ro_ite ?_ ro_undef
  cases t with
  | none => exact ro_bind (ro_incAll hg _) fun _ => ro_ret _
  | some t => exact ro_ite (ro_bind (ro_incAll hg _) fun _ => ro_ret _) (ro_bind (ro_incAll hg _) fun _ => ro_ret _)

theorem fr_inners (hg : E.gc = true) (hE : E.Fresh) : ∀ (fuel : Nat) (l : HLeft) (t : Option HPos) (r : HPos) (s : St Dat T), Held m0 S s.mem → Fr m0 S (concatInners c E fuel l t r) s (fun _ _ => True)
  | 0, _, _, _, _, _ => trivial
  | fuel + 1, l, t, r, s, hs => by
    unfold concatInners
    refine fr_ite (fun _ => ?_) fun _ => fr_ite (fun _ => ?_) fun _ => ?_
    · exact fr_bind (fr_ro hs ro_last) fun _ q hs1 _ _ => fr_bind (Q := fun _ _ => True) (fr_ite (fun _ => trivial) fun _ => fr_inners hg hE fuel _ _ _ _ hs1) fun _ _ hs2 _ _ => fr_bind (fr_ro hs2 ro_left) fun _ _ hs3 _ _ => fr_rebalance hg hE hs3
    · refine fr_bind (fr_ro hs ro_firstSub) fun _ q hs1 _ _ => fr_bind (Q := fun _ _ => True) (fr_ite (fun _ => ?_) fun _ => fr_inners hg hE fuel _ _ _ _ hs1) fun _ _ hs2 _ _ => fr_bind (fr_ro hs2 ro_eachRightSub) fun _ _ hs3 _ _ => fr_rebalance hg hE hs3
      cases l with
      | pos p => exact fr_ro hs1 (ro_leafs hg)
      | single => trivial
    · exact fr_bind (fr_ro hs ro_last) fun _ q hs1 _ _ => fr_bind (Q := fun _ _ => True) (fr_ite (fun _ => fr_bind (fr_ro hs1 ro_firstSubLeaf) fun _ _ hs2 _ _ => fr_ro hs2 (ro_leafs hg)) fun _ =>
        fr_bind (fr_ro hs1 ro_firstSub) fun _ _ hs2 _ _ => fr_ite (fun _ => fr_ro hs2 (ro_leafs hg)) fun _ => fr_inners hg hE fuel _ _ _ _ hs2) fun _ _ hs2 _ _ =>
          fr_bind (fr_ro hs2 ro_left) fun _ _ hs3 _ _ => fr_bind (fr_ro hs3 ro_eachRightSub) fun _ _ hs4 _ _ => fr_rebalance hg hE hs4

theorem fr_trees {a1 a2 a3 a4 a5 b1 b2 b3 : Nat} (hg : E.gc = true) (hE : E.Fresh) (hs : Held m0 S s.mem) : Fr m0 S (concatTrees c E a1 a2 a3 a4 a5 b1 b2 b3) s (fun _ _ => True) :=
  fr_bind (fr_ro hs (ro_maybeRel _ _ _)) fun _ _ hs1 _ _ => fr_bind (fr_ro hs1 (ro_maybeRel _ _ _)) fun _ _ hs2 _ _ => fr_bind (fr_inners hg hE _ _ _ _ _ hs2) fun _ _ hs3 _ _ => fr_realize hg hE hs3

theorem fr_treesTail {a4 a5 b1 b2 b3 : Nat} (hg : E.gc = true) (hE : E.Fresh) (hs : Held m0 S s.mem) : Fr m0 S (concatTreesTail c E a4 a5 b1 b2 b3) s (fun _ _ => True) :=
  fr_bind (fr_ro hs (ro_maybeRel _ _ _)) fun _ _ hs2 _ _ => fr_bind (fr_inners hg hE _ _ _ _ _ hs2) fun _ _ hs3 _ _ => fr_realize hg hE hs3

theorem fr_concat {l r : Vc} (hg : E.gc = true) (hE : E.Fresh) (hs : Held m0 S s.mem) : Fr m0 S (Fc.concat c E l r) s (fun _ _ => True) :=
  fr_ite (fun _ => fr_bind (fr_ro hs (ro_bind (ro_inc hg _) fun _ => ro_inc hg _)) fun _ _ hs1 _ _ => fr_ret hs1 trivial) fun _ => fr_ite (fun _ => fr_bind (fr_ro hs (ro_bind (ro_inc hg _) fun _ => ro_inc hg _)) fun _ _ hs1 _ _ => fr_ret hs1 trivial) fun _ =>
    fr_bind (fr_ro hs (ro_off _)) fun _ _ hs1 _ _ => fr_bind (fr_ro hs1 (ro_off _)) fun _ _ hs2 _ _ => fr_ite (fun _ => fr_bind (fr_concatTail hg hE hs2) fun _ _ hs3 _ _ => fr_ret hs3 trivial) fun _ =>
      fr_bind (Q := fun _ _ => True) (fr_ite (fun _ => fr_treesTail hg hE hs2) fun _ => fr_trees hg hE hs2) fun _ _ hs3 _ _ => fr_bind (fr_ro hs3 (ro_inc hg _)) fun _ _ hs4 _ _ => fr_ret hs4 trivial

end Plus
end FlexHeap
