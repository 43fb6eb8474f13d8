import Verif.FlexHeap.FramePlus
import Verif.FlexHeap.GrownGc

/-!
# Whose nodes the result of `concat` is made of (helper lemmas for C54)
-/

namespace FlexHeap
open Mm Rrb VecHeap

variable {T β δ : Type} {c : Cfg} {E : Env Dat T} {A : Nat → Prop} {s s' : St Dat T} {p q t i n : Nat}

namespace Plus
open Gc (ro_relSubs ro_eachLeftSub ro_eachRightSub ro_lastSub ro_firstSub ro_firstSubLeaf ro_left ro_last ro_relNodes ro_subs gr_lastSub gr_firstSub gr_firstSubLeaf leafSubs_mem CGd VGd)

/-- positions of good nodes -/
def PGd (A : Nat → Prop) (mem : Mem Dat T) (ps : List HPos) : Prop := ∀ x ∈ ps, Gd A mem x.1

theorem PGd.mono {mem mem' : Mem Dat T} {ps : List HPos} (h : PGd A mem ps) (k : ∀ p, Gd A mem p → Gd A mem' p) : PGd A mem' ps := fun x hx => k _ (h x hx)

theorem CGd.mono {mem mem' : Mem Dat T} {x : HCenter} (h : CGd A mem x) (k : ∀ p, Gd A mem p → Gd A mem' p) : CGd A mem' x := fun p hp => k _ (h p hp)

theorem pairUp_mem : ∀ {shs : List Shp} {qs : List Nat} {ps : List HPos}, pairUp qs shs = some ps → ∀ x ∈ ps, x.1 ∈ qs
  | [], _, _, h, x, hx => by unfold pairUp at h; cases h; cases hx
  | sh :: shs, q :: qs, ps, h, x, hx => by
    unfold pairUp at h
    obtain ⟨r, h1, rfl⟩ := Option.map_eq_some_iff.mp h
    rcases List.mem_cons.mp hx with rfl | hx
    · exact List.mem_cons_self
    · exact List.mem_cons_of_mem _ (pairUp_mem h1 x hx)
  | _ :: _, [], _, h, _, _ => by cases h

theorem gr_pairUp {qs : List Nat} {shs : List Shp} (hs : Fin' s.mem) (h : ∀ k ∈ qs, Gd A s.mem k) : Gr A (liftO (pairUp qs shs) : HM T _) s (PGd A) := by
  refine gr_ro' hs (ro_liftO _) fun ps hp x hx => h _ (pairUp_mem (shs := shs) ?_ x hx)
  unfold liftO at hp
  cases h1 : pairUp qs shs with
  | none => rw [h1] at hp; cases hp
  | some y => rw [h1] at hp; cases hp; rfl

theorem gr_relSubs {sh : Nat} : ∀ (es qs : List Nat) (prev : Nat) (s : St Dat T), Fin' s.mem → (∀ k ∈ qs, Gd A s.mem k) → Gr A (relSubs c sh prev qs es : HM T _) s (PGd A)
  | [], _, _, _, hs, _ => by unfold relSubs; exact gr_ret hs fun _ h => by cases h
  | _ :: es, q :: qs, _, _, hs, h => by
    unfold relSubs
    refine gr_bind (gr_ro hs (ro_kidRel _ _ _)) fun _ _ hs1 k1 _ => gr_bind (gr_relSubs es qs _ _ hs1 fun k hk => k1 _ (h k (List.mem_cons_of_mem _ hk))) fun _ _ hs2 k2 h2 => gr_ret hs2 fun x hx => ?_
    rcases List.mem_cons.mp hx with rfl | hx
    · exact k2 _ (k1 _ (h q List.mem_cons_self))
    · exact h2 x hx
  | _ :: _, [], _, _, _, _ => by unfold relSubs; trivial

theorem gr_eachLeftSub {sh : RShp} (hs : Fin' s.mem) (hp : Gd A s.mem p) : Gr A (FlexHeap.eachLeftSub c p sh : HM T _) s (PGd A) := by
  unfold FlexHeap.eachLeftSub
  split
  · exact gr_bind (gr_ro hs (ro_liftO _)) fun _ _ hs1 k1 _ => gr_bind (gr_kids hs1 (k1 _ hp)) fun _ _ hs2 _ h2 => gr_pairUp hs2 h2
  · exact gr_bind (gr_ro hs (ro_liftO _)) fun _ _ hs1 k1 _ => gr_bind (gr_kids hs1 (k1 _ hp)) fun _ _ hs2 _ h2 => gr_relSubs _ _ _ _ hs2 h2
  · trivial

theorem gr_eachRightSub {sh : RShp} (hs : Fin' s.mem) (hp : Gd A s.mem p) : Gr A (FlexHeap.eachRightSub c p sh : HM T _) s (PGd A) := by
  unfold FlexHeap.eachRightSub
  split
  · exact gr_ite (fun _ => gr_bind (gr_ro hs (ro_liftO _)) fun _ _ hs1 k1 _ => gr_bind (gr_kids hs1 (k1 _ hp)) fun _ _ hs2 _ h2 => gr_pairUp hs2 fun k hk => h2 k (List.mem_of_mem_drop hk)) fun _ => gr_ret hs fun _ h => by cases h
  · exact gr_bind (gr_kids hs hp) fun _ _ hs2 _ h2 => gr_pairUp hs2 fun k hk => h2 k (List.mem_of_mem_drop hk)
  · exact gr_ite (fun _ => gr_bind (gr_ro hs (ro_liftO _)) fun _ _ hs1 k1 _ => gr_bind (gr_kids hs1 (k1 _ hp)) fun _ _ hs2 _ h2 => gr_relSubs _ _ _ _ hs2 fun k hk => h2 k (List.mem_of_mem_drop hk)) fun _ => trivial
  · trivial

/-- the node of a left operand -/
def LG (A : Nat → Prop) (mem : Mem Dat T) : HLeft → Prop
  | .pos p => Gd A mem p.1
  | .single p _ => Gd A mem p

theorem LG.mono {mem mem' : Mem Dat T} {l : HLeft} (h : LG A mem l) (k : ∀ p, Gd A mem p → Gd A mem' p) : LG A mem' l := by
  cases l <;> exact k _ h

theorem gr_left {l : HLeft} (hs : Fin' s.mem) (hl : LG A s.mem l) : Gr A (l.eachLeftSub c : HM T _) s (PGd A) := by
  cases l with
  | pos p => exact gr_eachLeftSub hs hl
  | single => exact gr_ret hs fun _ h => by cases h

theorem gr_last {l : HLeft} (hs : Fin' s.mem) (hl : LG A s.mem l) : Gr A (l.lastSub c : HM T _) s (fun mem x => Gd A mem x.1) := by
  cases l with
  | pos p => exact gr_lastSub hs hl
  | single => exact gr_ret hs hl

theorem gr_relNodes {sh : Nat} : ∀ (ps : List Nat) (s : St Dat T), Fin' s.mem → (∀ k ∈ ps, Gd A s.mem k) → Gr A (relNodes sh ps : HM T _) s (PGd A)
  | [], _, hs, _ => gr_ret hs fun _ h => by cases h
  | p :: ps, _, hs, h => by
    refine gr_bind (gr_ro hs (ro_theTable _)) fun _ _ hs1 k1 _ => gr_bind (gr_ro hs1 (ro_sizesOf _)) fun _ _ hs2 k2 _ => gr_bind (gr_relNodes ps _ hs2 fun k hk => k2 _ (k1 _ (h k (List.mem_cons_of_mem _ hk)))) fun _ _ hs3 k3 h3 => gr_ret hs3 fun x hx => ?_
    rcases List.mem_cons.mp hx with rfl | hx
    · exact k3 _ (k2 _ (k1 _ (h p List.mem_cons_self)))
    · exact h3 x hx

theorem gr_subs {x : HCenter} (hs : Fin' s.mem) (hx : CGd A s.mem x) : Gr A (x.subs c : HM T _) s (PGd A) := by
  refine gr_ite (fun _ => gr_ro' hs (ro_liftO _) fun ps hp y hy => hx _ (leafSubs_mem (b := 0) (es := x.sizes) (ps := ps) ?_ y hy)) fun _ => gr_relNodes _ _ hs hx
  unfold liftO at hp
  cases h1 : leafSubs 0 x.nodes x.sizes with
  | none => rw [h1] at hp; cases hp
  | some y => rw [h1] at hp; cases hp; rfl

/-- the merger has good nodes only -/
structure HGd (A : Nat → Prop) (mem : Mem Dat T) (m : HMerger) : Prop where
  node : ∀ p ∈ m.nodes, Gd A mem p
  dst : ∀ d, m.dst = some d → Gd A mem d

variable {m : HMerger}

theorem HGd.mono {mem mem' : Mem Dat T} (h : HGd A mem m) (k : ∀ p, Gd A mem p → Gd A mem' p) : HGd A mem' m := ⟨fun p hp => k _ (h.node p hp), fun d hd => k _ (h.dst d hd)⟩

theorem gr_realize {x : HCenter} (hE : E.Fresh) (ho : OwnOk A none) (hs : Fin' s.mem) (hx : CGd A s.mem x) : Gr A (x.realize c E) s (fun mem y => Gd A mem y.2) :=
  gr_ite (fun _ => gr_bind (gr_guard (gr_newInnerR hE ho hs)) fun _ _ hs1 k1 h1 => gr_bind (gr_ro hs1 (ro_theTable _)) fun _ _ hs2 k2 h2 => gr_bind (gr_setKids hs2 fun _ k hk => k2 _ (k1 _ (hx k hk))) fun _ _ hs3 k3 _ => gr_bind (gr_setSizes hs3) fun _ _ hs4 k4 _ =>
      gr_ret hs4 (k4 _ (k3 _ (k2 _ h1))))
    fun _ => gr_bind (gr_liftO hs _) fun _ _ hs1 k1 h1 => gr_ret hs1 (k1 _ (hx _ (List.mem_of_getElem? h1)))

theorem gr_init {shift : Nat} {counts : List Nat} (hE : E.Fresh) (ho : OwnOk A none) (hs : Fin' s.mem) : Gr A (HMerger.init c E shift counts) s (HGd A) :=
  gr_bind (gr_newInnerR hE ho hs) fun _ p hs1 _ h1 => gr_ret hs1 ⟨fun q hq => by rw [List.mem_singleton.mp hq]; exact h1, fun _ h => by cases h⟩

theorem gr_mkRoom (hE : E.Fresh) (ho : OwnOk A none) (hs : Fin' s.mem) (hm : HGd A s.mem m) : Gr A (m.mkRoom c E) s (HGd A) := by
  refine gr_bind (gr_ro hs (ro_liftO _)) fun _ p hs1 k1 _ => gr_bind (gr_ro hs1 (ro_theTable _)) fun _ t hs2 k2 _ => gr_bind (gr_ro hs2 (ro_sizesOf _)) fun _ _ hs3 k3 _ => ?_
  have hm3 := ((hm.mono k1).mono k2).mono k3
  refine gr_ite (fun _ => gr_ite (fun _ => ?_) fun _ => trivial) fun _ => gr_ret hs3 ⟨hm3.node, hm3.dst⟩
  refine gr_bind (gr_ro hs3 (ro_liftO _)) fun _ _ hs4 k4 _ => gr_bind (gr_newInnerR hE ho hs4) fun _ q hs5 k5 h5 => gr_ret hs5 ⟨fun q hq => ?_, ((hm3.mono k4).mono k5).dst⟩
  rcases List.mem_append.mp hq with hq | hq
  · exact ((hm3.mono k4).mono k5).node q hq
  · rw [List.mem_singleton.mp hq]; exact h5

theorem gr_put {size : Nat} (hs : Fin' s.mem) (hm : HGd A s.mem m) (hq : Gd A s.mem q) : Gr A (m.put q size) s (HGd A) := by
  refine gr_bind (gr_ro hs (ro_liftO _)) fun _ p hs1 k1 _ => gr_bind (gr_ro hs1 (ro_theTable _)) fun _ t hs2 k2 _ => gr_bind (gr_ro hs2 (ro_sizesOf _)) fun _ _ hs3 k3 _ => gr_bind (gr_ro hs3 (ro_liftO _)) fun _ _ hs4 k4 _ =>
    gr_bind (gr_ro hs4 (ro_liftO _)) fun _ _ hs5 k5 _ => gr_bind (gr_setSizes hs5) fun _ _ hs6 k6 _ => gr_bind (gr_putKid hs6 (k6 _ (k5 _ (k4 _ (k3 _ (k2 _ (k1 _ hq))))))) fun _ _ hs7 k7 _ => gr_ret hs7 ?_
  have := ((((((hm.mono k1).mono k2).mono k3).mono k4).mono k5).mono k6).mono k7
  exact ⟨this.node, this.dst⟩

theorem gr_addDst {size : Nat} (hE : E.Fresh) (ho : OwnOk A none) (hs : Fin' s.mem) (hm : HGd A s.mem m) (hq : Gd A s.mem q) : Gr A (m.addDst c E q size) s (HGd A) :=
  gr_bind (gr_guard (gr_mkRoom hE ho hs hm)) fun _ _ hs1 k1 h1 => gr_bind (gr_put hs1 h1 (k1 _ hq)) fun _ _ hs2 _ h2 => gr_ret hs2 ⟨h2.node, fun _ h => by cases h⟩

theorem gr_addShared {size : Nat} (hg : E.gc = true) (hE : E.Fresh) (ho : OwnOk A none) (hs : Fin' s.mem) (hm : HGd A s.mem m) (hq : Gd A s.mem q) : Gr A (m.addShared c E q size) s (HGd A) :=
  gr_bind (gr_guard (gr_mkRoom hE ho hs hm)) fun _ _ hs1 k1 h1 => gr_bind (gr_ro hs1 (ro_inc hg _)) fun _ _ hs2 k2 _ => gr_put hs2 (h1.mono k2) (k2 _ (k1 _ hq))

theorem gr_leafLoop (hE : E.Fresh) (ho : OwnOk A none) : ∀ (fuel : Nat) (m : HMerger) (off rem : Nat) (s : St Dat T), Fin' s.mem → HGd A s.mem m → Gr A (HMerger.leafLoop c E q fuel m off rem) s (HGd A)
  | 0, _, _, _, _, _, _ => trivial
  | fuel + 1, m, off, rem, s, hs, hm => by
    unfold HMerger.leafLoop
    refine gr_bind (gr_ro hs (ro_liftO _)) fun _ count hs1 k1 _ => ?_
    refine gr_bind (Q := fun mem (r : HMerger × Nat) => HGd A mem r.1 ∧ Gd A mem r.2) ?_ fun _ r hs2 k2 h2 => ?_
    · have hm1 := hm.mono k1
      cases hd : m.dst with
      | some d => exact gr_ret hs1 ⟨hm1, hm1.dst d hd⟩
      | none =>
        refine gr_bind (gr_guard (gr_newLeaf hE ho hs1)) fun _ d hs2 k2 h2 => gr_ret hs2 ⟨⟨(hm1.mono k2).node, ?_⟩, h2⟩
        rintro d' h
        cases h
        exact h2
    · refine gr_bind (gr_guard (gr_uninitCopy hs2)) fun _ _ hs3 k3 _ => ?_
      have hm3 := h2.1.mono k3
      exact gr_bind (Q := HGd A) (gr_ite (fun _ => gr_addDst hE ho hs3 ⟨hm3.node, hm3.dst⟩ (k3 _ h2.2)) fun _ => gr_ret hs3 ⟨hm3.node, hm3.dst⟩) fun _ m' hs4 k4 h4 => gr_ite (fun _ => gr_ret hs4 h4) fun _ => gr_leafLoop hE ho fuel _ _ _ _ hs4 h4

theorem gr_mergeLeaf {sh : RShp} (hg : E.gc = true) (hE : E.Fresh) (ho : OwnOk A none) (hs : Fin' s.mem) (hm : HGd A s.mem m) (hq : Gd A s.mem q) : Gr A (m.mergeLeaf c E q sh) s (HGd A) :=
  gr_bind (gr_ro hs (ro_liftO _)) fun _ _ hs1 k1 _ => gr_bind (gr_ro hs1 (ro_liftO _)) fun _ _ hs2 k2 _ =>
    gr_ite (fun _ => gr_addShared hg hE ho hs2 ((hm.mono k1).mono k2) (k2 _ (k1 _ hq))) fun _ => gr_leafLoop hE ho _ _ _ _ _ hs2 ((hm.mono k1).mono k2)

theorem gr_takeKids {sh : RShp} {d off k : Nat} (hg : E.gc = true) (hs : Fin' s.mem) (hq : Gd A s.mem q) (hd : Gd A s.mem d) : Gr A (m.takeKids E q sh d off k) s (fun _ _ => True) := by
  refine gr_bind (gr_kids hs hq) fun _ _ hs1 k1 h1 => gr_bind (gr_slice hs1 h1) fun _ ks hs2 k2 h2 => gr_bind (gr_ro hs2 (ro_incAll hg _)) fun _ _ hs3 k3 _ => gr_bind (gr_kids hs3 (k3 _ (k2 _ (k1 _ hd)))) fun _ dk hs4 k4 h4 =>
    gr_bind (gr_setKids hs4 fun _ x hx => ?_) fun _ _ hs5 k5 _ => gr_bind (gr_ro hs5 (ro_liftO _)) fun _ _ hs6 k6 _ => gr_bind (gr_ro hs6 (ro_theTable _)) fun _ _ hs7 _ h7 =>
    gr_bind (gr_ro hs7 (ro_sizesOf _)) fun _ _ hs8 _ _ => gr_bind (gr_setSizes hs8) fun _ _ hs9 _ _ => gr_ro hs9 (ro_liftO _)
  rcases List.mem_append.mp hx with hx | hx
  · exact h4 x hx
  · exact k4 _ (k3 _ (h2 x hx))

theorem gr_innerLoop {sh : RShp} (hg : E.gc = true) (hE : E.Fresh) (ho : OwnOk A none) : ∀ (fuel : Nat) (m : HMerger) (off rem : Nat) (s : St Dat T), Fin' s.mem → HGd A s.mem m → Gd A s.mem q → Gr A (HMerger.innerLoop c E q sh fuel m off rem) s (HGd A)
  | 0, _, _, _, _, _, _, _ => trivial
  | fuel + 1, m, off, rem, s, hs, hm, hq => by
    unfold HMerger.innerLoop
    refine gr_bind (gr_ro hs (ro_liftO _)) fun _ count hs1 k1 _ => ?_
    refine gr_bind (Q := fun mem (r : HMerger × Nat) => HGd A mem r.1 ∧ Gd A mem r.2) ?_ fun _ r hs2 k2 h2 => ?_
    · have hm1 := hm.mono k1
      cases hd : m.dst with
      | some d => exact gr_ret hs1 ⟨hm1, hm1.dst d hd⟩
      | none =>
        refine gr_bind (gr_guard (gr_newInnerR hE ho hs1)) fun _ d hs2 k2 h2 => gr_ret hs2 ⟨⟨(hm1.mono k2).node, ?_⟩, h2⟩
        rintro d' h
        cases h
        exact h2
    · refine gr_bind (gr_takeKids hg hs2 (k2 _ (k1 _ hq)) h2.2) fun _ _ hs3 k3 _ => ?_
      have hm3 := h2.1.mono k3
      exact gr_bind (Q := HGd A) (gr_ite (fun _ => gr_addDst hE ho hs3 ⟨hm3.node, hm3.dst⟩ (k3 _ h2.2)) fun _ => gr_ret hs3 ⟨hm3.node, hm3.dst⟩) fun _ m' hs4 k4 h4 => gr_ite (fun _ => gr_ret hs4 h4) fun _ =>
        gr_innerLoop hg hE ho fuel _ _ _ _ hs4 h4 (k4 _ (k3 _ (k2 _ (k1 _ hq))))

theorem gr_mergeInner {sh : RShp} (hg : E.gc = true) (hE : E.Fresh) (ho : OwnOk A none) (hs : Fin' s.mem) (hm : HGd A s.mem m) (hq : Gd A s.mem q) : Gr A (m.mergeInner c E q sh) s (HGd A) :=
  gr_bind (gr_ro hs (ro_liftO _)) fun _ _ hs1 k1 _ => gr_bind (gr_ro hs1 (ro_liftO _)) fun _ _ hs2 k2 _ =>
    gr_ite (fun _ => gr_addShared hg hE ho hs2 ((hm.mono k1).mono k2) (k2 _ (k1 _ hq))) fun _ => gr_innerLoop hg hE ho _ _ _ _ _ hs2 ((hm.mono k1).mono k2) (k2 _ (k1 _ hq))

theorem gr_visitAll (hg : E.gc = true) (hE : E.Fresh) (ho : OwnOk A none) : ∀ (ps : List HPos) (m : HMerger) (s : St Dat T), Fin' s.mem → HGd A s.mem m → PGd A s.mem ps → Gr A (HMerger.visitAll c E m ps) s (HGd A)
  | [], _, _, hs, hm, _ => gr_ret hs hm
  | p :: ps, _, _, hs, hm, h => gr_bind (Q := HGd A) (gr_ite (fun _ => gr_mergeLeaf hg hE ho hs hm (h p List.mem_cons_self)) fun _ => gr_mergeInner hg hE ho hs hm (h p List.mem_cons_self)) fun _ _ hs1 k1 h1 =>
      gr_visitAll hg hE ho ps _ _ hs1 h1 fun x hx => k1 _ (h x (List.mem_cons_of_mem _ hx))

theorem gr_rebalance {ls rs : List HPos} {x : HCenter} (hg : E.gc = true) (hE : E.Fresh) (ho : OwnOk A none) (hs : Fin' s.mem) (hl : PGd A s.mem ls) (hx : CGd A s.mem x) (hr : PGd A s.mem rs) : Gr A (concatRebalance c E ls x rs) s (CGd A) := by
  refine gr_bind (gr_subs hs hx) fun _ xs hs1 k1 h1 => gr_bind (gr_ro hs1 (ro_liftO _)) fun s2 _ hs2 k2 _ =>
    gr_bind (gr_guard (gr_bind (gr_init hE ho hs2) fun _ _ hs3 k3 h3 => gr_visitAll hg hE ho _ _ _ hs3 h3 (PGd.mono ?_ k3))) fun _ m hs3 _ h3 => gr_bind (gr_ro hs3 (ro_decAll hg _)) fun _ _ hs4 k4 _ => ?_
  · intro y hy
    rcases List.mem_append.mp hy with hy | hy
    · rcases List.mem_append.mp hy with hy | hy
      · exact k2 _ (k1 _ (hl y hy))
      · exact k2 _ (h1 y hy)
    · exact k2 _ (k1 _ (hr y hy))
  · unfold HMerger.finish
    cases m.dst with
    | none => exact gr_ret hs4 fun p hp => k4 _ (h3.node p hp)
    | some _ => trivial

theorem gr_leafs {l : HPos} {t : Option HPos} {r : HPos} (hg : E.gc = true) (hs : Fin' s.mem) (hl : Gd A s.mem l.1) (ht : ∀ x, t = some x → Gd A s.mem x.1) (hr : Gd A s.mem r.1) : Gr A (concatLeafs c E l t r) s (CGd A) := by
  have h2 : ∀ k z, CGd A s.mem ⟨k, [l.1, r.1], z⟩ := fun _ _ p hp => by
    rcases List.mem_cons.mp hp with rfl | hp
    · exact hl
    · rw [List.mem_singleton.mp hp]; exact hr
  refine gr_ite (fun _ => ?_) fun _ => trivial
  cases t with
  | none => exact gr_bind (gr_ro hs (ro_incAll hg _)) fun _ _ hs1 k1 _ => gr_ret hs1 (CGd.mono (h2 _ _) k1)
  | some t =>
    refine gr_ite (fun _ => gr_bind (gr_ro hs (ro_incAll hg _)) fun _ _ hs1 k1 _ => gr_ret hs1 fun p hp => k1 _ ?_) fun _ => gr_bind (gr_ro hs (ro_incAll hg _)) fun _ _ hs1 k1 _ => gr_ret hs1 (CGd.mono (h2 _ _) k1)
    rcases List.mem_cons.mp hp with rfl | hp
    · exact hl
    rcases List.mem_cons.mp hp with rfl | hp
    · exact ht _ rfl
    · rw [List.mem_singleton.mp hp]; exact hr

theorem gr_inners (hg : E.gc = true) (hE : E.Fresh) (ho : OwnOk A none) : ∀ (fuel : Nat) (l : HLeft) (t : Option HPos) (r : HPos) (s : St Dat T), Fin' s.mem → LG A s.mem l → (∀ x, t = some x → Gd A s.mem x.1) → Gd A s.mem r.1 →
    Gr A (concatInners c E fuel l t r) s (CGd A)
  | 0, _, _, _, _, _, _, _, _ => trivial
  | fuel + 1, l, t, r, s, hs, hl, ht, hr => by
    unfold concatInners
    refine gr_ite (fun _ => ?_) fun _ => gr_ite (fun _ => ?_) fun _ => ?_
    · exact gr_bind (gr_last hs hl) fun _ q hs1 k1 h1 => gr_bind (Q := CGd A) (gr_ite (fun _ => trivial) fun _ => gr_inners hg hE ho fuel _ _ _ _ hs1 h1 (fun x h => k1 _ (ht x h)) (k1 _ hr)) fun _ _ hs2 k2 h2 =>
        gr_bind (gr_left hs2 ((hl.mono k1).mono k2)) fun _ _ hs3 k3 h3 => gr_rebalance hg hE ho hs3 h3 (CGd.mono h2 k3) fun _ h => by cases h
    · refine gr_bind (gr_firstSub hs hr) fun _ q hs1 k1 h1 => gr_bind (Q := CGd A) (gr_ite (fun _ => ?_) fun _ => gr_inners hg hE ho fuel _ _ _ _ hs1 (hl.mono k1) (fun x h => k1 _ (ht x h)) h1) fun _ _ hs2 k2 h2 =>
        gr_bind (gr_eachRightSub hs2 (k2 _ (k1 _ hr))) fun _ _ hs3 k3 h3 => gr_rebalance hg hE ho hs3 (fun _ h => by cases h) (CGd.mono h2 k3) h3
      cases l with
      | pos p => exact gr_leafs hg hs1 (k1 _ hl) (fun x h => k1 _ (ht x h)) h1
      | single => trivial
    · exact gr_bind (gr_last hs hl) fun _ q hs1 k1 h1 => gr_bind (Q := CGd A) (gr_ite (fun _ => gr_bind (gr_firstSubLeaf hs1 (k1 _ hr)) fun _ _ hs2 k2 h2 => gr_leafs hg hs2 (k2 _ h1) (fun x h => k2 _ (k1 _ (ht x h))) h2) fun _ =>
        gr_bind (gr_firstSub hs1 (k1 _ hr)) fun _ _ hs2 k2 h2 => gr_ite (fun _ => gr_leafs hg hs2 (k2 _ h1) (fun x h => k2 _ (k1 _ (ht x h))) h2) fun _ => gr_inners hg hE ho fuel _ _ _ _ hs2 (k2 _ h1) (fun x h => k2 _ (k1 _ (ht x h))) h2) fun _ _ hs2 k2 h2 =>
          gr_bind (gr_left hs2 ((hl.mono k1).mono k2)) fun _ _ hs3 k3 h3 => gr_bind (gr_eachRightSub hs3 (k3 _ (k2 _ (k1 _ hr)))) fun _ _ hs4 k4 h4 => gr_rebalance hg hE ho hs4 (h3.mono k4) (CGd.mono (CGd.mono h2 k3) k4) h4

theorem gr_trees {a1 a2 a3 a4 a5 b1 b2 b3 : Nat} (hg : E.gc = true) (hE : E.Fresh) (ho : OwnOk A none) (hs : Fin' s.mem) (hl : Gd A s.mem a1) (ht : Gd A s.mem a4) (hr : Gd A s.mem b1) :
    Gr A (concatTrees c E a1 a2 a3 a4 a5 b1 b2 b3) s (fun mem y => Gd A mem y.2) :=
  gr_bind (gr_ro hs (ro_maybeRel _ _ _)) fun _ _ hs1 k1 _ => gr_bind (gr_ro hs1 (ro_maybeRel _ _ _)) fun _ _ hs2 k2 _ =>
    gr_bind (gr_inners hg hE ho _ _ _ _ _ hs2 (k2 _ (k1 _ hl)) (fun x h => by cases h; exact k2 _ (k1 _ ht)) (k2 _ (k1 _ hr))) fun _ _ hs3 _ h3 => gr_realize hE ho hs3 h3

theorem gr_treesTail {a4 a5 b1 b2 b3 : Nat} (hg : E.gc = true) (hE : E.Fresh) (ho : OwnOk A none) (hs : Fin' s.mem) (ht : Gd A s.mem a4) (hr : Gd A s.mem b1) : Gr A (concatTreesTail c E a4 a5 b1 b2 b3) s (fun mem y => Gd A mem y.2) :=
  gr_bind (gr_ro hs (ro_maybeRel _ _ _)) fun _ _ hs2 k2 _ => gr_bind (gr_inners hg hE ho _ _ _ _ _ hs2 (k2 _ ht) (fun x h => by cases h) (k2 _ hr)) fun _ _ hs3 _ h3 => gr_realize hE ho hs3 h3

theorem gr_concat {l r : Vc} (hg : E.gc = true) (hE : E.Fresh) (h0 : A 0) (hs : Fin' s.mem) (hl : VGd A s.mem l) (hr : VGd A s.mem r) : Gr A (Fc.concat c E l r) s (VGd A) := by
  have ho : OwnOk A none := ⟨h0, fun _ h => by cases h⟩
  have sh : ∀ {v : Vc}, VGd A s.mem v → Gr A ((v.share E).bind fun _ => M.ret v) s (VGd A) := fun {v} h =>
    gr_bind (gr_ro hs (ro_bind (ro_inc hg _) fun _ => ro_inc hg _)) fun _ _ hs1 k1 _ => gr_ret hs1 ⟨k1 _ h.1, k1 _ h.2⟩
  refine gr_ite (fun _ => sh hr) fun _ => gr_ite (fun _ => sh hl) fun _ => gr_bind (gr_ro hs (ro_off _)) fun _ _ hs1 k1 _ => gr_bind (gr_ro hs1 (ro_off _)) fun _ _ hs2 k2 _ => ?_
  replace hl : VGd A _ l := ⟨k2 _ (k1 _ hl.1), k2 _ (k1 _ hl.2)⟩
  replace hr : VGd A _ r := ⟨k2 _ (k1 _ hr.1), k2 _ (k1 _ hr.2)⟩
  exact gr_ite (fun _ => gr_bind (gr_concatTail hg hE ho hs2 hl.1 hl.2 hr.2) fun _ _ hs3 _ h3 => gr_ret hs3 h3) fun _ =>
    gr_bind (Q := fun mem (y : Nat × Nat) => Gd A mem y.2) (gr_ite (fun _ => gr_treesTail hg hE ho hs2 hl.2 hr.1) fun _ => gr_trees hg hE ho hs2 hl.1 hl.2 hr.1) fun _ _ hs3 k3 h3 =>
      gr_bind (gr_ro hs3 (ro_inc hg _)) fun _ _ hs4 k4 _ => gr_ret hs4 ⟨k4 _ h3, k4 _ (k3 _ hr.2)⟩

end Plus
end FlexHeap
