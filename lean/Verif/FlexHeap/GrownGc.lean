import Verif.FlexHeap.Grown

/-!
# Whose nodes the result of `concat_trees_mut` is made of (helper lemmas for C54)
-/

namespace FlexHeap
open Mm Rrb VecHeap

variable {T β δ : Type} {c : Cfg} {E : Env Dat T} {A : Nat → Prop} {s s' : St Dat T} {p q t i n ec : Nat} {e : Option Nat}

namespace Gc

theorem gr_can (hs : Fin' s.mem) : Gr A (can E e p) s (fun _ _ => True) := by
  cases e with
  | none => exact gr_ret hs trivial
  | some e => exact gr_canMutate hs

theorem gr_mutTable (hE : E.Fresh) (ho : OwnOk A (some ec)) (hs : Fin' s.mem) : Gr A (mutTable c E e ec p) s (fun _ _ => True) := by
  refine gr_bind (gr_ro hs (ro_tableOf p)) fun _ r hs1 _ h1 => ?_
  cases r with
  | some t =>
    refine gr_bind (gr_can hs1) fun _ b hs2 k2 hb => gr_ite (fun h => gr_setTok hs2 (ho.2 ec rfl)) fun _ => ?_
    exact gr_bind (gr_newTable hE ho hs2) fun _ _ hs3 _ h3 => gr_bind (gr_ro hs3 (ro_sizesOf t)) fun _ _ hs4 k4 _ => gr_bind (gr_setSizes hs4) fun _ _ hs5 k5 _ =>
        gr_setTable hs5 fun _ h => by cases h; exact k5 _ (k4 _ h3)
  | none => exact gr_bind (gr_newTable hE ho hs1) fun _ _ hs3 _ h3 => gr_setTable hs3 fun _ h => by cases h; exact h3

theorem gr_putSize {x : Nat} (hs : Fin' s.mem) : Gr A (putSize t i x) s (fun _ _ => True) :=
  gr_bind (gr_ro hs (ro_sizesOf t)) fun _ _ hs1 _ _ => gr_ite (fun _ => gr_setSizes hs1) fun _ => gr_ite (fun _ => gr_setSizes hs1) fun _ => trivial

theorem gr_cutSizes (hs : Fin' s.mem) : Gr A (cutSizes p n) s (fun _ _ => True) :=
  gr_bind (gr_ro hs (ro_theTable p)) fun _ t hs1 _ _ => gr_bind (gr_ro hs1 (ro_sizesOf t)) fun _ _ hs2 _ _ => gr_ite (fun _ => gr_setSizes hs2) fun _ => trivial

theorem gr_construct {v : T} (hs : Fin' s.mem) : Gr A (construct p i v) s (fun _ _ => True) :=
  gr_bind (gr_cell hs p) fun _ _ hs1 _ _ => by
    split
    · exact gr_setEls hs1
    · exact gr_setEls hs1
    · trivial

theorem gr_fill {mv : Bool} {src dst : Nat} : ∀ (n i o : Nat) (s : St Dat T), Fin' s.mem → Gr A (fill mv src i n dst o) s (fun _ _ => True)
  | 0, _, _, _, hs => gr_ret hs trivial
  | n + 1, _, _, _, hs => gr_bind (Q := fun _ _ => True) (gr_ite (fun _ => gr_moveEl hs) fun _ => gr_copyEl hs) fun _ _ hs1 _ _ => gr_bind (gr_construct hs1) fun _ _ hs2 _ _ => gr_fill n _ _ _ hs2

theorem gr_slide : ∀ (n i o : Nat) (s : St Dat T), Fin' s.mem → Gr A (slide p i n o) s (fun _ _ => True)
  | 0, _, _, _, hs => gr_ret hs trivial
  | n + 1, _, _, _, hs => gr_bind (gr_moveEl hs) fun _ _ hs1 _ _ => gr_bind (gr_assignEl hs1) fun _ _ hs2 _ _ => gr_slide n _ _ _ hs2

theorem gr_forget (hs : Fin' s.mem) : Gr A (forget p n) s (fun _ _ => True) :=
  gr_bind (gr_cell hs p) fun _ _ hs1 _ _ => gr_setEls hs1

/-- the merger has good nodes only -/
structure MGd (A : Nat → Prop) (mem : Mem Dat T) (m : Merger) : Prop where
  ec : OwnOk A (some m.ec)
  node : ∀ p ∈ m.nodes, Gd A mem p
  dst : ∀ d, m.dst = some d → Gd A mem d
  cand : ∀ e p, m.cand = some (e, p) → Gd A mem p

variable {m : Merger}

theorem MGd.mono {mem mem' : Mem Dat T} (h : MGd A mem m) (k : ∀ p, Gd A mem p → Gd A mem' p) : MGd A mem' m :=
  ⟨h.ec, fun p hp => k _ (h.node p hp), fun d hd => k _ (h.dst d hd), fun e p h' => k _ (h.cand e p h')⟩

theorem gr_parent {cand : Option (Option Nat × Nat)} (hE : E.Fresh) (ho : OwnOk A (some ec)) (hs : Fin' s.mem) (hc : ∀ e p, cand = some (e, p) → Gd A s.mem p) :
    Gr A (match cand with | some (e, p) => (mutTable c E e ec p).bind fun _ => M.ret p | none => newInnerR c E (some ec) 0) s (Gd A) := by
  cases cand with
  | none => exact gr_newInnerR hE ho hs
  | some x => exact gr_bind (gr_mutTable hE ho hs) fun _ _ hs1 k1 _ => gr_ret hs1 (k1 _ (hc x.1 x.2 rfl))

theorem gr_init {shift : Nat} {counts : List Nat} {cand : Option (Option Nat × Nat)} (hE : E.Fresh) (ho : OwnOk A (some ec)) (hs : Fin' s.mem) (hc : ∀ e p, cand = some (e, p) → Gd A s.mem p) :
    Gr A (init c E ec shift counts cand) s (MGd A) :=
  gr_bind (gr_parent hE ho hs hc) fun _ p hs1 _ h1 => gr_ret hs1 ⟨ho, fun q hq => by rw [List.mem_singleton.mp hq]; exact h1, fun _ h => (by cases h), fun _ _ h => by cases h⟩

theorem gr_addChild {size : Nat} (hE : E.Fresh) (hs : Fin' s.mem) (hm : MGd A s.mem m) (hq : Gd A s.mem q) : Gr A (addChild c E m q size) s (MGd A) := by
  refine gr_bind (gr_ro hs (ro_liftO _)) fun _ p hs1 k1 _ => gr_bind (gr_ro hs1 (ro_liftO _)) fun _ z hs2 k2 _ => ?_
  have hm2 := (hm.mono k1).mono k2
  have hq2 := k2 _ (k1 _ hq)
  refine gr_bind (Q := fun mem (r : Merger × Nat) => MGd A mem r.1) (gr_ite (fun _ => ?_) fun _ => gr_ret hs2 ⟨hm2.ec, hm2.node, hm2.dst, hm2.cand⟩) fun _ r hs3 k3 h3 => ?_
  · refine gr_bind (gr_cutSizes hs2) fun _ _ hs3 k3 _ => gr_ite (fun _ => ?_) fun _ => trivial
    have hm3 := hm2.mono k3
    refine gr_bind (gr_parent hE hm.ec hs3 hm3.cand) fun _ p' hs4 k4 h4 => gr_ret hs4 ⟨hm.ec, fun q hq => ?_, (hm3.mono k4).dst, fun _ _ h => by cases h⟩
    rcases List.mem_append.mp hq with hq | hq
    · exact (hm3.mono k4).node q hq
    · rw [List.mem_singleton.mp hq]; exact h4
  · refine gr_bind (gr_ro hs3 (ro_theTable _)) fun _ t hs4 k4 h4 => gr_bind (gr_ro hs4 (ro_sizesOf t)) fun _ _ hs5 k5 _ => gr_bind (gr_ro hs5 (ro_liftO _)) fun _ _ hs6 k6 _ =>
      gr_bind (gr_putSize hs6) fun _ _ hs7 k7 _ => gr_bind (gr_putKid hs7 (k7 _ (k6 _ (k5 _ (k4 _ (k3 _ hq2)))))) fun _ _ hs8 k8 _ => gr_ret hs8 ?_
    have := ((((h3.mono k4).mono k5).mono k6).mono k7).mono k8
    exact ⟨this.ec, this.node, this.dst, this.cand⟩

theorem gr_leafLoop {b : Bool} (hE : E.Fresh) : ∀ (fuel : Nat) (m : Merger) (off rem : Nat) (s : St Dat T), Fin' s.mem → MGd A s.mem m → Gd A s.mem q →
    Gr A (leafLoop c E q b fuel m off rem) s (MGd A)
  | 0, _, _, _, _, _, _, _ => trivial
  | fuel + 1, m, off, rem, s, hs, hm, hq => by
    unfold leafLoop
    refine gr_bind (gr_ro hs (ro_liftO _)) fun _ count hs1 k1 _ => ?_
    refine gr_bind (Q := fun mem (r : Merger × Nat) => MGd A mem r.1 ∧ Gd A mem r.2) ?_ fun _ r hs2 k2 h2 => ?_
    · have hm1 := hm.mono k1
      cases hd : m.dst with
      | some d => exact gr_ret hs1 ⟨hm1, hm1.dst d hd⟩
      | none =>
        refine gr_bind (Q := Gd A) (gr_ite (fun h => gr_bind (gr_setTok hs1 (hm.ec.2 _ rfl)) fun _ _ hs2 k2 _ => gr_ret hs2 (k2 _ (k1 _ hq))) fun _ => gr_newLeaf hE hm.ec hs1) fun _ d hs2 k2 h2 =>
          gr_ret hs2 ⟨⟨hm.ec, (hm1.mono k2).node, ?_, (hm1.mono k2).cand⟩, h2⟩
        rintro d' h
        cases h
        exact h2
    · refine gr_bind (Q := fun _ _ => True) (gr_ite (fun h => gr_ite (fun _ => gr_ret hs2 trivial) fun _ => gr_slide _ _ _ _ hs2) fun _ => gr_fill _ _ _ _ hs2) fun _ _ hs3 k3 _ => ?_
      have hm3 := h2.1.mono k3
      refine gr_bind (Q := MGd A) (gr_ite (fun _ => ?_) fun _ => gr_ret hs3 ⟨hm3.ec, hm3.node, hm3.dst, hm3.cand⟩) fun _ m' hs4 k4 h4 => gr_ite (fun _ => gr_ret hs4 h4) fun _ => ?_
      · refine gr_bind (gr_forget hs3) fun _ _ hs4 k4 _ => gr_bind (gr_addChild hE hs4 ?_ (k4 _ (k3 _ h2.2))) fun _ m' hs5 _ h5 => gr_ret hs5 ⟨h5.ec, h5.node, fun _ h => (by cases h), h5.cand⟩
        have := hm3.mono k4
        exact ⟨this.ec, this.node, this.dst, this.cand⟩
      · exact gr_leafLoop hE fuel _ _ _ _ hs4 h4 (k4 _ (k3 _ (k2 _ (k1 _ hq))))

theorem ro_theLeaf : Ro (theLeaf q : HM T _) := ro_bind (ro_cell q) fun x => by
  cases x.data with
  | leaf => exact ro_ret _
  | inner => exact ro_undef
  | table => exact ro_undef

theorem gr_mergeLeaf {sh : RShp} (hE : E.Fresh) (hs : Fin' s.mem) (hm : MGd A s.mem m) (hq : Gd A s.mem q) : Gr A (mergeLeaf c E e m q sh) s (MGd A) :=
  gr_bind (gr_ro hs (ro_liftO _)) fun _ _ hs1 k1 _ => gr_bind (gr_ro hs1 (ro_liftO _)) fun _ _ hs2 k2 _ => gr_ite (fun _ => gr_addChild hE hs2 ((hm.mono k1).mono k2) (k2 _ (k1 _ hq))) fun _ =>
    gr_bind (gr_ro hs2 ro_theLeaf) fun _ _ hs3 k3 _ => gr_bind (gr_can hs3) fun _ b hs4 k4 hb => gr_leafLoop hE _ _ _ _ _ hs4 ((((hm.mono k1).mono k2).mono k3).mono k4) (k4 _ (k3 _ (k2 _ (k1 _ hq))))

theorem gr_putKids {d : Nat} : ∀ (ks ss : List Nat) (o : Nat) (s : St Dat T), Fin' s.mem → (∀ k ∈ ks, Gd A s.mem k) → Gr A (putKids d t o ks ss) s (fun _ _ => True)
  | [], [], _, _, hs, _ => gr_ret hs trivial
  | q :: qs, x :: xs, _, _, hs, h => gr_bind (gr_putKid hs (h q List.mem_cons_self)) fun _ _ hs1 k1 _ => gr_bind (gr_putSize hs1) fun _ _ hs2 k2 _ =>
      gr_putKids qs xs _ _ hs2 fun k hk => k2 _ (k1 _ (h k (List.mem_cons_of_mem _ hk)))
  | [], _ :: _, _, _, _, _ => trivial
  | _ :: _, [], _, _, _, _ => trivial

theorem gr_innerLoop {sh : RShp} {b : Bool} (hE : E.Fresh) : ∀ (fuel : Nat) (m : Merger) (off rem : Nat) (s : St Dat T), Fin' s.mem → MGd A s.mem m → Gd A s.mem q →
    Gr A (innerLoop c E q sh e b fuel m off rem) s (MGd A)
  | 0, _, _, _, _, _, _, _ => trivial
  | fuel + 1, m, off, rem, s, hs, hm, hq => by
    unfold innerLoop
    refine gr_bind (gr_ro hs (ro_liftO _)) fun _ count hs1 k1 _ => ?_
    refine gr_bind (Q := fun mem (r : Merger × Nat) => MGd A mem r.1 ∧ Gd A mem r.2) ?_ fun _ r hs2 k2 h2 => ?_
    · have hm1 := hm.mono k1
      cases hd : m.dst with
      | some d => exact gr_ret hs1 ⟨hm1, hm1.dst d hd⟩
      | none =>
        refine gr_bind (Q := Gd A) (gr_ite (fun h => gr_bind (gr_setTok hs1 (hm.ec.2 _ rfl)) fun _ _ hs2 k2 _ => gr_bind (gr_mutTable hE hm.ec hs2) fun _ _ hs3 k3 h3 => gr_ret hs3 (k3 _ (k2 _ (k1 _ hq)))) fun _ => gr_newInnerR hE hm.ec hs1)
          fun _ d hs2 k2 h2 => gr_ret hs2 ⟨⟨hm.ec, (hm1.mono k2).node, ?_, (hm1.mono k2).cand⟩, h2⟩
        rintro d' h
        cases h
        exact h2
    · refine gr_bind (gr_ro hs2 (ro_theTable _)) fun _ t hs3 k3 h3 => ?_
      have hq3 := k3 _ (k2 _ (k1 _ hq))
      refine gr_bind (Q := fun _ _ => True) (gr_ite (fun h => gr_ret hs3 trivial) fun _ => gr_bind (gr_kids hs3 hq3) fun _ _ hs4 _ h4 => gr_bind (gr_slice hs4 h4) fun _ _ hs5 _ h5 => gr_bind (gr_ro hs5 (ro_liftO _)) fun _ _ hs6 k6 _ =>
        gr_putKids _ _ _ _ hs6 fun k hk => k6 _ (h5 k hk)) fun _ _ hs4 k4 _ => ?_
      refine gr_bind (gr_ro hs4 (ro_sizesOf t)) fun _ _ hs5 k5 _ => gr_bind (gr_ro hs5 (ro_liftO _)) fun _ z hs6 k6 _ => ?_
      have hm3 := (((h2.1.mono k3).mono k4).mono k5).mono k6
      refine gr_bind (Q := MGd A) (gr_ite (fun _ => ?_) fun _ => gr_ret hs6 ⟨hm3.ec, hm3.node, hm3.dst, hm3.cand⟩) fun _ m' hs7 k7 h7 => gr_ite (fun _ => gr_ret hs7 h7) fun _ => gr_innerLoop hE fuel _ _ _ _ hs7 h7 (k7 _ (k6 _ (k5 _ (k4 _ hq3))))
      refine gr_bind (gr_cutSizes hs6) fun _ _ hs7 k7 _ => gr_bind (gr_addChild hE hs7 ?_ (k7 _ (k6 _ (k5 _ (k4 _ (k3 _ h2.2)))))) fun _ m' hs8 _ h8 => gr_ret hs8 ⟨h8.ec, h8.node, fun _ h => (by cases h), h8.cand⟩
      have := hm3.mono k7
      exact ⟨this.ec, this.node, this.dst, this.cand⟩

theorem gr_mergeInner {sh : RShp} (hE : E.Fresh) (hs : Fin' s.mem) (hm : MGd A s.mem m) (hq : Gd A s.mem q) : Gr A (mergeInner c E e m q sh) s (MGd A) :=
  gr_bind (gr_ro hs (ro_liftO _)) fun _ _ hs1 k1 _ => gr_bind (gr_ro hs1 (ro_liftO _)) fun _ _ hs2 k2 _ => gr_ite (fun _ => gr_addChild hE hs2 ((hm.mono k1).mono k2) (k2 _ (k1 _ hq))) fun _ =>
    gr_bind (gr_can hs2) fun _ b hs4 k4 hb => gr_innerLoop hE _ _ _ _ _ hs4 (((hm.mono k1).mono k2).mono k4) (k4 _ (k2 _ (k1 _ hq)))

theorem gr_visit {sh : RShp} (hE : E.Fresh) (hs : Fin' s.mem) (hm : MGd A s.mem m) (hq : Gd A s.mem q) : Gr A (visit c E e m q sh) s (MGd A) :=
  gr_ite (fun _ => gr_mergeLeaf hE hs hm hq) fun _ => gr_mergeInner hE hs hm hq

theorem gr_eachReg (hE : E.Fresh) : ∀ (shs : List Shp) (i : Nat) (m : Merger) (s : St Dat T), Fin' s.mem → MGd A s.mem m → Gd A s.mem p → Gr A (eachReg c E e p i shs m) s (MGd A)
  | [], _, _, _, hs, hm, _ => gr_ret hs hm
  | _ :: shs, _, _, _, hs, hm, hp => gr_bind (gr_kid hs hp) fun _ _ hs1 k1 h1 => gr_bind (gr_visit hE hs1 (hm.mono k1) h1) fun _ _ hs2 k2 h2 => gr_eachReg hE shs _ _ _ hs2 h2 (k2 _ (k1 _ hp))

theorem gr_eachRel {sh : Nat} (hE : E.Fresh) : ∀ (n i prev : Nat) (m : Merger) (s : St Dat T), Fin' s.mem → MGd A s.mem m → Gd A s.mem p → Gr A (eachRel c E e p t sh n i prev m) s (MGd A)
  | 0, _, _, _, _, hs, hm, _ => gr_ret hs hm
  | n + 1, _, _, _, _, hs, hm, hp => gr_bind (gr_kid hs hp) fun _ _ hs1 k1 h1 => gr_bind (gr_ro hs1 (ro_sizesOf _)) fun _ _ hs2 k2 _ => gr_bind (gr_ro hs2 (ro_liftO _)) fun _ _ hs3 k3 _ => gr_bind (gr_ro hs3 (ro_kidRel _ _ _)) fun _ _ hs4 k4 _ =>
      gr_bind (gr_visit hE hs4 ((((hm.mono k1).mono k2).mono k3).mono k4) (k4 _ (k3 _ (k2 _ h1)))) fun _ _ hs5 k5 h5 => gr_bind (gr_ro hs5 (ro_sizesOf _)) fun _ _ hs6 k6 _ => gr_bind (gr_ro hs6 (ro_liftO _)) fun _ _ hs7 k7 _ =>
        gr_eachRel hE n _ _ _ _ hs7 ((h5.mono k6).mono k7) (k7 _ (k6 _ (k5 _ (k4 _ (k3 _ (k2 _ (k1 _ hp)))))))

/-- the node of a left operand -/
def LGd (A : Nat → Prop) (mem : Mem Dat T) : MLeft → Prop
  | .pos p => Gd A mem p.1.1
  | .single p _ => Gd A mem p

theorem LGd.mono {mem mem' : Mem Dat T} {l : MLeft} (h : LGd A mem l) (k : ∀ p, Gd A mem p → Gd A mem' p) : LGd A mem' l := by
  cases l <;> exact k _ h

theorem gr_eachLeftSub {l : Option MLeft} (hE : E.Fresh) (hs : Fin' s.mem) (hm : MGd A s.mem m) (hl : ∀ x, l = some x → LGd A s.mem x) : Gr A (eachLeftSub c E e m l) s (MGd A) := by
  unfold eachLeftSub
  split
  · exact gr_bind (gr_ro hs (ro_liftO _)) fun _ _ hs1 k1 _ => gr_eachReg hE _ _ _ _ hs1 (hm.mono k1) (k1 _ (hl _ rfl))
  · exact gr_eachRel hE _ _ _ _ _ hs hm (hl _ rfl)
  · trivial
  · exact gr_ret hs hm
  · exact gr_ret hs hm

theorem gr_eachRightSub {r : Option MPos} (hE : E.Fresh) (hs : Fin' s.mem) (hm : MGd A s.mem m) (hr : ∀ x : MPos, r = some x → Gd A s.mem x.1.1) : Gr A (eachRightSub c E e m r) s (MGd A) := by
  unfold eachRightSub
  split
  · exact gr_ite (fun _ => gr_bind (gr_ro hs (ro_liftO _)) fun _ _ hs1 k1 _ => gr_eachReg hE _ _ _ _ hs1 (hm.mono k1) (k1 _ (hr _ rfl))) fun _ => gr_ret hs hm
  · exact gr_eachReg hE _ _ _ _ hs hm (hr _ rfl)
  · exact gr_ite (fun _ => gr_bind (gr_ro hs (ro_sizesOf _)) fun _ _ hs1 k1 _ => gr_bind (gr_ro hs1 (ro_liftO _)) fun _ _ hs2 k2 _ => gr_eachRel hE _ _ _ _ _ hs2 ((hm.mono k1).mono k2) (k2 _ (k1 _ (hr _ rfl)))) fun _ => trivial
  · trivial
  · exact gr_ret hs hm

theorem gr_centreLeaves (hE : E.Fresh) : ∀ (ps : List HPos) (m : Merger) (s : St Dat T), Fin' s.mem → MGd A s.mem m → (∀ x ∈ ps, Gd A s.mem x.1) → Gr A (centreLeaves c E e ps m) s (MGd A)
  | [], _, _, hs, hm, _ => gr_ret hs hm
  | p :: ps, _, _, hs, hm, h => gr_bind (gr_visit hE hs hm (h p List.mem_cons_self)) fun _ _ hs1 k1 h1 => gr_centreLeaves hE ps _ _ hs1 h1 fun x hx => k1 _ (h x (List.mem_cons_of_mem _ hx))

theorem gr_centreNodes {sh : Nat} (hE : E.Fresh) : ∀ (ps : List Nat) (m : Merger) (s : St Dat T), Fin' s.mem → MGd A s.mem m → (∀ x ∈ ps, Gd A s.mem x) → Gr A (centreNodes c E e sh ps m) s (MGd A)
  | [], _, _, hs, hm, _ => gr_ret hs hm
  | p :: ps, _, _, hs, hm, h => gr_bind (gr_ro hs (ro_theTable _)) fun _ _ hs1 k1 _ => gr_bind (gr_ro hs1 (ro_sizesOf _)) fun _ _ hs2 k2 _ => gr_bind (gr_visit hE hs2 ((hm.mono k1).mono k2) (k2 _ (k1 _ (h p List.mem_cons_self)))) fun _ _ hs3 k3 h3 =>
      gr_centreNodes hE ps _ _ hs3 h3 fun x hx => k3 _ (k2 _ (k1 _ (h x (List.mem_cons_of_mem _ hx))))

theorem gr_usable {p : Option Nat} (hs : Fin' s.mem) (hp : GdO A s.mem p) : Gr A (usable E e p) s (fun mem x => ∀ e' p', x = some (e', p') → Gd A mem p') := by
  cases p with
  | none => exact gr_ret hs fun _ _ h => by cases h
  | some p =>
    refine gr_bind (gr_can hs) fun _ b hs1 k1 hb => gr_ret hs1 fun e' p' h => ?_
    split at h
    · cases h; exact k1 _ (hp _ rfl)
    · cases h

/-! ### Reading positions -/

theorem gr_lastSub {sh : RShp} (hs : Fin' s.mem) (hp : Gd A s.mem p) : Gr A (FlexHeap.lastSub c p sh : HM T _) s (fun mem x => Gd A mem x.1) := by
  unfold FlexHeap.lastSub
  split
  · exact gr_bind (gr_kid hs hp) fun _ _ hs1 _ h1 => gr_ret hs1 h1
  · exact gr_bind (gr_kid hs hp) fun _ _ hs1 _ h1 => gr_bind (gr_ro hs1 (ro_liftO _)) fun _ _ hs2 k2 _ => gr_bind (gr_ro hs2 (ro_kidRel _ _ _)) fun _ _ hs3 k3 _ => gr_ret hs3 (k3 _ (k2 _ h1))
  · trivial

theorem gr_firstSub {sh : RShp} (hs : Fin' s.mem) (hp : Gd A s.mem p) : Gr A (firstSub c p sh : HM T _) s (fun mem x => Gd A mem x.1) := by
  unfold firstSub
  split
  · exact gr_bind (gr_kid hs hp) fun _ _ hs1 _ h1 => gr_ret hs1 h1
  · exact gr_bind (gr_kid hs hp) fun _ _ hs1 _ h1 => gr_ret hs1 h1
  · exact gr_bind (gr_kid hs hp) fun _ _ hs1 _ h1 => gr_bind (gr_ro hs1 (ro_liftO _)) fun _ _ hs2 k2 _ => gr_bind (gr_ro hs2 (ro_kidRel _ _ _)) fun _ _ hs3 k3 _ => gr_ret hs3 (k3 _ (k2 _ h1))
  · trivial

theorem gr_firstSubLeaf {sh : RShp} (hs : Fin' s.mem) (hp : Gd A s.mem p) : Gr A (firstSubLeaf c p sh : HM T _) s (fun mem x => Gd A mem x.1) := by
  unfold firstSubLeaf
  split
  · exact gr_bind (gr_kid hs hp) fun _ _ hs1 _ h1 => gr_ret hs1 h1
  · exact gr_bind (gr_kid hs hp) fun _ _ hs1 _ h1 => gr_ret hs1 h1
  · exact gr_bind (gr_kid hs hp) fun _ _ hs1 _ h1 => gr_bind (gr_ro hs1 (ro_liftO _)) fun _ _ hs2 k2 _ => gr_ret hs2 (k2 _ h1)
  · trivial

theorem gr_last {l : MLeft} (hs : Fin' s.mem) (hl : LGd A s.mem l) : Gr A (l.left.lastSub c : HM T _) s (fun mem x => Gd A mem x.1) := by
  cases l with
  | pos p => exact gr_lastSub hs hl
  | single => exact gr_ret hs hl

theorem leafSubs_mem : ∀ {qs es : List Nat} {b : Nat} {ps : List HPos}, leafSubs b qs es = some ps → ∀ x ∈ ps, x.1 ∈ qs
  | [], [], _, _, h, x, hx => by cases h; cases hx
  | q :: qs, e :: es, _, ps, h, x, hx => by
    unfold leafSubs at h
    obtain ⟨r, h1, rfl⟩ := Option.map_eq_some_iff.mp h
    rcases List.mem_cons.mp hx with rfl | hx
    · exact List.mem_cons_self
    · exact List.mem_cons_of_mem _ (leafSubs_mem h1 x hx)
  | [], _ :: _, _, _, h, _, _ => by cases h
  | _ :: _, [], _, _, h, _, _ => by cases h

theorem gr_subs {x : HCenter} (hs : Fin' s.mem) : Gr A (x.subs c : HM T _) s (fun _ xs => x.shift = c.BL → ∀ y ∈ xs, y.1 ∈ x.nodes) :=
  gr_ite (fun _ => gr_mono (gr_liftO hs _) fun _ _ h _ => leafSubs_mem h) fun h => gr_mono (gr_ro hs (ro_relNodes _)) fun _ _ _ h' => absurd h' h

theorem gr_withTable {x : HPos} (hs : Fin' s.mem) : Gr A (withTable x : HM T _) s (fun _ y => y.1 = x) :=
  gr_ite (fun _ => gr_ret hs rfl) fun _ => gr_bind (gr_ro hs (ro_tableOf _)) fun _ _ hs1 _ _ => gr_ret hs1 rfl

/-- nodes of a centre -/
def CGd (A : Nat → Prop) (mem : Mem Dat T) (x : HCenter) : Prop := ∀ p ∈ x.nodes, Gd A mem p

theorem gr_leafs {l : HPos} {t : Option HPos} {r : HPos} (hs : Fin' s.mem) (hl : Gd A s.mem l.1) (ht : ∀ x, t = some x → Gd A s.mem x.1) (hr : Gd A s.mem r.1) : Gr A (leafs c l t r : HM T _) s (CGd A) := by
  have h2 : ∀ k z, CGd A s.mem ⟨k, [l.1, r.1], z⟩ := fun _ _ p hp => by
    rcases List.mem_cons.mp hp with rfl | hp
    · exact hl
    · rw [List.mem_singleton.mp hp]; exact hr
  refine gr_ite (fun _ => ?_) fun _ => trivial
  cases t with
  | none => exact gr_ret hs (h2 _ _)
  | some t =>
    refine gr_ite (fun _ => gr_ret hs fun p hp => ?_) fun _ => gr_ret hs (h2 _ _)
    rcases List.mem_cons.mp hp with rfl | hp
    · exact hl
    rcases List.mem_cons.mp hp with rfl | hp
    · exact ht _ rfl
    · rw [List.mem_singleton.mp hp]; exact hr

/-! ### Trees -/

theorem gr_rebalance {el er : Option Nat} {l : Option MLeft} {x : HCenter} {r : Option MPos} (hE : E.Fresh) (ho : OwnOk A (some ec)) (hs : Fin' s.mem) (hl : ∀ y, l = some y → LGd A s.mem y) (hx : CGd A s.mem x)
    (hr : ∀ y : MPos, r = some y → Gd A s.mem y.1.1) : Gr A (rebalance c E ec el l x er r) s (CGd A) := by
  unfold rebalance
  refine gr_bind (gr_ro hs (by cases l <;> [exact ro_ret _; exact ro_left])) fun _ ls hs1 k1 _ => gr_bind (gr_subs hs1) fun _ xs hs2 k2 h2 =>
    gr_bind (gr_ro hs2 (by cases r <;> [exact ro_ret _; exact ro_eachRightSub])) fun _ rs hs3 k3 _ => gr_bind (gr_ro hs3 (ro_liftO _)) fun s4 _ hs4 k4 _ => ?_
  have hl4 : ∀ y, l = some y → LGd A s4.mem y := fun y h => ((((hl y h).mono k1).mono k2).mono k3).mono k4
  have hr4 : ∀ y : MPos, r = some y → Gd A s4.mem y.1.1 := fun y h => k4 _ (k3 _ (k2 _ (k1 _ (hr y h))))
  have hx4 : CGd A s4.mem x := fun p h => k4 _ (k3 _ (k2 _ (k1 _ (hx p h))))
  refine gr_bind (gr_usable hs4 ?_) fun _ lc hs5 k5 h5 => gr_bind (gr_usable hs5 ?_) fun _ rc hs6 k6 h6 => gr_bind (gr_init hE ho hs6 fun e p h => k6 _ (h5 e p h)) fun _ m hs7 k7 h7 =>
    gr_bind (gr_eachLeftSub hE hs7 h7 fun y h => (((hl4 y h).mono k5).mono k6).mono k7) fun _ m hs8 k8 h8 => ?_
  · cases l with
    | none => exact fun _ h => by cases h
    | some y =>
      cases y with
      | pos y => intro p h; cases h; exact hl4 _ rfl
      | single => exact fun _ h => by cases h
  · cases r with
    | none => exact fun _ h => by cases h
    | some y => intro p h; cases h; exact k5 _ (hr4 _ rfl)
  have hx8 : CGd A _ x := fun p h => k8 _ (k7 _ (k6 _ (k5 _ (hx4 p h))))
  refine gr_bind (Q := MGd A) (gr_ite (fun h => gr_centreLeaves hE _ _ _ hs8 h8 fun y hy => hx8 _ (h2 h y hy)) fun _ => gr_centreNodes hE _ _ _ hs8 h8 hx8) fun _ m hs9 k9 h9 =>
    gr_bind (gr_eachRightSub hE hs9 ⟨h9.ec, h9.node, h9.dst, fun e p h => k9 _ (k8 _ (k7 _ (h6 e p h)))⟩ fun y h => k9 _ (k8 _ (k7 _ (k6 _ (k5 _ (hr4 y h)))))) fun _ m hs10 _ h10 => ?_
  cases m.dst with
  | some _ => trivial
  | none => exact gr_bind (gr_ro hs10 (ro_liftO _)) fun _ p hs11 k11 _ => gr_bind (gr_cutSizes hs11) fun _ _ hs12 k12 _ => gr_ret hs12 fun p hp => k12 _ (k11 _ (h10.node p hp))

theorem gr_inners {el er : Option Nat} (hE : E.Fresh) (ho : OwnOk A (some ec)) : ∀ (fuel : Nat) (l : MLeft) (t : Option HPos) (r : MPos) (s : St Dat T), Fin' s.mem → LGd A s.mem l → (∀ x, t = some x → Gd A s.mem x.1) → Gd A s.mem r.1.1 →
    Gr A (inners c E ec el er fuel l t r) s (CGd A)
  | 0, _, _, _, _, _, _, _, _ => trivial
  | fuel + 1, l, t, r, s, hs, hl, ht, hr => by
    unfold inners
    refine gr_ite (fun _ => ?_) fun _ => gr_ite (fun _ => ?_) fun _ => ?_
    · refine gr_bind (gr_last hs hl) fun s1 q hs1 k1 h1 => gr_bind (Q := CGd A) (gr_ite (fun _ => trivial) fun _ => gr_bind (gr_withTable hs1) fun s2 q' hs2 k2 h2 => ?_) fun _ _ hs2 k2 h2 => gr_rebalance hE ho hs2 (fun y h => ?_) h2 fun _ h => by cases h
      · exact gr_inners hE ho fuel _ _ _ _ hs2 (by change Gd A _ q'.1.1; rw [h2]; exact k2 _ h1) (fun x h => k2 _ (k1 _ (ht x h))) (k2 _ (k1 _ hr))
      · cases h; exact (hl.mono k1).mono k2
    · refine gr_bind (gr_firstSub hs hr) fun _ q hs1 k1 h1 => gr_bind (Q := CGd A) (gr_ite (fun _ => ?_) fun _ => gr_bind (gr_withTable hs1) fun _ _ hs2 k2 h2 => gr_inners hE ho fuel _ _ _ _ hs2 ((hl.mono k1).mono k2) (fun x h => k2 _ (k1 _ (ht x h))) (by rw [h2]; exact k2 _ h1))
        fun _ _ hs2 k2 h2 => gr_rebalance hE ho hs2 (fun _ h => by cases h) h2 fun y h => by cases h; exact k2 _ (k1 _ hr)
      cases l with
      | pos p => exact gr_leafs hs1 (k1 _ hl) (fun x h => k1 _ (ht x h)) h1
      | single => trivial
    · refine gr_bind (gr_last hs hl) fun _ q hs1 k1 h1 => gr_bind (Q := CGd A) (gr_ite (fun _ => gr_bind (gr_firstSubLeaf hs1 (k1 _ hr)) fun _ _ hs2 k2 h2 => gr_leafs hs2 (k2 _ h1) (fun x h => k2 _ (k1 _ (ht x h))) h2) fun _ =>
        gr_bind (gr_firstSub hs1 (k1 _ hr)) fun _ _ hs2 k2 h2 => gr_ite (fun _ => gr_leafs hs2 (k2 _ h1) (fun x h => k2 _ (k1 _ (ht x h))) h2) fun _ => gr_bind (gr_withTable hs2) fun _ q3 hs3 k3 h3 => gr_bind (gr_withTable hs3) fun _ _ hs4 k4 h4 =>
          gr_inners hE ho fuel _ _ _ _ hs4 (by change Gd A _ q3.1.1; rw [h3]; exact k4 _ (k3 _ (k2 _ h1))) (fun x h => k4 _ (k3 _ (k2 _ (k1 _ (ht x h))))) (by rw [h4]; exact k4 _ (k3 _ h2))) fun _ _ hs2 k2 h2 =>
            gr_rebalance hE ho hs2 (fun y h => by cases h; exact (hl.mono k1).mono k2) h2 fun y h => by cases h; exact k2 _ (k1 _ hr)

theorem gr_realize {x : HCenter} (hE : E.Fresh) (ho : OwnOk A (some ec)) (hs : Fin' s.mem) (hx : CGd A s.mem x) : Gr A (realize c E ec x) s (fun mem y => Gd A mem y.2) :=
  gr_ite (fun _ => gr_bind (gr_newInnerR hE ho hs) fun _ _ hs1 k1 h1 => gr_bind (gr_ro hs1 (ro_theTable _)) fun _ _ hs2 k2 h2 => gr_bind (gr_setKids hs2 fun _ k hk => k2 _ (k1 _ (hx k hk))) fun _ _ hs3 k3 _ => gr_bind (gr_setSizes hs3) fun _ _ hs4 k4 _ =>
      gr_ret hs4 (k4 _ (k3 _ (k2 _ h1))))
    fun _ => gr_bind (gr_liftO hs _) fun _ _ hs1 k1 h1 => gr_ret hs1 (k1 _ (hx _ (List.mem_of_getElem? h1)))

theorem gr_trees {el er : Option Nat} {a1 a2 a3 a4 a5 b1 b2 b3 : Nat} (hE : E.Fresh) (ho : OwnOk A (some ec)) (hs : Fin' s.mem) (hl : Gd A s.mem a1) (ht : Gd A s.mem a4) (hr : Gd A s.mem b1) :
    Gr A (trees c E ec el a1 a2 a3 a4 a5 er b1 b2 b3) s (fun mem y => Gd A mem y.2) :=
  gr_bind (gr_ro hs (ro_maybeRel _ _ _)) fun _ _ hs1 k1 _ => gr_bind (gr_withTable hs1) fun _ l hs2 k2 h2 => gr_bind (gr_ro hs2 (ro_maybeRel _ _ _)) fun _ _ hs3 k3 _ => gr_bind (gr_withTable hs3) fun _ _ hs4 k4 h4 =>
    gr_bind (gr_inners hE ho _ _ _ _ _ hs4 (by change Gd A _ l.1.1; rw [h2]; exact k4 _ (k3 _ (k2 _ (k1 _ hl)))) (fun x h => by cases h; exact k4 _ (k3 _ (k2 _ (k1 _ ht)))) (by rw [h4]; exact k4 _ (k3 _ (k2 _ (k1 _ hr))))) fun _ _ hs5 _ h5 => gr_realize hE ho hs5 h5

theorem gr_treesTail {el er : Option Nat} {a4 a5 b1 b2 b3 : Nat} (hE : E.Fresh) (ho : OwnOk A (some ec)) (hs : Fin' s.mem) (ht : Gd A s.mem a4) (hr : Gd A s.mem b1) :
    Gr A (treesTail c E ec el a4 a5 er b1 b2 b3) s (fun mem y => Gd A mem y.2) :=
  gr_bind (gr_ro hs (ro_maybeRel _ _ _)) fun _ _ hs3 k3 _ => gr_bind (gr_withTable hs3) fun _ _ hs4 k4 h4 =>
    gr_bind (gr_inners hE ho _ _ _ _ _ hs4 (k4 _ (k3 _ ht)) (fun x h => by cases h) (by rw [h4]; exact k4 _ (k3 _ hr))) fun _ _ hs5 _ h5 => gr_realize hE ho hs5 h5

/-- root and tail of a vector -/
def VGd (A : Nat → Prop) (mem : Mem Dat T) (v : Vc) : Prop := Gd A mem v.root ∧ Gd A mem v.tail

/-- if `x` returns and did not throw, good trees are still good, and the result is -/
def Gv (A : Nat → Prop) (x : HM T (Vc × Bool)) (s : St Dat T) : Prop :=
  ∀ s' v, x s = .ok s' (v, false) → Fin' s'.mem ∧ (∀ p, Gd A s.mem p → Gd A s'.mem p) ∧ VGd A s'.mem v

theorem gv_bind {x : HM T β} {f : β → HM T (Vc × Bool)} {Q : Mem Dat T → β → Prop} (hx : Gr A x s Q)
    (hf : ∀ s' b, Fin' s'.mem → (∀ p, Gd A s.mem p → Gd A s'.mem p) → Q s'.mem b → Gv A (f b) s') : Gv A (x.bind f) s := by
  intro s2 v h
  unfold M.bind at h
  unfold Gr at hx
  cases h1 : x s with
  | ok s1 b =>
    rw [h1] at hx h
    obtain ⟨h2, h3, h4⟩ := hf s1 b hx.1 hx.2.1 hx.2.2 s2 v h
    exact ⟨h2, fun p hp => h3 p (hx.2.1 p hp), h4⟩
  | thrown s1 => rw [h1] at h; cases h
  | ub => rw [h1] at h; cases h

theorem gv_ret {v : Vc} {b : Bool} (hs : Fin' s.mem) (h : VGd A s.mem v) : Gv A (M.ret (v, b)) s := by
  intro s' v' h'
  cases h'
  exact ⟨hs, fun _ h => h, h⟩

theorem gv_attempt {x : HM T Vc} {l : Vc} (hx : Gr A x s (VGd A)) : Gv A ((attempt x).bind fun y => match y with | some l' => M.ret (l', false) | none => M.ret (l, true)) s := by
  intro s2 v h
  unfold Gr at hx
  unfold M.bind attempt at h
  cases h1 : x s with
  | ok s1 b => rw [h1] at hx h; cases h; exact hx
  | thrown s1 => rw [h1] at h; cases h
  | ub => rw [h1] at h; cases h

theorem gv_concatMutL {el : Nat} {er : Option Nat} {l r : Vc} (hg : E.gc = true) (hE : E.Fresh) (ho : OwnOk A (some el)) (hs : Fin' s.mem) (hl : VGd A s.mem l) (hr : VGd A s.mem r) : Gv A (concatMutL c E el er l r) s := by
  unfold concatMutL
  split
  · exact gv_ret hs hr
  split
  · exact gv_ret hs hl
  refine gv_bind (gr_ro hs (ro_off _)) fun _ ro hs1 k1 _ => gv_bind (gr_ro hs1 (ro_off _)) fun _ o hs2 k2 _ => ?_
  replace hl : VGd A _ l := ⟨k2 _ (k1 _ hl.1), k2 _ (k1 _ hl.2)⟩
  replace hr : VGd A _ r := ⟨k2 _ (k1 _ hr.1), k2 _ (k1 _ hr.2)⟩
  split
  · split
    · exact gv_bind (gr_fcPushTailMut hg hE ho hs2 hl.1 hl.2) fun _ _ hs3 k3 h3 => gv_ret hs3 ⟨h3, k3 _ hr.2⟩
    · refine gv_bind (gr_mutableTail hg hE ho hs2 hl.2) fun _ v hs3 k3 hv => gv_bind (gr_can hs3) fun s4 b hs4 k4 hb => ?_
      have hroot : Gd A s4.mem v.root := by rw [hv.1]; exact k4 _ (k3 _ hl.1)
      have : Gr A ((fill b r.tail 0 (min r.size (2 ^ c.BL - (v.size - o))) v.tail (v.size - o)).bind fun _ =>
                  if v.size - o + r.size ≤ 2 ^ c.BL then M.ret { v with size := v.size + r.size }
                  else
                    (copyLeafI c E (some el) r.tail (min r.size (2 ^ c.BL - (v.size - o))) r.size).bind fun nt =>
                      (Fc.pushTailMut c E el v.root v.shift o v.tail (2 ^ c.BL)).bind fun x =>
                        M.ret (Vc.mk (v.size + r.size) x.1 x.2 nt)) s4 (VGd A) :=
          gr_bind (gr_fill _ _ _ _ hs4) fun _ _ hs5 k5 _ => gr_ite (fun _ => gr_ret hs5 ⟨k5 _ hroot, k5 _ (k4 _ hv.2.2.2)⟩) fun _ => gr_bind (gr_copyLeafI hE ho hs5) fun _ _ hs6 k6 h6 =>
            gr_bind (gr_fcPushTailMut hg hE ho hs6 (k6 _ (k5 _ hroot)) (k6 _ (k5 _ (k4 _ hv.2.2.2)))) fun _ _ hs7 k7 h7 => gr_ret hs7 ⟨h7, k7 _ h6⟩
      exact gv_attempt this
  · exact gv_bind (Q := fun mem (y : Nat × Nat) => Gd A mem y.2) (gr_ite (fun _ => gr_treesTail hE ho hs2 hl.2 hr.1) fun _ => gr_trees hE ho hs2 hl.1 hl.2 hr.1) fun _ _ hs3 k3 h3 => gv_ret hs3 ⟨h3, k3 _ hr.2⟩

theorem gr_concatMutR {el : Option Nat} {er : Nat} {l r : Vc} (hg : E.gc = true) (hE : E.Fresh) (ho : OwnOk A (some er)) (hs : Fin' s.mem) (hl : VGd A s.mem l) (hr : VGd A s.mem r) : Gr A (concatMutR c E el er l r) s (VGd A) := by
  refine gr_ite (fun _ => gr_ret hs hl) fun _ => gr_ite (fun _ => gr_ret hs hr) fun _ => ?_
  refine gr_bind (gr_ro hs (ro_off _)) fun _ ro hs1 k1 _ => gr_bind (gr_ro hs1 (ro_off _)) fun _ o hs2 k2 _ => ?_
  replace hl : VGd A _ l := ⟨k2 _ (k1 _ hl.1), k2 _ (k1 _ hl.2)⟩
  replace hr : VGd A _ r := ⟨k2 _ (k1 _ hr.1), k2 _ (k1 _ hr.2)⟩
  exact gr_bind (Q := fun mem (x : Nat × Nat × Nat) => Gd A mem x.2.1 ∧ Gd A mem x.2.2) (gr_ite (fun _ => gr_concatTail hg hE ho hs2 hl.1 hl.2 hr.2) fun _ =>
    gr_bind (Q := fun mem (y : Nat × Nat) => Gd A mem y.2) (gr_ite (fun _ => gr_treesTail hE ho hs2 hl.2 hr.1) fun _ => gr_trees hE ho hs2 hl.1 hl.2 hr.1) fun _ _ hs3 k3 h3 => gr_ret hs3 ⟨h3, k3 _ hr.2⟩) fun _ _ hs3 _ h3 => gr_ret hs3 h3

end Gc
end FlexHeap
