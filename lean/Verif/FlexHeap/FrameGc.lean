import Verif.FlexHeap.Frame

/-!
# What `concat_trees_mut` leaves alone (helper lemmas for C54)
-/

namespace FlexHeap
open Mm Rrb VecHeap

variable {T β δ : Type} {c : Cfg} {E : Env Dat T} {m0 : Mem Dat T} {S : Nat → Prop} {s s' : St Dat T} {p q t i n ec : Nat} {e : Option Nat}

/-- an edit is nobody or one of the transients -/
def Ed (S : Nat → Prop) (e : Option Nat) : Prop := ∀ t, e = some t → S t

namespace Gc

theorem fr_can (hg : E.gc = true) (he : Ed S e) (hs : Held m0 S s.mem) : Fr m0 S (can E e p) s (fun _ b => b = true → ¬ Shut m0 S p) := by
  cases e with
  | none => exact fr_ret hs (fun h => by cases h)
  | some e => exact fr_canMutate hg (he e rfl) hs

theorem fr_tableOf (hs : Held m0 S s.mem) : Fr m0 S (tableOf p) s (fun m r => ∀ t, r = some t → ¬ Shut m0 S t → TabOk m0 S m p) := by
  refine fr_ro' hs (ro_tableOf p) fun r hr => ?_
  unfold tableOf M.bind cell at hr
  cases hx : s.mem p with
  | none => rw [hx] at hr; cases hr
  | some x =>
    rw [hx] at hr
    simp only at hr
    cases hd : x.data with
    | leaf => rw [hd] at hr; cases hr
    | table => rw [hd] at hr; cases hr
    | inner cap r' ks =>
      rw [hd] at hr
      cases hr
      rintro t rfl ht
      refine ⟨x, hx, fun cap' t' ks' h => ?_⟩
      rw [hd] at h
      cases h
      exact ht

theorem fr_mutTable (hg : E.gc = true) (hE : E.Fresh) (he : Ed S e) (hs : Held m0 S s.mem) (hp : ¬ Shut m0 S p) : Fr m0 S (mutTable c E e ec p) s (fun m _ => TabOk m0 S m p) := by
  refine fr_bind (fr_tableOf hs) fun _ r hs1 _ h1 => ?_
  cases r with
  | some t =>
    refine fr_bind (fr_can hg he hs1) fun _ b hs2 k2 hb => fr_ite (fun h => ?_) fun _ => ?_
    · have h2 := k2 _ (h1 t rfl (hb h))
      exact fr_bind (f := fun _ => M.ret ()) (fr_setTok hs2 (hb h)) (fun _ _ hs3 k3 _ => fr_ret (Q := fun m _ => TabOk m0 S m p) hs3 (k3 _ h2)) |> fun h => by
        have hb : ((setTok E t ec).bind fun _ => M.ret ()) = setTok E t ec := by
          funext s; unfold M.bind M.ret; cases setTok E t ec s <;> rfl
        rwa [hb] at h
    · exact fr_bind (fr_newTable hE hs2) fun _ _ hs3 _ h3 => fr_bind (fr_ro hs3 (ro_sizesOf t)) fun _ _ hs4 _ _ => fr_bind (fr_setSizes hs4 h3.1) fun _ _ hs5 _ _ =>
        fr_setTable hs5 hp fun _ h => by cases h; exact h3.1
  | none => exact fr_bind (fr_newTable hE hs1) fun _ _ hs3 _ h3 => fr_setTable hs3 hp fun _ h => by cases h; exact h3.1

theorem fr_putSize {x : Nat} (hs : Held m0 S s.mem) (ht : ¬ Shut m0 S t) : Fr m0 S (putSize t i x) s (fun _ _ => True) :=
  fr_bind (fr_ro hs (ro_sizesOf t)) fun _ _ hs1 _ _ => fr_ite (fun _ => fr_setSizes hs1 ht) fun _ => fr_ite (fun _ => fr_setSizes hs1 ht) fun _ => trivial

theorem fr_cutSizes (hs : Held m0 S s.mem) (hp : TabOk m0 S s.mem p) : Fr m0 S (cutSizes p n) s (fun _ _ => True) :=
  fr_bind (fr_theTable hs hp) fun _ t hs1 _ h1 => fr_bind (fr_ro hs1 (ro_sizesOf t)) fun _ _ hs2 _ _ => fr_ite (fun _ => fr_setSizes hs2 h1) fun _ => trivial

theorem fr_construct {v : T} (hs : Held m0 S s.mem) (hp : ¬ Shut m0 S p) : Fr m0 S (construct p i v) s (fun _ _ => True) :=
  fr_bind (fr_cell hs p) fun _ _ hs1 _ _ => by
    split
    · exact fr_setEls hs1 hp
    · exact fr_setEls hs1 hp
    · trivial

theorem fr_fill {mv : Bool} {src dst : Nat} (hd : ¬ Shut m0 S dst) (hm : mv = true → ¬ Shut m0 S src) : ∀ (n i o : Nat) (s : St Dat T), Held m0 S s.mem → Fr m0 S (fill mv src i n dst o) s (fun _ _ => True)
  | 0, _, _, _, hs => fr_ret hs trivial
  | n + 1, _, _, _, hs => fr_bind (fr_ite (fun h => fr_moveEl hs (hm h)) fun _ => fr_copyEl hs) fun _ _ hs1 _ _ => fr_bind (fr_construct hs1 hd) fun _ _ hs2 _ _ => fr_fill hd hm n _ _ _ hs2

theorem fr_slide (hp : ¬ Shut m0 S p) : ∀ (n i o : Nat) (s : St Dat T), Held m0 S s.mem → Fr m0 S (slide p i n o) s (fun _ _ => True)
  | 0, _, _, _, hs => fr_ret hs trivial
  | n + 1, _, _, _, hs => fr_bind (fr_moveEl hs hp) fun _ _ hs1 _ _ => fr_bind (fr_assignEl hs1 hp) fun _ _ hs2 _ _ => fr_slide hp n _ _ _ hs2

theorem fr_forget (hs : Held m0 S s.mem) (hp : ¬ Shut m0 S p) : Fr m0 S (forget p n) s (fun _ _ => True) :=
  fr_bind (fr_cell hs p) fun _ _ hs1 _ _ => fr_setEls hs1 hp

/-- the merger writes to nodes that are open -/
structure MOk (m0 : Mem Dat T) (S : Nat → Prop) (mem : Mem Dat T) (m : Merger) : Prop where
  node : ∀ p, m.nodes.getLast? = some p → Open m0 S mem p
  dst : ∀ d, m.dst = some d → Open m0 S mem d
  cand : ∀ e p, m.cand = some (e, p) → Ed S e ∧ ¬ Shut m0 S p

variable {m : Merger}

theorem MOk.mono {mem mem' : Mem Dat T} (h : MOk m0 S mem m) (k : ∀ p, TabOk m0 S mem p → TabOk m0 S mem' p) : MOk m0 S mem' m :=
  ⟨fun p hp => ⟨(h.node p hp).1, k _ (h.node p hp).2⟩, fun d hd => ⟨(h.dst d hd).1, k _ (h.dst d hd).2⟩, h.cand⟩

theorem fr_parent {cand : Option (Option Nat × Nat)} (hg : E.gc = true) (hE : E.Fresh) (hs : Held m0 S s.mem) (hc : ∀ e p, cand = some (e, p) → Ed S e ∧ ¬ Shut m0 S p) :
    Fr m0 S (match cand with | some (e, p) => (mutTable c E e ec p).bind fun _ => M.ret p | none => newInnerR c E (some ec) 0) s (Open m0 S) := by
  cases cand with
  | none => exact fr_newInnerR hE hs
  | some x =>
    obtain ⟨he, hp⟩ := hc x.1 x.2 rfl
    exact fr_bind (fr_mutTable hg hE he hs hp) fun _ _ hs1 _ h1 => fr_ret hs1 ⟨hp, h1⟩

theorem fr_init {shift : Nat} {counts : List Nat} {cand : Option (Option Nat × Nat)} (hg : E.gc = true) (hE : E.Fresh) (hs : Held m0 S s.mem) (hc : ∀ e p, cand = some (e, p) → Ed S e ∧ ¬ Shut m0 S p) :
    Fr m0 S (init c E ec shift counts cand) s (MOk m0 S) :=
  fr_bind (fr_parent hg hE hs hc) fun _ p hs1 _ h1 => fr_ret hs1 ⟨fun q hq => by simp at hq; subst hq; exact h1, fun _ h => (by cases h), fun _ _ h => by cases h⟩

theorem fr_addChild {size : Nat} (hg : E.gc = true) (hE : E.Fresh) (hs : Held m0 S s.mem) (hm : MOk m0 S s.mem m) : Fr m0 S (addChild c E m q size) s (MOk m0 S) := by
  refine fr_bind (fr_liftO hs _) fun _ p hs1 k1 h1 => fr_bind (fr_ro hs1 (ro_liftO _)) fun _ z hs2 k2 _ => ?_
  have hm2 := (hm.mono k1).mono k2
  refine fr_bind (Q := fun mem (r : Merger × Nat) => MOk m0 S mem r.1 ∧ r.1.nodes.getLast? = some r.2) (fr_ite (fun _ => ?_) fun _ => ?_) fun _ r hs3 _ h3 => ?_
  · refine fr_bind (fr_cutSizes hs2 (hm2.node p h1).2) fun _ _ hs3 k3 _ => fr_ite (fun _ => ?_) fun _ => trivial
    refine fr_bind (fr_parent hg hE hs3 hm.cand) fun _ p' hs4 k4 h4 => fr_ret hs4 ⟨⟨fun q hq => ?_, ((hm2.mono k3).mono k4).dst, fun _ _ h => by cases h⟩, by simp⟩
    simp at hq
    subst hq
    exact h4
  · exact fr_ret hs2 ⟨⟨hm2.node, hm2.dst, hm2.cand⟩, h1⟩
  · refine fr_bind (fr_theTable hs3 (h3.1.node _ h3.2).2) fun _ t hs4 k4 h4 => fr_bind (fr_ro hs4 (ro_sizesOf t)) fun _ _ hs5 k5 _ => fr_bind (fr_ro hs5 (ro_liftO _)) fun _ _ hs6 k6 _ =>
      fr_bind (fr_putSize hs6 h4) fun _ _ hs7 k7 _ => fr_bind (fr_putKid hs7 (h3.1.node _ h3.2).1) fun _ _ hs8 k8 _ => fr_ret hs8 ?_
    have := ((((h3.1.mono k4).mono k5).mono k6).mono k7).mono k8
    exact ⟨this.node, this.dst, this.cand⟩

theorem fr_leafLoop {b : Bool} (hg : E.gc = true) (hE : E.Fresh) (hb : b = true → ¬ Shut m0 S q) : ∀ (fuel : Nat) (m : Merger) (off rem : Nat) (s : St Dat T), Held m0 S s.mem → MOk m0 S s.mem m → (b = true → TabOk m0 S s.mem q) →
    Fr m0 S (leafLoop c E q b fuel m off rem) s (MOk m0 S)
  | 0, _, _, _, _, _, _, _ => trivial
  | fuel + 1, m, off, rem, s, hs, hm, hq => by
    unfold leafLoop
    refine fr_bind (fr_ro hs (ro_liftO _)) fun _ count hs1 k1 _ => ?_
    refine fr_bind (Q := fun mem (r : Merger × Nat) => MOk m0 S mem r.1 ∧ Open m0 S mem r.2) ?_ fun _ r hs2 k2 h2 => ?_
    · have hm1 := hm.mono k1
      cases hd : m.dst with
      | some d => exact fr_ret hs1 ⟨hm1, hm1.dst d hd⟩
      | none =>
        refine fr_bind (Q := Open m0 S) (fr_ite (fun h => fr_bind (fr_setTok hs1 (hb h)) fun _ _ hs2 k2 _ => fr_ret hs2 ⟨hb h, k2 _ (k1 _ (hq h))⟩) fun _ => fr_newLeaf hE hs1) fun _ d hs2 k2 h2 => fr_ret hs2 ⟨⟨(hm1.mono k2).node, ?_, hm.cand⟩, h2⟩
        rintro d' h
        cases h
        exact h2
    · refine fr_bind (Q := fun _ _ => True) (fr_ite (fun h => fr_ite (fun _ => fr_ret hs2 trivial) fun _ => fr_slide (by rw [h]; exact h2.2.1) _ _ _ _ hs2) fun _ => fr_fill h2.2.1 hb _ _ _ _ hs2) fun _ _ hs3 k3 _ => ?_
      have hm3 := h2.1.mono k3
      refine fr_bind (Q := MOk m0 S) (fr_ite (fun _ => ?_) fun _ => fr_ret hs3 ⟨hm3.node, hm3.dst, hm3.cand⟩) fun _ m' hs4 k4 h4 => fr_ite (fun _ => fr_ret hs4 h4) fun _ => ?_
      · refine fr_bind (fr_forget hs3 h2.2.1) fun _ _ hs4 k4 _ => fr_bind (fr_addChild hg hE hs4 ?_) fun _ m' hs5 _ h5 => fr_ret hs5 ⟨h5.node, fun _ h => (by cases h), h5.cand⟩
        have := hm3.mono k4
        exact ⟨this.node, this.dst, this.cand⟩
      · exact fr_leafLoop hg hE hb fuel _ _ _ _ hs4 h4 fun h => k4 _ (k3 _ (k2 _ (k1 _ (hq h))))

theorem fr_theLeaf (hs : Held m0 S s.mem) : Fr m0 S (theLeaf q) s (fun m _ => TabOk m0 S m q) := by
  refine fr_bind (fr_cell hs q) fun _ x hs1 _ hx => ?_
  cases hd : x.data with
  | inner => trivial
  | table => trivial
  | leaf => exact fr_ret hs1 ⟨x, hx, fun cap t ks h => by rw [hd] at h; cases h⟩

theorem fr_mergeLeaf {sh : RShp} (hg : E.gc = true) (hE : E.Fresh) (he : Ed S e) (hs : Held m0 S s.mem) (hm : MOk m0 S s.mem m) : Fr m0 S (mergeLeaf c E e m q sh) s (MOk m0 S) :=
  fr_bind (fr_ro hs (ro_liftO _)) fun _ _ hs1 k1 _ => fr_bind (fr_ro hs1 (ro_liftO _)) fun _ _ hs2 k2 _ => fr_ite (fun _ => fr_addChild hg hE hs2 ((hm.mono k1).mono k2)) fun _ =>
    fr_bind (fr_theLeaf hs2) fun _ _ hs3 k3 h3 => fr_bind (fr_can hg he hs3) fun _ b hs4 k4 hb => fr_leafLoop hg hE hb _ _ _ _ _ hs4 ((((hm.mono k1).mono k2).mono k3).mono k4) fun _ => k4 _ h3

theorem fr_putKids {d : Nat} (hd : ¬ Shut m0 S d) (ht : ¬ Shut m0 S t) : ∀ (ks ss : List Nat) (o : Nat) (s : St Dat T), Held m0 S s.mem → Fr m0 S (putKids d t o ks ss) s (fun _ _ => True)
  | [], [], _, _, hs => fr_ret hs trivial
  | q :: qs, x :: xs, _, _, hs => fr_bind (fr_putKid hs hd) fun _ _ hs1 _ _ => fr_bind (fr_putSize hs1 ht) fun _ _ hs2 _ _ => fr_putKids hd ht qs xs _ _ hs2
  | [], _ :: _, _, _, _ => trivial
  | _ :: _, [], _, _, _ => trivial

theorem fr_innerLoop {sh : RShp} {b : Bool} (hg : E.gc = true) (hE : E.Fresh) (he : Ed S e) (hb : b = true → ¬ Shut m0 S q) : ∀ (fuel : Nat) (m : Merger) (off rem : Nat) (s : St Dat T), Held m0 S s.mem → MOk m0 S s.mem m →
    Fr m0 S (innerLoop c E q sh e b fuel m off rem) s (MOk m0 S)
  | 0, _, _, _, _, _, _ => trivial
  | fuel + 1, m, off, rem, s, hs, hm => by
    unfold innerLoop
    refine fr_bind (fr_ro hs (ro_liftO _)) fun _ count hs1 k1 _ => ?_
    refine fr_bind (Q := fun mem (r : Merger × Nat) => MOk m0 S mem r.1 ∧ Open m0 S mem r.2) ?_ fun _ r hs2 k2 h2 => ?_
    · have hm1 := hm.mono k1
      cases hd : m.dst with
      | some d => exact fr_ret hs1 ⟨hm1, hm1.dst d hd⟩
      | none =>
        refine fr_bind (Q := Open m0 S) (fr_ite (fun h => fr_bind (fr_setTok hs1 (hb h)) fun _ _ hs2 k2 _ => fr_bind (fr_mutTable hg hE he hs2 (hb h)) fun _ _ hs3 _ h3 => fr_ret hs3 ⟨hb h, h3⟩) fun _ => fr_newInnerR hE hs1)
          fun _ d hs2 k2 h2 => fr_ret hs2 ⟨⟨(hm1.mono k2).node, ?_, hm.cand⟩, h2⟩
        rintro d' h
        cases h
        exact h2
    · refine fr_bind (fr_theTable hs2 h2.2.2) fun _ t hs3 k3 h3 => ?_
      refine fr_bind (Q := fun _ _ => True) (fr_ite (fun h => fr_ret hs3 trivial) fun _ => fr_bind (fr_ro hs3 (ro_kids q)) fun _ _ hs4 _ _ => fr_bind (fr_ro hs4 (ro_liftO _)) fun _ _ hs5 _ _ => fr_bind (fr_ro hs5 (ro_liftO _)) fun _ _ hs6 _ _ =>
        fr_putKids h2.2.1 h3 _ _ _ _ hs6) fun _ _ hs4 k4 _ => ?_
      refine fr_bind (fr_ro hs4 (ro_sizesOf t)) fun _ _ hs5 k5 _ => fr_bind (fr_ro hs5 (ro_liftO _)) fun _ z hs6 k6 _ => ?_
      have hm3 := (((h2.1.mono k3).mono k4).mono k5).mono k6
      refine fr_bind (Q := MOk m0 S) (fr_ite (fun _ => ?_) fun _ => fr_ret hs6 ⟨hm3.node, hm3.dst, hm3.cand⟩) fun _ m' hs7 _ h7 => fr_ite (fun _ => fr_ret hs7 h7) fun _ => fr_innerLoop hg hE he hb fuel _ _ _ _ hs7 h7
      refine fr_bind (fr_cutSizes hs6 (k6 _ (k5 _ (k4 _ (k3 _ h2.2.2))))) fun _ _ hs7 k7 _ => fr_bind (fr_addChild hg hE hs7 ?_) fun _ m' hs8 _ h8 => fr_ret hs8 ⟨h8.node, fun _ h => (by cases h), h8.cand⟩
      have := hm3.mono k7
      exact ⟨this.node, this.dst, this.cand⟩

theorem fr_mergeInner {sh : RShp} (hg : E.gc = true) (hE : E.Fresh) (he : Ed S e) (hs : Held m0 S s.mem) (hm : MOk m0 S s.mem m) : Fr m0 S (mergeInner c E e m q sh) s (MOk m0 S) :=
  fr_bind (fr_ro hs (ro_liftO _)) fun _ _ hs1 k1 _ => fr_bind (fr_ro hs1 (ro_liftO _)) fun _ _ hs2 k2 _ => fr_ite (fun _ => fr_addChild hg hE hs2 ((hm.mono k1).mono k2)) fun _ =>
    fr_bind (fr_can hg he hs2) fun _ b hs4 k4 hb => fr_innerLoop hg hE he hb _ _ _ _ _ hs4 (((hm.mono k1).mono k2).mono k4)

theorem fr_visit {sh : RShp} (hg : E.gc = true) (hE : E.Fresh) (he : Ed S e) (hs : Held m0 S s.mem) (hm : MOk m0 S s.mem m) : Fr m0 S (visit c E e m q sh) s (MOk m0 S) :=
  fr_ite (fun _ => fr_mergeLeaf hg hE he hs hm) fun _ => fr_mergeInner hg hE he hs hm

theorem fr_eachReg (hg : E.gc = true) (hE : E.Fresh) (he : Ed S e) : ∀ (shs : List Shp) (i : Nat) (m : Merger) (s : St Dat T), Held m0 S s.mem → MOk m0 S s.mem m → Fr m0 S (eachReg c E e p i shs m) s (MOk m0 S)
  | [], _, _, _, hs, hm => fr_ret hs hm
  | _ :: shs, _, _, _, hs, hm => fr_bind (fr_ro hs (ro_kid _ _)) fun _ _ hs1 k1 _ => fr_bind (fr_visit hg hE he hs1 (hm.mono k1)) fun _ _ hs2 _ h2 => fr_eachReg hg hE he shs _ _ _ hs2 h2

theorem fr_eachRel {sh : Nat} (hg : E.gc = true) (hE : E.Fresh) (he : Ed S e) : ∀ (n i prev : Nat) (m : Merger) (s : St Dat T), Held m0 S s.mem → MOk m0 S s.mem m → Fr m0 S (eachRel c E e p t sh n i prev m) s (MOk m0 S)
  | 0, _, _, _, _, hs, hm => fr_ret hs hm
  | n + 1, _, _, _, _, hs, hm => fr_bind (fr_ro hs (ro_kid _ _)) fun _ _ hs1 k1 _ => fr_bind (fr_ro hs1 (ro_sizesOf _)) fun _ _ hs2 k2 _ => fr_bind (fr_ro hs2 (ro_liftO _)) fun _ _ hs3 k3 _ => fr_bind (fr_ro hs3 (ro_kidRel _ _ _)) fun _ _ hs4 k4 _ =>
      fr_bind (fr_visit hg hE he hs4 ((((hm.mono k1).mono k2).mono k3).mono k4)) fun _ _ hs5 _ h5 => fr_bind (fr_ro hs5 (ro_sizesOf _)) fun _ _ hs6 k6 _ => fr_bind (fr_ro hs6 (ro_liftO _)) fun _ _ hs7 k7 _ =>
        fr_eachRel hg hE he n _ _ _ _ hs7 ((h5.mono k6).mono k7)

theorem fr_eachLeftSub {l : Option MLeft} (hg : E.gc = true) (hE : E.Fresh) (he : Ed S e) (hs : Held m0 S s.mem) (hm : MOk m0 S s.mem m) : Fr m0 S (eachLeftSub c E e m l) s (MOk m0 S) := by
  unfold eachLeftSub
  split
  · exact fr_bind (fr_ro hs (ro_liftO _)) fun _ _ hs1 k1 _ => fr_eachReg hg hE he _ _ _ _ hs1 (hm.mono k1)
  · exact fr_eachRel hg hE he _ _ _ _ _ hs hm
  · trivial
  · exact fr_ret hs hm
  · exact fr_ret hs hm

theorem fr_eachRightSub {r : Option MPos} (hg : E.gc = true) (hE : E.Fresh) (he : Ed S e) (hs : Held m0 S s.mem) (hm : MOk m0 S s.mem m) : Fr m0 S (eachRightSub c E e m r) s (MOk m0 S) := by
  unfold eachRightSub
  split
  · exact fr_ite (fun _ => fr_bind (fr_ro hs (ro_liftO _)) fun _ _ hs1 k1 _ => fr_eachReg hg hE he _ _ _ _ hs1 (hm.mono k1)) fun _ => fr_ret hs hm
  · exact fr_eachReg hg hE he _ _ _ _ hs hm
  · exact fr_ite (fun _ => fr_bind (fr_ro hs (ro_sizesOf _)) fun _ _ hs1 k1 _ => fr_bind (fr_ro hs1 (ro_liftO _)) fun _ _ hs2 k2 _ => fr_eachRel hg hE he _ _ _ _ _ hs2 ((hm.mono k1).mono k2)) fun _ => trivial
  · trivial
  · exact fr_ret hs hm

theorem fr_centreLeaves (hg : E.gc = true) (hE : E.Fresh) (he : Ed S e) : ∀ (ps : List HPos) (m : Merger) (s : St Dat T), Held m0 S s.mem → MOk m0 S s.mem m → Fr m0 S (centreLeaves c E e ps m) s (MOk m0 S)
  | [], _, _, hs, hm => fr_ret hs hm
  | _ :: ps, _, _, hs, hm => fr_bind (fr_visit hg hE he hs hm) fun _ _ hs1 _ h1 => fr_centreLeaves hg hE he ps _ _ hs1 h1

theorem fr_centreNodes {sh : Nat} (hg : E.gc = true) (hE : E.Fresh) (he : Ed S e) : ∀ (ps : List Nat) (m : Merger) (s : St Dat T), Held m0 S s.mem → MOk m0 S s.mem m → Fr m0 S (centreNodes c E e sh ps m) s (MOk m0 S)
  | [], _, _, hs, hm => fr_ret hs hm
  | _ :: ps, _, _, hs, hm => fr_bind (fr_ro hs (ro_theTable _)) fun _ _ hs1 k1 _ => fr_bind (fr_ro hs1 (ro_sizesOf _)) fun _ _ hs2 k2 _ => fr_bind (fr_visit hg hE he hs2 ((hm.mono k1).mono k2)) fun _ _ hs3 _ h3 =>
      fr_centreNodes hg hE he ps _ _ hs3 h3

theorem fr_usable {p : Option Nat} (hg : E.gc = true) (he : Ed S e) (hs : Held m0 S s.mem) : Fr m0 S (usable E e p) s (fun _ x => ∀ e' p', x = some (e', p') → Ed S e' ∧ ¬ Shut m0 S p') := by
  cases p with
  | none => exact fr_ret hs fun _ _ h => by cases h
  | some p =>
    refine fr_bind (fr_can hg he hs) fun _ b hs1 _ hb => fr_ret hs1 fun e' p' h => ?_
    split at h
    · cases h; exact ⟨he, hb ‹_›⟩
    · cases h

/-! ### Reading positions -/

theorem ro_relSubs {sh : Nat} : ∀ (es qs : List Nat) (prev : Nat), Ro (relSubs c sh prev qs es : HM T _)
  | [], _, _ => by unfold relSubs; exact ro_ret _
  | _ :: es, _ :: qs, _ => by
    unfold relSubs
    exact ro_bind (ro_kidRel _ _ _) fun _ => ro_bind (ro_relSubs es qs _) fun _ => ro_ret _
  | _ :: _, [], _ => by unfold relSubs; exact ro_undef

theorem ro_eachLeftSub {sh : RShp} : Ro (FlexHeap.eachLeftSub c p sh : HM T _) := by
  unfold FlexHeap.eachLeftSub
  split
  · exact ro_bind (ro_liftO _) fun _ => ro_bind (ro_kids _) fun _ => ro_liftO _
  · exact ro_bind (ro_liftO _) fun _ => ro_bind (ro_kids _) fun _ => ro_relSubs _ _ _
  · exact ro_undef

theorem ro_eachRightSub {sh : RShp} : Ro (FlexHeap.eachRightSub c p sh : HM T _) := by
  unfold FlexHeap.eachRightSub
  split
  · exact ro_ite (ro_bind (ro_liftO _) fun _ => ro_bind (ro_kids _) fun _ => ro_liftO _) (ro_ret _)
  · exact ro_bind (ro_kids _) fun _ => ro_liftO _
  · exact ro_ite (ro_bind (ro_liftO _) fun _ => ro_bind (ro_kids _) fun _ => ro_relSubs _ _ _) ro_undef
  · exact ro_undef

theorem ro_lastSub {sh : RShp} : Ro (FlexHeap.lastSub c p sh : HM T _) := by
  unfold FlexHeap.lastSub
  split
  · exact ro_bind (ro_kid _ _) fun _ => ro_ret _
  · exact ro_bind (ro_kid _ _) fun _ => ro_bind (ro_liftO _) fun _ => ro_bind (ro_kidRel _ _ _) fun _ => ro_ret _
  · exact ro_undef

theorem ro_firstSub {sh : RShp} : Ro (firstSub c p sh : HM T _) := by
  unfold firstSub
  split
  · exact ro_bind (ro_kid _ _) fun _ => ro_ret _
  · exact ro_bind (ro_kid _ _) fun _ => ro_ret _
  · exact ro_bind (ro_kid _ _) fun _ => ro_bind (ro_liftO _) fun _ => ro_bind (ro_kidRel _ _ _) fun _ => ro_ret _
  · exact ro_undef

theorem ro_firstSubLeaf {sh : RShp} : Ro (firstSubLeaf c p sh : HM T _) := by
  unfold firstSubLeaf
  split
  · exact ro_bind (ro_kid _ _) fun _ => ro_ret _
  · exact ro_bind (ro_kid _ _) fun _ => ro_ret _
  · exact ro_bind (ro_kid _ _) fun _ => ro_bind (ro_liftO _) fun _ => ro_ret _
  · exact ro_undef

theorem ro_left {l : HLeft} : Ro (l.eachLeftSub c : HM T _) := by
  cases l with
  | pos p => exact ro_eachLeftSub
  | single => exact ro_ret _

theorem ro_last {l : HLeft} : Ro (l.lastSub c : HM T _) := by
  cases l with
  | pos p => exact ro_lastSub
  | single => exact ro_ret _

theorem ro_relNodes {sh : Nat} : ∀ (ps : List Nat), Ro (relNodes sh ps : HM T _)
  | [] => ro_ret _
  | _ :: ps => ro_bind (ro_theTable _) fun _ => ro_bind (ro_sizesOf _) fun _ => ro_bind (ro_relNodes ps) fun _ => ro_ret _

theorem ro_subs {x : HCenter} : Ro (x.subs c : HM T _) := ro_ite (ro_liftO _) (ro_relNodes _)

theorem ro_withTable {x : HPos} : Ro (withTable x : HM T _) := ro_ite (ro_ret _) (ro_bind (ro_tableOf _) fun _ => ro_ret _)

theorem ro_leafs {l : HPos} {t : Option HPos} {r : HPos} : Ro (leafs c l t r : HM T _) := by
  refine ro_ite ?_ ro_undef
  cases t with
  | none => exact ro_ret _
  | some t => exact ro_ite (ro_ret _) (ro_ret _)

/-! ### Trees -/

theorem fr_rebalance {el er : Option Nat} {l : Option MLeft} {x : HCenter} {r : Option MPos} (hg : E.gc = true) (hE : E.Fresh) (hec : S ec) (hl : Ed S el) (hr : Ed S er) (hs : Held m0 S s.mem) :
    Fr m0 S (rebalance c E ec el l x er r) s (fun _ _ => True) := by
  unfold rebalance
  refine fr_bind (fr_ro hs (by cases l <;> [exact ro_ret _; exact ro_left])) fun _ ls hs1 _ _ => fr_bind (fr_ro hs1 ro_subs) fun _ xs hs2 _ _ =>
    fr_bind (fr_ro hs2 (by cases r <;> [exact ro_ret _; exact ro_eachRightSub])) fun _ rs hs3 _ _ => fr_bind (fr_ro hs3 (ro_liftO _)) fun _ _ hs4 _ _ =>
    fr_bind (fr_usable hg hl hs4) fun _ lc hs5 _ h5 => fr_bind (fr_usable hg hr hs5) fun _ rc hs6 _ h6 => fr_bind (fr_init hg hE hs6 h5) fun _ m hs7 _ h7 =>
    fr_bind (fr_eachLeftSub hg hE hl hs7 h7) fun _ m hs8 _ h8 => ?_
  have hec' : Ed S (some ec) := fun t h => by cases h; exact hec
  refine fr_bind (Q := MOk m0 S) (fr_ite (fun _ => fr_centreLeaves hg hE hec' _ _ _ hs8 h8) fun _ => fr_centreNodes hg hE hec' _ _ _ hs8 h8) fun _ m hs9 _ h9 =>
    fr_bind (fr_eachRightSub hg hE hr hs9 ⟨h9.node, h9.dst, h6⟩) fun _ m hs10 _ h10 => ?_
  cases m.dst with
  | some _ => trivial
  | none => exact fr_bind (fr_liftO hs10 _) fun _ p hs11 k11 hp => fr_bind (fr_cutSizes hs11 ((h10.mono k11).node p hp).2) fun _ _ hs12 _ _ => fr_ret hs12 trivial

theorem fr_inners {el er : Option Nat} (hg : E.gc = true) (hE : E.Fresh) (hec : S ec) (hl : Ed S el) (hr : Ed S er) : ∀ (fuel : Nat) (l : MLeft) (t : Option HPos) (r : MPos) (s : St Dat T), Held m0 S s.mem →
    Fr m0 S (inners c E ec el er fuel l t r) s (fun _ _ => True)
  | 0, _, _, _, _, _ => trivial
  | fuel + 1, l, t, r, s, hs => by
    unfold inners
    refine fr_ite (fun _ => ?_) fun _ => fr_ite (fun _ => ?_) fun _ => ?_
    · refine fr_bind (fr_ro hs ro_last) fun _ q hs1 _ _ => fr_bind (fr_ite (fun _ => fr_undef) fun _ => fr_bind (fr_ro hs1 ro_withTable) fun _ _ hs2 _ _ => fr_inners hg hE hec hl hr fuel _ _ _ _ hs2) fun _ _ hs2 _ _ => fr_rebalance hg hE hec hl hr hs2
    · refine fr_bind (fr_ro hs ro_firstSub) fun _ q hs1 _ _ => fr_bind (Q := fun _ _ => True) (fr_ite (fun _ => ?_) fun _ => fr_bind (fr_ro hs1 ro_withTable) fun _ _ hs2 _ _ => fr_inners hg hE hec hl hr fuel _ _ _ _ hs2)
        fun _ _ hs2 _ _ => fr_rebalance hg hE hec hl hr hs2
      cases l with
      | pos p => exact fr_ro hs1 ro_leafs
      | single => trivial
    · refine fr_bind (fr_ro hs ro_last) fun _ q hs1 _ _ => fr_bind (Q := fun _ _ => True) (fr_ite (fun _ => fr_bind (fr_ro hs1 ro_firstSubLeaf) fun _ _ hs2 _ _ => fr_ro hs2 ro_leafs) fun _ =>
        fr_bind (fr_ro hs1 ro_firstSub) fun _ _ hs2 _ _ => fr_ite (fun _ => fr_ro hs2 ro_leafs) fun _ => fr_bind (fr_ro hs2 ro_withTable) fun _ _ hs3 _ _ => fr_bind (fr_ro hs3 ro_withTable) fun _ _ hs4 _ _ =>
          fr_inners hg hE hec hl hr fuel _ _ _ _ hs4) fun _ _ hs2 _ _ => fr_rebalance hg hE hec hl hr hs2

theorem fr_realize {x : HCenter} (hE : E.Fresh) (hs : Held m0 S s.mem) : Fr m0 S (realize c E ec x) s (fun _ _ => True) :=
  fr_ite (fun _ => fr_bind (fr_newInnerR hE hs) fun _ _ hs1 _ h1 => fr_bind (fr_theTable hs1 h1.2) fun _ _ hs2 _ h2 => fr_bind (fr_setKids hs2 h1.1) fun _ _ hs3 _ _ => fr_bind (fr_setSizes hs3 h2) fun _ _ hs4 _ _ => fr_ret hs4 trivial)
    fun _ => fr_bind (fr_ro hs (ro_liftO _)) fun _ _ hs1 _ _ => fr_ret hs1 trivial

theorem fr_trees {el er : Option Nat} {a1 a2 a3 a4 a5 b1 b2 b3 : Nat} (hg : E.gc = true) (hE : E.Fresh) (hec : S ec) (hl : Ed S el) (hr : Ed S er) (hs : Held m0 S s.mem) :
    Fr m0 S (trees c E ec el a1 a2 a3 a4 a5 er b1 b2 b3) s (fun _ _ => True) :=
  fr_bind (fr_ro hs (ro_maybeRel _ _ _)) fun _ _ hs1 _ _ => fr_bind (fr_ro hs1 ro_withTable) fun _ _ hs2 _ _ => fr_bind (fr_ro hs2 (ro_maybeRel _ _ _)) fun _ _ hs3 _ _ => fr_bind (fr_ro hs3 ro_withTable) fun _ _ hs4 _ _ =>
    fr_bind (fr_inners hg hE hec hl hr _ _ _ _ _ hs4) fun _ _ hs5 _ _ => fr_realize hE hs5

theorem fr_treesTail {el er : Option Nat} {a4 a5 b1 b2 b3 : Nat} (hg : E.gc = true) (hE : E.Fresh) (hec : S ec) (hl : Ed S el) (hr : Ed S er) (hs : Held m0 S s.mem) :
    Fr m0 S (treesTail c E ec el a4 a5 er b1 b2 b3) s (fun _ _ => True) :=
  fr_bind (fr_ro hs (ro_maybeRel _ _ _)) fun _ _ hs3 _ _ => fr_bind (fr_ro hs3 ro_withTable) fun _ _ hs4 _ _ =>
    fr_bind (fr_inners hg hE hec hl hr _ _ _ _ _ hs4) fun _ _ hs5 _ _ => fr_realize hE hs5

/-- concatenation in place leaves all nodes alone that have other tokens -/
theorem sv_concatMutL {el : Nat} {er : Option Nat} {l r : Vc} (hg : E.gc = true) (hE : E.Fresh) (hl : S el) (hr : Ed S er) (hs : Held m0 S s.mem) : Sv m0 S (concatMutL c E el er l r) s := by
  have hl' : Ed S (some el) := fun t h => by cases h; exact hl
  unfold concatMutL
  split
  · exact hs
  split
  · exact hs
  refine sv_bind (fr_ro hs (ro_off _)) fun _ ro hs1 _ => sv_bind (fr_ro hs1 (ro_off _)) fun _ o hs2 _ => ?_
  split
  · split
    · exact sv_bind (fr_fcPushTailMut hg hE hl hs2) fun _ _ hs3 _ => hs3
    · refine sv_bind (fr_mutableTail hg hE hl hs2) fun _ v hs3 hv => sv_bind (fr_can hg hr hs3) fun s4 b hs4 hb => sv_bind' ?_ fun s5 x hs5 => ?_
      · have : Fr m0 S ((fill b r.tail 0 (min r.size (2 ^ c.BL - (v.size - o))) v.tail (v.size - o)).bind fun _ =>
                  if v.size - o + r.size ≤ 2 ^ c.BL then M.ret { v with size := v.size + r.size }
                  else
                    (copyLeafI c E (some el) r.tail (min r.size (2 ^ c.BL - (v.size - o))) r.size).bind fun nt =>
                      (Fc.pushTailMut c E el v.root v.shift o v.tail (2 ^ c.BL)).bind fun x =>
                        M.ret (Vc.mk (v.size + r.size) x.1 x.2 nt)) s4 (fun _ _ => True) :=
          fr_bind (fr_fill hv hb _ _ _ _ hs4) fun _ _ hs5 _ _ => fr_ite (fun _ => fr_ret hs5 trivial) fun _ => fr_bind (fr_copyLeafI hE hs5) fun _ _ hs6 _ _ => fr_bind (fr_fcPushTailMut hg hE hl hs6) fun _ _ hs7 _ _ => fr_ret hs7 trivial
        have := fr_sv this
        unfold Sv attempt at *
        revert this
        split <;> (intro h; rename_i h2; simp only [h2] <;> exact h)
      · cases x with
        | none => exact hs5
        | some => exact hs5
  · refine sv_bind (Q := fun _ _ => True) (fr_ite (fun _ => fr_treesTail hg hE hl hl' hr hs2) fun _ => fr_trees hg hE hl hl' hr hs2) fun _ _ hs3 _ => hs3

theorem sv_concatMutR {el : Option Nat} {er : Nat} {l r : Vc} (hg : E.gc = true) (hE : E.Fresh) (hl : Ed S el) (hr : S er) (hs : Held m0 S s.mem) : Sv m0 S (concatMutR c E el er l r) s := by
  have hr' : Ed S (some er) := fun t h => by cases h; exact hr
  unfold concatMutR
  split
  · exact hs
  split
  · exact hs
  refine sv_bind (fr_ro hs (ro_off _)) fun _ ro hs1 _ => sv_bind (fr_ro hs1 (ro_off _)) fun _ o hs2 _ => sv_bind (Q := fun _ _ => True) (fr_ite (fun _ => fr_concatTail hg hE hs2) fun _ =>
    fr_bind (Q := fun _ _ => True) (fr_ite (fun _ => fr_treesTail hg hE hr hl hr' hs2) fun _ => fr_trees hg hE hr hl hr' hs2) fun _ _ hs3 _ _ => fr_ret hs3 trivial) fun _ _ hs3 _ => hs3

end Gc
end FlexHeap
