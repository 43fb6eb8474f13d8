import Verif.FlexHeap.GrownGc

/-!
# What operations of one vector write to, and the nodes they make

`push_back`, `set` and `update`: nodes that may not be changed stay (`Hd`), and the nodes of the result are those there were, new
ones, or ones of the owner (`Gr`).
-/

namespace FlexHeap
open Mm Rrb VecHeap

variable {T β δ : Type} {c : Cfg} {E : Env Dat T} {m0 : Mem Dat T} {S A : Nat → Prop} {s s' : St Dat T} {p q t e i n idx : Nat} {Q : β → Prop} {R : δ → Prop} {own : Option Nat} {user : Bool} {f : T → T} {v : Vc} {x : T}

/-- as `Fr`, but tables of sizes may be shared -/
def Hd (m0 : Mem Dat T) (S : Nat → Prop) (x : HM T β) (s : St Dat T) (Q : β → Prop) : Prop :=
  match x s with
  | .ok s' b => Held m0 S s'.mem ∧ Q b
  | .thrown s' => Held m0 S s'.mem
  | .ub => True

theorem fr_hd {x : HM T β} {Q' : Mem Dat T → β → Prop} (hx : Fr m0 S x s Q') (h : ∀ m b, Q' m b → Q b) : Hd m0 S x s Q := by
  unfold Fr at hx
  unfold Hd
  cases hs : x s with
  | ok s1 b => rw [hs] at hx; exact ⟨hx.1, h _ _ hx.2.2⟩
  | thrown s1 => rw [hs] at hx; exact hx
  | ub => trivial

theorem hd_mono {x : HM T β} {Q' : β → Prop} (hx : Hd m0 S x s Q) (h : ∀ b, Q b → Q' b) : Hd m0 S x s Q' := by
  unfold Hd at *
  cases hs : x s with
  | ok s1 b => rw [hs] at hx; exact ⟨hx.1, h _ hx.2⟩
  | thrown s1 => rw [hs] at hx; exact hx
  | ub => trivial

theorem hd_bind {x : HM T β} {f : β → HM T δ} (hx : Hd m0 S x s Q) (hf : ∀ s' b, Held m0 S s'.mem → Q b → Hd m0 S (f b) s' R) : Hd m0 S (x.bind f) s R := by
  unfold Hd M.bind at *
  cases h : x s with
  | ok s1 b => rw [h] at hx; exact hf s1 b hx.1 hx.2
  | thrown s1 => rw [h] at hx; exact hx
  | ub => trivial

theorem hd_ret {b : β} (hs : Held m0 S s.mem) (h : Q b) : Hd m0 S (M.ret b) s Q := ⟨hs, h⟩

theorem hd_ite {P : Prop} [Decidable P] {x y : HM T β} (hx : P → Hd m0 S x s Q) (hy : ¬ P → Hd m0 S y s Q) : Hd m0 S (if P then x else y) s Q := by
  split
  · exact hx ‹_›
  · exact hy ‹_›

theorem hd_guard {x : HM T β} {hd : HM T Unit} (hx : Hd m0 S x s Q) (hh : ∀ s', Held m0 S s'.mem → Sv m0 S hd s') : Hd m0 S (x.guard hd) s Q := by
  unfold Hd M.guard at *
  cases h : x s with
  | ok s1 b => rw [h] at hx; exact hx
  | thrown s1 =>
    rw [h] at hx
    have h2 := hh s1 hx
    unfold Sv at h2
    simp only
    cases h3 : hd s1 with
    | ok s2 d => rw [h3] at h2; exact h2
    | thrown s2 => trivial
    | ub => trivial
  | ub => trivial

theorem hd_ro {x : HM T β} (hs : Held m0 S s.mem) (hx : Ro x) : Hd m0 S x s (fun _ => True) := fr_hd (fr_ro hs hx) fun _ _ _ => trivial

theorem hd_sv {x : HM T β} (hx : Hd m0 S x s Q) : Sv m0 S x s := by
  unfold Hd at hx
  unfold Sv
  cases hs : x s with
  | ok s1 b => rw [hs] at hx; exact hx.1
  | thrown s1 => rw [hs] at hx; exact hx
  | ub => trivial

/-! ### `push_back` -/

theorem fr_leafOf (hE : E.Fresh) (hs : Held m0 S s.mem) : Fr m0 S (leafOf c E own x) s (Open m0 S) :=
  fr_bind (fr_newLeaf hE hs) fun _ _ hs1 _ h1 => fr_bind (fr_construct hs1 h1.1) fun _ _ hs2 k2 _ => fr_ret hs2 ⟨h1.1, k2 _ h1.2⟩

theorem gr_leafOf (hE : E.Fresh) (ho : OwnOk A own) (hs : Fin' s.mem) : Gr A (leafOf c E own x) s (Gd A) :=
  gr_bind (gr_newLeaf hE ho hs) fun _ _ hs1 _ h1 => gr_bind (gr_construct hs1) fun _ _ hs2 k2 _ => gr_ret hs2 (k2 _ h1)

theorem fr_copyLeafEmplace {src : Nat} (hE : E.Fresh) (hs : Held m0 S s.mem) : Fr m0 S (copyLeafEmplace c E src n x) s (Open m0 S) :=
  fr_bind (fr_copyLeafN hE hs) fun _ _ hs1 _ h1 => fr_bind (fr_construct hs1 h1.1) fun _ _ hs2 k2 _ => fr_ret hs2 ⟨h1.1, k2 _ h1.2⟩

theorem gr_copyLeafEmplace {src : Nat} (hE : E.Fresh) (h0 : A 0) (hs : Fin' s.mem) : Gr A (copyLeafEmplace c E src n x) s (Gd A) :=
  gr_bind (gr_copyLeafN hE ⟨h0, fun _ h => by cases h⟩ hs) fun _ _ hs1 _ h1 => gr_bind (gr_construct hs1) fun _ _ hs2 k2 _ => gr_ret hs2 (k2 _ h1)

theorem fr_pushBackMut (hg : E.gc = true) (hE : E.Fresh) (he : S e) (hs : Held m0 S s.mem) : Fr m0 S (Fc.pushBackMut c E e v x) s (fun _ _ => True) :=
  fr_bind (fr_ro hs (ro_off v)) fun _ _ hs1 _ _ => fr_ite
    (fun _ => fr_bind (fr_mutableTail hg hE he hs1) fun _ _ hs2 _ h2 => fr_bind (fr_construct hs2 h2) fun _ _ hs3 _ _ => fr_ret hs3 trivial)
    fun _ => fr_bind (fr_leafOf hE hs1) fun _ _ hs2 _ h2 => fr_guard (fr_bind (fr_fcPushTailMut hg hE he hs2) fun _ _ hs3 _ _ => fr_ret hs3 trivial) fun _ hs3 => sv_delLeaf hs3 h2.1

theorem gr_pushBackMut (hg : E.gc = true) (hE : E.Fresh) (ho : OwnOk A (some e)) (hs : Fin' s.mem) (hv : Gc.VGd A s.mem v) : Gr A (Fc.pushBackMut c E e v x) s (Gc.VGd A) :=
  gr_bind (gr_ro hs (ro_off v)) fun _ _ hs1 k1 _ => gr_ite
    (fun _ => gr_bind (gr_mutableTail hg hE ho hs1 (k1 _ hv.2)) fun _ u hs2 k2 h2 => gr_bind (gr_construct hs2) fun _ _ hs3 k3 _ => gr_ret hs3 ⟨by rw [h2.1]; exact k3 _ (k2 _ (k1 _ hv.1)), k3 _ h2.2.2.2⟩)
    fun _ => gr_bind (gr_leafOf hE ho hs1) fun _ _ hs2 k2 h2 => gr_guard (gr_bind (gr_fcPushTailMut hg hE ho hs2 (k2 _ (k1 _ hv.1)) (k2 _ (k1 _ hv.2))) fun _ _ hs3 k3 h3 => gr_ret hs3 ⟨h3, k3 _ h2⟩)

theorem fr_pushBack (hg : E.gc = true) (hE : E.Fresh) (hs : Held m0 S s.mem) : Fr m0 S (Fc.pushBack c E v x) s (fun _ _ => True) :=
  fr_bind (fr_ro hs (ro_off v)) fun _ _ hs1 _ _ => fr_ite
    (fun _ => fr_bind (fr_copyLeafEmplace hE hs1) fun _ _ hs2 _ h2 => fr_bind (fr_ro hs2 (ro_inc hg _)) fun _ _ hs3 _ _ => fr_ret hs3 trivial)
    fun _ => fr_bind (fr_leafOf hE hs1) fun _ _ hs2 _ h2 => fr_guard (fr_bind (fr_fcPushTail hg hE hs2) fun _ _ hs3 _ _ => fr_bind (fr_ro hs3 (ro_inc hg _)) fun _ _ hs4 _ _ => fr_ret hs4 trivial) fun _ hs3 => sv_delLeaf hs3 h2.1

theorem gr_pushBack (hg : E.gc = true) (hE : E.Fresh) (h0 : A 0) (hs : Fin' s.mem) (hv : Gc.VGd A s.mem v) : Gr A (Fc.pushBack c E v x) s (Gc.VGd A) :=
  have ho : OwnOk A none := ⟨h0, fun _ h => by cases h⟩
  gr_bind (gr_ro hs (ro_off v)) fun _ _ hs1 k1 _ => gr_ite
    (fun _ => gr_bind (gr_copyLeafEmplace hE h0 hs1) fun _ u hs2 k2 h2 => gr_bind (gr_ro hs2 (ro_inc hg _)) fun _ _ hs3 k3 _ => gr_ret hs3 ⟨k3 _ (k2 _ (k1 _ hv.1)), k3 _ h2⟩)
    fun _ => gr_bind (gr_leafOf hE ho hs1) fun _ _ hs2 k2 h2 => gr_guard (gr_bind (gr_fcPushTail hg hE ho hs2 (k2 _ (k1 _ hv.1)) (k2 _ (k1 _ hv.2))) fun _ _ hs3 k3 h3 => gr_bind (gr_ro hs3 (ro_inc hg _)) fun _ _ hs4 k4 _ => gr_ret hs4 ⟨k4 _ h3, k4 _ (k3 _ h2)⟩)

/-! ### `set` and `update` -/

theorem fr_applyEl (hs : Held m0 S s.mem) (hp : ¬ Shut m0 S p) : Fr m0 S (applyEl user f p i) s (fun _ _ => True) :=
  fr_bind (fr_moveEl hs hp) fun _ _ hs1 _ _ => fr_bind (Q := fun _ _ => True) (fr_ite (fun _ => fr_tick hs1 _) fun _ => fr_ret hs1 trivial) fun _ _ hs2 _ _ => fr_assignEl hs2 hp

theorem gr_applyEl (hs : Fin' s.mem) : Gr A (applyEl user f p i) s (fun _ _ => True) :=
  gr_bind (gr_moveEl hs) fun _ _ hs1 _ _ => gr_bind (Q := fun _ _ => True) (gr_ite (fun _ => gr_tick hs1 _) fun _ => gr_ret hs1 trivial) fun _ _ hs2 _ _ => gr_assignEl hs2

theorem fr_doCopyInnerReplace {dst src off child : Nat} (hg : E.gc = true) (hs : Held m0 S s.mem) (hp : ¬ Shut m0 S dst) : Fr m0 S (doCopyInnerReplace E dst src n off child) s (fun _ _ => True) :=
  fr_bind (fr_ro hs (ro_kids src)) fun _ _ hs1 _ _ => fr_bind (fr_ro hs1 (ro_liftO _)) fun _ _ hs2 _ _ => fr_ite (fun _ => fr_bind (fr_ro hs2 (ro_incAll hg _)) fun _ _ hs3 _ _ =>
    fr_bind (fr_ro hs3 (ro_incAll hg _)) fun _ _ hs4 _ _ => fr_setKids hs4 hp) fun _ => trivial

theorem gr_doCopyInnerReplace {dst src off child : Nat} (hg : E.gc = true) (hs : Fin' s.mem) (hp : Gd A s.mem src) (hc : Gd A s.mem child) : Gr A (doCopyInnerReplace E dst src n off child) s (fun _ _ => True) :=
  gr_bind (gr_kids hs hp) fun _ _ hs1 k1 h1 => gr_bind (gr_slice hs1 h1) fun _ _ hs2 k2 h2 => gr_ite (fun _ => gr_bind (gr_ro hs2 (ro_incAll hg _)) fun _ _ hs3 k3 _ =>
    gr_bind (gr_ro hs3 (ro_incAll hg _)) fun _ _ hs4 k4 _ => gr_setKids hs4 fun _ k hk => by
      rcases List.mem_or_eq_of_mem_set hk with hk | rfl
      · exact k4 _ (k3 _ (h2 k hk))
      · exact k4 _ (k3 _ (k2 _ (k1 _ hc)))) fun _ => trivial

theorem hd_updateV (hg : E.gc = true) (hE : E.Fresh) : ∀ (L p : Nat) (sh : Shp) (s : St Dat T), Held m0 S s.mem → Hd m0 S (updateV c E user f L p sh idx) s (fun _ => True)
  | 0, p, sh, s, hs => by
    unfold VecHeap.updateV
    refine hd_ite (fun _ => hd_bind (hd_ro hs (ro_liftO _)) fun _ _ hs1 _ => hd_bind (fr_hd (fr_copyLeafN hE hs1) fun _ _ h => h.1) fun _ _ hs2 h2 =>
      hd_bind (hd_guard (fr_hd (fr_applyEl hs2 h2) fun _ _ h => h) fun _ hs3 => sv_delLeaf hs3 h2) fun _ _ hs3 _ => hd_ret hs3 trivial) fun _ => trivial
  | L + 1, p, sh, s, hs => by
    unfold VecHeap.updateV
    refine hd_bind (hd_ro hs (ro_liftO _)) fun _ _ hs1 _ => hd_bind (fr_hd (fr_newInner hE hs1) fun _ _ h => h.1) fun _ _ hs2 h2 => ?_
    refine hd_bind (hd_guard (hd_bind (hd_ro hs2 (ro_liftO _)) fun _ _ hs3 _ => hd_bind (hd_ro hs3 (ro_kid _ _)) fun _ _ hs4 _ => hd_updateV hg hE L _ _ _ hs4) fun _ hs3 => sv_delInner hs3 h2) fun _ _ hs3 _ => ?_
    exact hd_bind (fr_hd (fr_doCopyInnerReplace hg hs3 h2) fun _ _ h => h) fun _ _ hs4 _ => hd_ret hs4 trivial

theorem gr_updateV (hg : E.gc = true) (hE : E.Fresh) (h0 : A 0) : ∀ (L p : Nat) (sh : Shp) (s : St Dat T), Fin' s.mem → Gd A s.mem p → Gr A (updateV c E user f L p sh idx) s (Gd A)
  | 0, p, sh, s, hs, hp => by
    unfold VecHeap.updateV
    exact gr_ite (fun _ => gr_bind (gr_ro hs (ro_liftO _)) fun _ _ hs1 _ _ => gr_bind (gr_copyLeafN hE ⟨h0, fun _ h => by cases h⟩ hs1) fun _ _ hs2 _ h2 =>
      gr_bind (gr_guard (gr_applyEl hs2)) fun _ _ hs3 k3 _ => gr_ret hs3 (k3 _ h2)) fun _ => trivial
  | L + 1, p, sh, s, hs, hp => by
    unfold VecHeap.updateV
    refine gr_bind (gr_ro hs (ro_liftO _)) fun _ _ hs1 k1 _ => gr_bind (gr_newInner hE ⟨h0, fun _ h => by cases h⟩ hs1) fun _ _ hs2 k2 h2 => ?_
    have hp2 := k2 _ (k1 _ hp)
    refine gr_bind (gr_guard (gr_bind (gr_ro hs2 (ro_liftO _)) fun _ _ hs3 k3 _ => gr_bind (gr_kid hs3 (k3 _ hp2)) fun _ _ hs4 _ h4 => gr_updateV hg hE h0 L _ _ _ hs4 h4)) fun _ _ hs3 k3 h3 => ?_
    exact gr_bind (gr_doCopyInnerReplace hg hs3 (k3 _ hp2) h3) fun _ _ hs4 k4 _ => gr_ret hs4 (k4 _ (k3 _ h2))

theorem hd_modify {g : Cell Dat T → Cell Dat T} (hs : Held m0 S s.mem) (hp : ¬ Shut m0 S p) : Hd m0 S (Mm.modify p g) s (fun _ => True) := by
  unfold Hd Mm.modify
  cases hx : s.mem p with
  | none => trivial
  | some x => exact ⟨held_upd hs hp, trivial⟩

theorem hd_setTable {r : Option Nat} (hs : Held m0 S s.mem) (hp : ¬ Shut m0 S p) : Hd m0 S (setTable p r) s (fun _ => True) := by
  refine hd_bind (hd_ro hs (ro_cell p)) fun s1 x hs1 _ => ?_
  cases x.data with
  | leaf => trivial
  | table => trivial
  | inner cap r' ks => exact hd_modify hs1 hp

theorem hd_newInnerSr (hg : E.gc = true) (hE : E.Fresh) (hs : Held m0 S s.mem) : Hd m0 S (newInnerSr c E own n t) s (fun p => ¬ Shut m0 S p) :=
  hd_bind (fr_hd (fr_newInner hE hs) fun _ _ h => h.1) fun _ _ hs1 h1 => hd_bind (hd_ro hs1 (ro_inc hg _)) fun _ _ hs2 _ => hd_bind (hd_setTable hs2 h1) fun _ _ hs3 _ => hd_ret hs3 h1

theorem gr_newInnerSr (hg : E.gc = true) (hE : E.Fresh) (ho : OwnOk A own) (hs : Fin' s.mem) (ht : Gd A s.mem t) : Gr A (newInnerSr c E own n t) s (Gd A) :=
  gr_bind (gr_newInner hE ho hs) fun _ _ hs1 k1 h1 => gr_bind (gr_ro hs1 (ro_inc hg _)) fun _ _ hs2 k2 _ => gr_bind (gr_setTable hs2 fun _ h => by cases h; exact k2 _ (k1 _ ht)) fun _ _ hs3 k3 _ => gr_ret hs3 (k3 _ (k2 _ h1))

theorem gr_theTable (hs : Fin' s.mem) (hp : Gd A s.mem p) : Gr A (theTable p) s (Gd A) :=
  gr_bind (gr_tableOf hs hp) fun _ r hs1 _ h1 => gr_ro' hs1 (ro_liftO _) fun b hb => by
    cases r with
    | none => cases hb
    | some t => cases hb; exact h1 _ rfl

theorem ro_relTowards {sz : List Nat} {sh off : Nat} : Ro (relTowards c p sh sz idx off : HM T _) :=
  ro_bind (ro_liftO _) fun _ => ro_bind (ro_liftO _) fun _ => ro_bind (ro_kid _ _) fun _ => ro_bind (ro_kidRel _ _ _) fun _ => ro_ret _

theorem gr_relTowards {sz : List Nat} {sh off : Nat} (hs : Fin' s.mem) (hp : Gd A s.mem p) : Gr A (relTowards c p sh sz idx off) s (fun m r => Gd A m r.1) :=
  gr_bind (gr_ro hs (ro_liftO _)) fun _ _ hs1 k1 _ => gr_bind (gr_ro hs1 (ro_liftO _)) fun _ _ hs2 k2 _ => gr_bind (gr_kid hs2 (k2 _ (k1 _ hp))) fun _ _ hs3 k3 h3 =>
    gr_bind (gr_ro hs3 (ro_kidRel _ _ _)) fun _ _ hs4 k4 _ => gr_ret hs4 (k4 _ h3)

theorem hd_updateR (hg : E.gc = true) (hE : E.Fresh) : ∀ (L p : Nat) (sh : RShp) (idx : Nat) (s : St Dat T), Held m0 S s.mem → Hd m0 S (updateR c E user f L p sh idx) s (fun _ => True)
  | L, p, .reg sh, idx, s, hs => by cases L <;> (unfold updateR; exact hd_updateV hg hE _ _ _ _ hs)
  | 0, _, .rel _ _, _, _, _ => by unfold updateR; trivial
  | L + 1, p, .rel sh sz, idx, s, hs => by
    unfold updateR
    refine hd_bind (hd_ro hs (ro_liftO _)) fun _ _ hs1 _ => hd_bind (hd_ro hs1 (ro_theTable _)) fun _ _ hs2 _ => hd_bind (hd_newInnerSr hg hE hs2) fun _ _ hs3 h3 => ?_
    refine hd_bind (hd_guard (hd_bind (hd_ro hs3 ro_relTowards) fun _ _ hs4 _ => hd_updateR hg hE L _ _ _ _ hs4) fun _ hs4 => sv_delInnerR hg hs4 h3) fun _ _ hs4 _ => ?_
    exact hd_bind (fr_hd (fr_doCopyInnerReplace hg hs4 h3) fun _ _ h => h) fun _ _ hs5 _ => hd_ret hs5 trivial

theorem gr_updateR (hg : E.gc = true) (hE : E.Fresh) (h0 : A 0) : ∀ (L p : Nat) (sh : RShp) (idx : Nat) (s : St Dat T), Fin' s.mem → Gd A s.mem p → Gr A (updateR c E user f L p sh idx) s (Gd A)
  | L, p, .reg sh, idx, s, hs, hp => by cases L <;> (unfold updateR; exact gr_updateV hg hE h0 _ _ _ _ hs hp)
  | 0, _, .rel _ _, _, _, _, _ => by unfold updateR; trivial
  | L + 1, p, .rel sh sz, idx, s, hs, hp => by
    unfold updateR
    refine gr_bind (gr_ro hs (ro_liftO _)) fun _ _ hs1 k1 _ => gr_bind (gr_theTable hs1 (k1 _ hp)) fun _ _ hs2 k2 h2 => gr_bind (gr_newInnerSr hg hE ⟨h0, fun _ h => by cases h⟩ hs2 h2) fun _ _ hs3 k3 h3 => ?_
    have hp3 := k3 _ (k2 _ (k1 _ hp))
    refine gr_bind (gr_guard (gr_bind (gr_relTowards hs3 hp3) fun _ _ hs4 _ h4 => gr_updateR hg hE h0 L _ _ _ _ hs4 h4)) fun _ _ hs4 k4 h4 => ?_
    exact gr_bind (gr_doCopyInnerReplace hg hs4 (k4 _ hp3) h4) fun _ _ hs5 k5 _ => gr_ret hs5 (k5 _ (k4 _ h3))

theorem hd_update (hg : E.gc = true) (hE : E.Fresh) (hs : Held m0 S s.mem) : Hd m0 S (Fc.update c E user f v idx) s (fun _ => True) :=
  hd_bind (hd_ro hs (ro_off v)) fun _ _ hs1 _ => hd_ite
    (fun _ => hd_bind (hd_updateV hg hE _ _ _ _ hs1) fun _ _ hs2 _ => hd_bind (hd_ro hs2 (ro_inc hg _)) fun _ _ hs3 _ => hd_ret hs3 trivial)
    fun _ => hd_bind (hd_ro hs1 (ro_maybeRel _ _ _)) fun _ _ hs2 _ => hd_bind (hd_updateR hg hE _ _ _ _ _ hs2) fun _ _ hs3 _ => hd_bind (hd_ro hs3 (ro_inc hg _)) fun _ _ hs4 _ => hd_ret hs4 trivial

theorem gr_update (hg : E.gc = true) (hE : E.Fresh) (h0 : A 0) (hs : Fin' s.mem) (hv : Gc.VGd A s.mem v) : Gr A (Fc.update c E user f v idx) s (Gc.VGd A) :=
  gr_bind (gr_ro hs (ro_off v)) fun _ _ hs1 k1 _ => gr_ite
    (fun _ => gr_bind (gr_updateV hg hE h0 _ _ _ _ hs1 (k1 _ hv.2)) fun _ _ hs2 k2 h2 => gr_bind (gr_ro hs2 (ro_inc hg _)) fun _ _ hs3 k3 _ => gr_ret hs3 ⟨k3 _ (k2 _ (k1 _ hv.1)), k3 _ h2⟩)
    fun _ => gr_bind (gr_ro hs1 (ro_maybeRel _ _ _)) fun _ _ hs2 k2 _ => gr_bind (gr_updateR hg hE h0 _ _ _ _ _ hs2 (k2 _ (k1 _ hv.1))) fun _ _ hs3 k3 h3 =>
      gr_bind (gr_ro hs3 (ro_inc hg _)) fun _ _ hs4 k4 _ => gr_ret hs4 ⟨k4 _ h3, k4 _ (k3 _ (k2 _ (k1 _ hv.2)))⟩

/-- the leaf that is assigned to may be changed -/
abbrev LeafOk (m0 : Mem Dat T) (S : Nat → Prop) (r : Nat × Nat × Nat) : Prop := ¬ Shut m0 S r.2.1

theorem hd_getMutV (hg : E.gc = true) (hE : E.Fresh) (he : S e) : ∀ (L p : Nat) (sh : Shp) (s : St Dat T), Held m0 S s.mem → Hd m0 S (VecHeap.getMut c E e L p sh idx) s (LeafOk m0 S)
  | 0, p, sh, s, hs => by
    unfold VecHeap.getMut
    refine hd_ite (fun _ => hd_bind (fr_hd (Q := fun b => b = true → ¬ Shut m0 S p) (fr_canMutate hg he hs) fun _ b h => h) fun _ b hs1 hb => hd_ite (fun h => hd_bind (hd_ro hs1 (ro_liftO _)) fun _ _ hs2 _ => hd_ret hs2 (hb h)) fun _ => ?_) fun _ => trivial
    exact hd_bind (fr_hd (fr_copyLeafN hE hs1) fun _ _ h => h.1) fun _ _ hs2 h2 => hd_bind (hd_ro hs2 (ro_decV hg _ _ _)) fun _ _ hs3 _ => hd_bind (hd_ro hs3 (ro_liftO _)) fun _ _ hs4 _ => hd_ret hs4 h2
  | L + 1, p, sh, s, hs => by
    unfold VecHeap.getMut
    refine hd_bind (hd_ro hs (ro_liftO _)) fun _ _ hs0 _ => hd_bind (fr_hd (Q := fun b => b = true → ¬ Shut m0 S p) (fr_canMutate hg he hs0) fun _ b h => h) fun _ b hs1 hb => hd_ite (fun h => ?_) fun _ => ?_
    · exact hd_bind (hd_ro hs1 (ro_liftO _)) fun _ _ hs2 _ => hd_bind (hd_ro hs2 (ro_kid _ _)) fun _ _ hs3 _ => hd_bind (hd_getMutV hg hE he L _ _ _ hs3) fun _ _ hs4 h4 =>
        hd_bind (fr_hd (fr_putKid hs4 (hb h)) fun _ _ h => h) fun _ _ hs5 _ => hd_ret hs5 h4
    · refine hd_bind (fr_hd (fr_newInner hE hs1) fun _ _ h => h.1) fun _ _ hs2 h2 => hd_bind (fr_hd (fr_doCopyInner hg hs2 h2) fun _ _ h => h) fun _ _ hs3 _ => ?_
      refine hd_bind (Q := fun r => ¬ Shut m0 S r.1) (hd_guard (hd_bind (hd_ro hs3 (ro_liftO _)) fun _ _ hs4 _ => hd_bind (hd_ro hs4 (ro_kid _ _)) fun _ _ hs5 _ => hd_bind (hd_getMutV hg hE he L _ _ _ hs5) fun _ _ hs6 h6 =>
        hd_bind (fr_hd (fr_putKid hs6 h2) fun _ _ h => h) fun _ _ hs7 _ => hd_ret hs7 h6) fun _ hs4 => hd_sv (hd_bind (hd_ro hs4 (ro_liftO _)) fun _ _ hs5 _ => hd_ro hs5 (ro_decV hg _ _ _))) fun _ _ hs4 h4 => ?_
      exact hd_bind (hd_ro hs4 (ro_decV hg _ _ _)) fun _ _ hs5 _ => hd_ret hs5 h4

theorem gr_getMutV (hg : E.gc = true) (hE : E.Fresh) (ho : OwnOk A (some e)) : ∀ (L p : Nat) (sh : Shp) (s : St Dat T), Fin' s.mem → Gd A s.mem p → Gr A (VecHeap.getMut c E e L p sh idx) s (fun m r => Gd A m r.1)
  | 0, p, sh, s, hs, hp => by
    unfold VecHeap.getMut
    refine gr_ite (fun _ => gr_bind (gr_canMutate hs) fun _ b hs1 k1 _ => gr_ite (fun h => gr_bind (gr_ro hs1 (ro_liftO _)) fun _ _ hs2 k2 _ => gr_ret hs2 (k2 _ (k1 _ hp))) fun _ => ?_) fun _ => trivial
    exact gr_bind (gr_copyLeafN hE ho hs1) fun _ _ hs2 _ h2 => gr_bind (gr_ro hs2 (ro_decV hg _ _ _)) fun _ _ hs3 k3 _ => gr_bind (gr_ro hs3 (ro_liftO _)) fun _ _ hs4 k4 _ => gr_ret hs4 (k4 _ (k3 _ h2))
  | L + 1, p, sh, s, hs, hp => by
    unfold VecHeap.getMut
    refine gr_bind (gr_ro hs (ro_liftO _)) fun _ _ hs0 k0 _ => gr_bind (gr_canMutate hs0) fun _ b hs1 k1 _ => gr_ite (fun h => ?_) fun _ => ?_
    · exact gr_bind (gr_ro hs1 (ro_liftO _)) fun _ _ hs2 k2 _ => gr_bind (gr_kid hs2 (k2 _ (k1 _ (k0 _ hp)))) fun _ _ hs3 k3 h3 => gr_bind (gr_getMutV hg hE ho L _ _ _ hs3 h3) fun _ _ hs4 k4 h4 =>
        gr_bind (gr_putKid hs4 h4) fun _ _ hs5 k5 _ => gr_ret hs5 (k5 _ (k4 _ (k3 _ (k2 _ (k1 _ (k0 _ hp))))))
    · refine gr_bind (gr_newInner hE ho hs1) fun _ _ hs2 k2 h2 => gr_bind (gr_doCopyInner hg hs2 (k2 _ (k1 _ (k0 _ hp)))) fun _ _ hs3 k3 _ => ?_
      refine gr_bind (Q := fun _ _ => True) (gr_guard (gr_bind (gr_ro hs3 (ro_liftO _)) fun _ _ hs4 k4 _ => gr_bind (gr_kid hs4 (k4 _ (k3 _ (k2 _ (k1 _ (k0 _ hp)))))) fun _ _ hs5 k5 h5 => gr_bind (gr_getMutV hg hE ho L _ _ _ hs5 h5) fun _ _ hs6 k6 h6 =>
        gr_bind (gr_putKid hs6 h6) fun _ _ hs7 _ _ => gr_ret hs7 trivial)) fun _ _ hs4 k4 _ => ?_
      exact gr_bind (gr_ro hs4 (ro_decV hg _ _ _)) fun _ _ hs5 k5 _ => gr_ret hs5 (k5 _ (k4 _ (k3 _ h2)))

theorem hd_getMutR (hg : E.gc = true) (hE : E.Fresh) (he : S e) : ∀ (L p : Nat) (sh : RShp) (idx : Nat) (s : St Dat T), Held m0 S s.mem → Hd m0 S (getMutR c E e L p sh idx) s (LeafOk m0 S)
  | L, p, .reg sh, idx, s, hs => by cases L <;> (unfold getMutR; exact hd_getMutV hg hE he _ _ _ _ hs)
  | 0, _, .rel _ _, _, _, _ => by unfold getMutR; trivial
  | L + 1, p, .rel sh sz, idx, s, hs => by
    unfold getMutR
    refine hd_bind (hd_ro hs (ro_liftO _)) fun _ _ hs0 _ => hd_bind (fr_hd (Q := fun b => b = true → ¬ Shut m0 S p) (fr_canMutate hg he hs0) fun _ b h => h) fun _ b hs1 hb => hd_ite (fun h => ?_) fun _ => ?_
    · exact hd_bind (hd_ro hs1 ro_relTowards) fun _ _ hs3 _ => hd_bind (hd_getMutR hg hE he L _ _ _ _ hs3) fun _ _ hs4 h4 =>
        hd_bind (fr_hd (fr_putKid hs4 (hb h)) fun _ _ h => h) fun _ _ hs5 _ => hd_ret hs5 h4
    · refine hd_bind (hd_ro hs1 (ro_theTable _)) fun _ _ hs2 _ => hd_bind (hd_newInnerSr hg hE hs2) fun _ _ hs3 h3 => hd_bind (fr_hd (fr_doCopyInner hg hs3 h3) fun _ _ h => h) fun _ _ hs4 _ => ?_
      refine hd_bind (Q := fun r => ¬ Shut m0 S r.1) (hd_guard (hd_bind (hd_ro hs4 ro_relTowards) fun _ _ hs5 _ => hd_bind (hd_getMutR hg hE he L _ _ _ _ hs5) fun _ _ hs6 h6 =>
        hd_bind (fr_hd (fr_putKid hs6 h3) fun _ _ h => h) fun _ _ hs7 _ => hd_ret hs7 h6) fun _ hs4 => hd_sv (hd_ro hs4 (ro_decR hg _ _ _))) fun _ _ hs5 h5 => ?_
      exact hd_bind (hd_ro hs5 (ro_decR hg _ _ _)) fun _ _ hs6 _ => hd_ret hs6 h5

theorem gr_getMutR (hg : E.gc = true) (hE : E.Fresh) (ho : OwnOk A (some e)) : ∀ (L p : Nat) (sh : RShp) (idx : Nat) (s : St Dat T), Fin' s.mem → Gd A s.mem p → Gr A (getMutR c E e L p sh idx) s (fun m r => Gd A m r.1)
  | L, p, .reg sh, idx, s, hs, hp => by cases L <;> (unfold getMutR; exact gr_getMutV hg hE ho _ _ _ _ hs hp)
  | 0, _, .rel _ _, _, _, _, _ => by unfold getMutR; trivial
  | L + 1, p, .rel sh sz, idx, s, hs, hp => by
    unfold getMutR
    refine gr_bind (gr_ro hs (ro_liftO _)) fun _ _ hs0 k0 _ => gr_bind (gr_canMutate hs0) fun _ b hs1 k1 _ => gr_ite (fun h => ?_) fun _ => ?_
    · exact gr_bind (gr_relTowards hs1 (k1 _ (k0 _ hp))) fun _ _ hs3 k3 h3 => gr_bind (gr_getMutR hg hE ho L _ _ _ _ hs3 h3) fun _ _ hs4 k4 h4 =>
        gr_bind (gr_putKid hs4 h4) fun _ _ hs5 k5 _ => gr_ret hs5 (k5 _ (k4 _ (k3 _ (k1 _ (k0 _ hp)))))
    · refine gr_bind (gr_theTable hs1 (k1 _ (k0 _ hp))) fun _ _ hs2 k2 h2 => gr_bind (gr_newInnerSr hg hE ho hs2 h2) fun _ _ hs3 k3 h3 => gr_bind (gr_doCopyInner hg hs3 (k3 _ (k2 _ (k1 _ (k0 _ hp))))) fun _ _ hs4 k4 _ => ?_
      refine gr_bind (Q := fun _ _ => True) (gr_guard (gr_bind (gr_relTowards hs4 (k4 _ (k3 _ (k2 _ (k1 _ (k0 _ hp)))))) fun _ _ hs5 k5 h5 => gr_bind (gr_getMutR hg hE ho L _ _ _ _ hs5 h5) fun _ _ hs6 k6 h6 =>
        gr_bind (gr_putKid hs6 h6) fun _ _ hs7 _ _ => gr_ret hs7 trivial)) fun _ _ hs5 k5 _ => ?_
      exact gr_bind (gr_ro hs5 (ro_decR hg _ _ _)) fun _ _ hs6 k6 _ => gr_ret hs6 (k6 _ (k5 _ (k4 _ h3)))

theorem hd_getMut (hg : E.gc = true) (hE : E.Fresh) (he : S e) (hs : Held m0 S s.mem) : Hd m0 S (Fc.getMut c E e v idx) s (fun r => ¬ Shut m0 S r.2.1) :=
  hd_bind (hd_ro hs (ro_off v)) fun _ _ hs1 _ => hd_ite
    (fun _ => hd_bind (fr_hd (Q := fun v => ¬ Shut m0 S v.tail) (fr_mutableTail hg hE he hs1) fun _ _ h => h) fun _ _ hs2 h2 => hd_ret hs2 h2)
    fun _ => hd_bind (hd_ro hs1 (ro_maybeRel _ _ _)) fun _ _ hs2 _ => hd_bind (hd_getMutR hg hE he _ _ _ _ _ hs2) fun _ _ hs3 h3 => hd_ret hs3 h3

theorem gr_getMut (hg : E.gc = true) (hE : E.Fresh) (ho : OwnOk A (some e)) (hs : Fin' s.mem) (hv : Gc.VGd A s.mem v) : Gr A (Fc.getMut c E e v idx) s (fun m r => Gc.VGd A m r.1) :=
  gr_bind (gr_ro hs (ro_off v)) fun _ _ hs1 k1 _ => gr_ite
    (fun _ => gr_bind (gr_mutableTail hg hE ho hs1 (k1 _ hv.2)) fun _ u hs2 k2 h2 => gr_ret hs2 ⟨by rw [h2.1]; exact k2 _ (k1 _ hv.1), h2.2.2.2⟩)
    fun _ => gr_bind (gr_ro hs1 (ro_maybeRel _ _ _)) fun _ _ hs2 k2 _ => gr_bind (gr_getMutR hg hE ho _ _ _ _ _ hs2 (k2 _ (k1 _ hv.1))) fun _ _ hs3 k3 h3 => gr_ret hs3 ⟨h3, k3 _ (k2 _ (k1 _ hv.2))⟩

theorem hd_applyFn {fn : Fn T} (hs : Held m0 S s.mem) (hp : ¬ Shut m0 S p) : Hd m0 S (applyFn fn p i) s (fun _ => True) :=
  hd_bind (fr_hd (fr_moveEl hs hp) fun _ _ h => h) fun _ _ hs1 _ => hd_bind (Q := fun _ => True) (hd_guard (hd_ite (fun _ => fr_hd (fr_tick hs1 _) fun _ _ h => h) fun _ => hd_ret hs1 trivial) fun _ hs2 => fr_sv (fr_assignEl hs2 hp)) fun _ _ hs2 _ =>
    fr_hd (fr_assignEl hs2 hp) fun _ _ h => h

theorem gr_applyFn {fn : Fn T} (hs : Fin' s.mem) : Gr A (applyFn fn p i) s (fun _ _ => True) :=
  gr_bind (gr_moveEl hs) fun _ _ hs1 _ _ => gr_bind (Q := fun _ _ => True) (gr_guard (gr_ite (fun _ => gr_tick hs1 _) fun _ => gr_ret hs1 trivial)) fun _ _ hs2 _ _ => gr_assignEl hs2

end FlexHeap
