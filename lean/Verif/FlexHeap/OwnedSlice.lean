import Verif.FlexHeap.OwnedOps

/-!
# What `take` and `drop` write to, and the nodes they make
-/

namespace FlexHeap
open Mm Rrb VecHeap

variable {T β δ : Type} {c : Cfg} {E : Env Dat T} {m0 : Mem Dat T} {S A : Nat → Prop} {s s' : St Dat T} {p q t e i n idx er et last L : Nat} {own : Option Nat} {v : Vc} {th : Prop} {mu b collapse : Bool} {X : Elem T} {sz : List Nat}

/-- as `Fr`; if `th`, also when it throws -/
def Fx (th : Prop) (m0 : Mem Dat T) (S : Nat → Prop) (x : HM T β) (s : St Dat T) (Q : Mem Dat T → β → Prop) : Prop :=
  match x s with
  | .ok s' b => Held m0 S s'.mem ∧ (∀ p, TabOk m0 S s.mem p → TabOk m0 S s'.mem p) ∧ Q s'.mem b
  | .thrown s' => th → Held m0 S s'.mem
  | .ub => True

section
variable {Q : Mem Dat T → β → Prop} {R : Mem Dat T → δ → Prop}

theorem fx {x : HM T β} (hx : Fr m0 S x s Q) : Fx th m0 S x s Q := by
  unfold Fr at hx
  unfold Fx
  cases hs : x s with
  | ok s1 b => rw [hs] at hx; exact hx
  | thrown s1 => rw [hs] at hx; exact fun _ => hx
  | ub => trivial

theorem fx_bind {x : HM T β} {f : β → HM T δ} (hx : Fx th m0 S x s Q)
    (hf : ∀ s' b, Held m0 S s'.mem → (∀ p, TabOk m0 S s.mem p → TabOk m0 S s'.mem p) → Q s'.mem b → Fx th m0 S (f b) s' R) : Fx th m0 S (x.bind f) s R := by
  unfold Fx M.bind at *
  cases h : x s with
  | ok s1 b =>
    rw [h] at hx
    have h2 := hf s1 b hx.1 hx.2.1 hx.2.2
    simp only
    cases h3 : f b s1 with
    | ok s2 d => rw [h3] at h2; exact ⟨h2.1, fun p hp => h2.2.1 p (hx.2.1 p hp), h2.2.2⟩
    | thrown s2 => rw [h3] at h2; exact h2
    | ub => trivial
  | thrown s1 => rw [h] at hx; exact hx
  | ub => trivial

theorem fx_ite {P : Prop} [Decidable P] {x y : HM T β} (hx : P → Fx th m0 S x s Q) (hy : ¬ P → Fx th m0 S y s Q) : Fx th m0 S (if P then x else y) s Q := by
  split
  · exact hx ‹_›
  · exact hy ‹_›

theorem fx_guard {x : HM T β} {hd : HM T Unit} (hx : Fx th m0 S x s Q) (hh : th → ∀ s', Held m0 S s'.mem → Sv m0 S hd s') : Fx th m0 S (x.guard hd) s Q := by
  unfold Fx M.guard at *
  cases h : x s with
  | ok s1 b => rw [h] at hx; exact hx
  | thrown s1 =>
    rw [h] at hx
    simp only
    cases h3 : hd s1 with
    | ok s2 d =>
      intro ht
      have h2 := hh ht s1 (hx ht)
      unfold Sv at h2
      rw [h3] at h2
      exact h2
    | thrown s2 => trivial
    | ub => trivial
  | ub => trivial

/-- what is claimed of an operation -/
def Hx (th : Prop) (m0 : Mem Dat T) (S : Nat → Prop) (x : HM T β) (s : St Dat T) (Q : β → Prop) : Prop :=
  match x s with
  | .ok s' b => Held m0 S s'.mem ∧ Q b
  | .thrown s' => th → Held m0 S s'.mem
  | .ub => True

theorem fx_hx {x : HM T β} {Q' : β → Prop} (hx : Fx th m0 S x s Q) (h : ∀ m b, Q m b → Q' b) : Hx th m0 S x s Q' := by
  unfold Fx at hx
  unfold Hx
  cases hs : x s with
  | ok s1 b => rw [hs] at hx; exact ⟨hx.1, h _ _ hx.2.2⟩
  | thrown s1 => rw [hs] at hx; exact hx
  | ub => trivial

theorem hd_hx {x : HM T β} {Q : β → Prop} (hx : Hd m0 S x s Q) : Hx th m0 S x s Q := by
  unfold Hd at hx
  unfold Hx
  cases hs : x s with
  | ok s1 b => rw [hs] at hx; exact hx
  | thrown s1 => rw [hs] at hx; exact fun _ => hx
  | ub => trivial

end

theorem gr_destroy1 (hs : Fin' s.mem) : Gr A (destroy1 p i) s (fun _ _ => True) :=
  gr_bind (gr_cell hs p) fun _ _ hs1 _ _ => by
    split
    · exact gr_setEls hs1
    · exact gr_setEls hs1
    · trivial

theorem gr_destroyN : ∀ (n i : Nat) (s : St Dat T), Fin' s.mem → Gr A (destroyN p i n) s (fun _ _ => True)
  | 0, _, _, hs => gr_ret hs trivial
  | n + 1, _, _, hs => gr_bind (gr_destroy1 hs) fun _ _ hs1 _ _ => gr_destroyN n _ _ hs1

theorem fr_mutTableOk {k : Kind} (hg : E.gc = true) (hE : E.Fresh) (he : S e) (hs : Held m0 S s.mem) (hp : ¬ Shut m0 S p) : Fr m0 S (mutTable c E k e p n) s (fun m _ => TabOk m0 S m p) := by
  refine fr_bind (Q := fun m t => ¬ Shut m0 S t → TabOk m0 S m p) (fr_bind (Gc.fr_tableOf hs) fun s1 r hs1 _ h1 => ?_) fun s1 t hs1 k1 h1 => fr_bind (fr_canMutate hg he hs1) fun s2 b hs2 k2 hb => ?_
  · cases r with
    | none => trivial
    | some t => exact fr_ret hs1 (h1 t rfl)
  refine fr_ite (fun h => fr_ret hs2 (k2 _ (h1 (hb h)))) fun _ => ?_
  refine fr_bind (fr_newTableK hE hs2) fun s3 t' hs3 _ h3 => fr_bind (fr_ro hs3 (ro_sizesOf t)) fun s4 _ hs4 _ _ => fr_bind (fr_ro hs4 (ro_liftO _)) fun s5 _ hs5 _ _ =>
    fr_bind (fr_setSizes hs5 h3.1) fun s6 _ hs6 _ _ => ?_
  refine fr_bind (fr_dec hg hs6) fun s7 b hs7 _ hb => ?_
  subst hb
  exact fr_bind (fr_ret (Q := fun _ _ => True) hs7 trivial) fun s8 _ hs8 _ _ => fr_bind (fr_setTok hs8 h3.1) fun s9 _ hs9 _ _ =>
    fr_bind (fr_setTable hs9 hp fun _ h => by cases h; exact h3.1) fun _ _ hs10 _ h10 => fr_ret hs10 h10

/-! ### Reading -/

theorem ro_eachDo {f : Nat → Shp → HM T Unit} (hf : ∀ p sh, Ro (f p sh)) : ∀ ps shs, Ro (eachDo f ps shs)
  | _, [] => by unfold eachDo; exact ro_ret _
  | p :: ps, sh :: shs => ro_bind (hf p sh) fun _ => ro_eachDo hf ps shs
  | [], _ :: _ => ro_undef

theorem ro_relEach {f : Nat → RShp → HM T Unit} {sh : Nat} (hf : ∀ p sh, Ro (f p sh)) : ∀ prev ps es, Ro (relEach c f sh prev ps es)
  | _, _, [] => by unfold relEach; exact ro_ret _
  | _, q :: qs, e :: es => ro_bind (ro_kidRel _ _ _) fun _ => ro_bind (hf _ _) fun _ => ro_relEach hf _ qs es
  | _, [], _ :: _ => ro_undef

theorem ro_decRest {sh : Shp} (hg : E.gc = true) : Ro (decRest c E L p sh i) := ro_bind (ro_liftO _) fun _ => ro_bind (ro_kids _) fun _ => ro_eachDo (fun _ _ => ro_decV hg _ _ _) _ _
theorem ro_decRight {sh : Shp} (hg : E.gc = true) : Ro (decRight c E L p sh i) := ro_dec hg p (ro_ret _)
theorem ro_decRestR {sh : Nat} (hg : E.gc = true) : Ro (decRestR c E L p sh sz i) :=
  ro_ite (ro_bind (ro_liftO _) fun _ => ro_bind (ro_kids _) fun _ => ro_relEach (fun _ _ => ro_decR hg _ _ _) _ _ _) ro_undef
theorem ro_decRightR {sh : Nat} (hg : E.gc = true) : Ro (decRightR c E L p sh sz i) := ro_dec hg p (ro_ret _)
theorem ro_decFirst {sh : RShp} (hg : E.gc = true) : Ro (decFirst c E L p sh i) := by
  cases sh with
  | reg sh => exact ro_bind (ro_liftO _) fun _ => ro_bind (ro_kids _) fun _ => ro_eachDo (fun _ _ => ro_decV hg _ _ _) _ _
  | rel s sz => exact ro_bind (ro_liftO _) fun _ => ro_bind (ro_kids _) fun _ => ro_relEach (fun _ _ => ro_decR hg _ _ _) _ _ _
theorem ro_decLeft {sh : RShp} (hg : E.gc = true) : Ro (decLeft c E L p sh i) := ro_dec hg p (ro_ret _)
theorem ro_when {x : HM T Unit} (hx : Ro x) : Ro (if mu then x else M.ret ()) := ro_ite hx (ro_ret _)
theorem ro_unless {x : HM T Unit} (hx : Ro x) : Ro (if mu then M.ret () else x) := ro_ite (ro_ret _) hx
theorem ro_decLeaf (hg : E.gc = true) : Ro (decLeaf c E p n) := ro_decV hg _ _ _

theorem ro_sliceCatch {sh : Shp} {r : Sliced} (hg : E.gc = true) : Ro (sliceCatch c E L sh last r) :=
  ro_bind (by split <;> [exact ro_decV hg _ _ _; exact ro_ret _]) fun _ => ro_decLeaf hg
theorem ro_sliceCatchR {sh : Nat} {r : Sliced} (hg : E.gc = true) : Ro (sliceCatchR c E L sh sz last idx r) :=
  ro_bind (by split <;> [exact ro_bind (ro_liftO _) fun _ => ro_decInner hg _ _ _ _; exact ro_ret _]) fun _ => ro_decLeaf hg

theorem fr_mayMutate (hg : E.gc = true) (he : Ed S own) (hs : Held m0 S s.mem) : Fr m0 S (mayMutate E own mu p) s (fun _ b => b = true → ¬ Shut m0 S p ∧ ∃ e, own = some e ∧ S e) := by
  cases own with
  | none => exact fr_ret hs fun h => by cases h
  | some e => exact fr_ite (fun _ => fr_mono (fr_canMutate hg (he e rfl) hs) fun _ b h hb => ⟨h hb, e, rfl, he e rfl⟩) fun _ => fr_ret hs fun h => by cases h

theorem gr_mayMutate (hs : Fin' s.mem) : Gr A (mayMutate E own mu p) s (fun _ _ => True) := by
  cases own with
  | none => exact gr_ret hs trivial
  | some e => exact gr_ite (fun _ => gr_canMutate hs) fun _ => gr_ret hs trivial

theorem fr_cutKids (hs : Held m0 S s.mem) (hp : ¬ Shut m0 S p) : Fr m0 S (cutKids p n) s (fun _ _ => True) :=
  fr_bind (fr_ro hs (ro_kids p)) fun _ _ hs1 _ _ => fr_setKids hs1 hp

theorem gr_cutKids (hs : Fin' s.mem) (hp : Gd A s.mem p) : Gr A (cutKids p n) s (fun _ _ => True) :=
  gr_bind (gr_kids hs hp) fun _ _ hs1 _ h1 => gr_setKids hs1 fun _ k hk => h1 k (List.mem_of_mem_take hk)

theorem ownSome (h : OwnOk A own) : OwnOk A (some (own.getD 0)) := ⟨h.1, fun e he => by
  cases he
  cases own with
  | none => exact h.1
  | some e => exact h.2 e rfl⟩

/-! ### `take` -/

theorem fr_sliceNode {sh : Shp} {r : Sliced} (hg : E.gc = true) (hE : E.Fresh) (hs : Held m0 S s.mem) (hb : b = true → ¬ Shut m0 S p) : Fr m0 S (sliceNode c E own mu b collapse L p sh idx r) s (fun _ _ => True) := by
  unfold sliceNode
  split
  · refine fr_ite (fun h => ?_) fun _ => ?_
    · exact fr_bind (fr_putKid hs (hb h)) fun _ _ hs1 _ _ => fr_bind (fr_ro hs1 (ro_decRest hg)) fun _ _ hs2 _ _ => fr_bind (fr_cutKids hs2 (hb h)) fun _ _ hs3 _ _ => fr_ret hs3 trivial
    · exact fr_bind (fr_newInner hE hs) fun _ _ hs1 _ h1 => fr_bind (fr_doCopyInner hg hs1 h1.1) fun _ _ hs2 _ _ => fr_bind (fr_putKid hs2 h1.1) fun _ _ hs3 _ _ => fr_bind (fr_ro hs3 (ro_when (ro_decV hg _ _ _))) fun _ _ hs4 _ _ => fr_ret hs4 trivial
  · refine fr_ite (fun _ => fr_bind (fr_ro hs (ro_when (ro_decRight hg))) fun _ _ hs1 _ _ => fr_ret hs1 trivial) fun _ => fr_ite (fun _ => ?_) fun _ => fr_ite (fun h => ?_) fun _ => ?_
    · exact fr_bind (fr_ro hs (ro_kid _ _)) fun _ _ hs1 _ _ => fr_bind (fr_ro hs1 (ro_unless (ro_inc hg _))) fun _ _ hs2 _ _ => fr_bind (fr_ro hs2 (ro_when (ro_decRight hg))) fun _ _ hs3 _ _ => fr_ret hs3 trivial
    · exact fr_bind (fr_ro hs (ro_decRest hg)) fun _ _ hs2 _ _ => fr_bind (fr_cutKids hs2 (hb h)) fun _ _ hs3 _ _ => fr_ret hs3 trivial
    · exact fr_bind (fr_newInner hE hs) fun _ _ hs1 _ h1 => fr_bind (fr_doCopyInner hg hs1 h1.1) fun _ _ hs2 _ _ => fr_bind (fr_ro hs2 (ro_when (ro_decV hg _ _ _))) fun _ _ hs4 _ _ => fr_ret hs4 trivial

/-- the nodes of what the visitors return -/
def SlGd (A : Nat → Prop) (m : Mem Dat T) (r : Sliced) : Prop := GdO A m r.2.1 ∧ Gd A m r.2.2.2

theorem SlGd.keep {r : Sliced} (h : SlGd A s.mem r) (k : ∀ p, Gd A s.mem p → Gd A s'.mem p) : SlGd A s'.mem r := ⟨fun p hp => k _ (h.1 p hp), k _ h.2⟩

theorem gr_sliceNode {sh : Shp} {r : Sliced} (hg : E.gc = true) (hE : E.Fresh) (ho : OwnOk A own) (hs : Fin' s.mem) (hp : Gd A s.mem p) (hr : SlGd A s.mem r) : Gr A (sliceNode c E own mu b collapse L p sh idx r) s (SlGd A) := by
  have one : ∀ {m : Mem Dat T} {q : Nat}, Gd A m q → GdO A m (some q) := fun h _ h2 => by cases h2; exact h
  unfold sliceNode
  split
  · rename_i next hn
    have hx := hr.1 next hn
    refine gr_ite (fun h => ?_) fun _ => ?_
    · exact gr_bind (gr_putKid hs hx) fun _ _ hs1 k1 _ => gr_bind (gr_ro hs1 (ro_decRest hg)) fun _ _ hs2 k2 _ => gr_bind (gr_cutKids hs2 (k2 _ (k1 _ hp))) fun _ _ hs3 k3 _ => gr_ret hs3 ⟨one (k3 _ (k2 _ (k1 _ hp))), k3 _ (k2 _ (k1 _ hr.2))⟩
    · exact gr_bind (gr_newInner hE ho hs) fun _ _ hs1 k1 h1 => gr_bind (gr_doCopyInner hg hs1 (k1 _ hp)) fun _ _ hs2 k2 _ => gr_bind (gr_putKid hs2 (k2 _ (k1 _ hx))) fun _ _ hs3 k3 _ => gr_bind (gr_ro hs3 (ro_when (ro_decV hg _ _ _))) fun _ _ hs4 k4 _ =>
        gr_ret hs4 ⟨one (k4 _ (k3 _ (k2 _ h1))), k4 _ (k3 _ (k2 _ (k1 _ hr.2)))⟩
  · refine gr_ite (fun _ => gr_bind (gr_ro hs (ro_when (ro_decRight hg))) fun _ _ hs1 k1 _ => gr_ret hs1 ⟨fun _ h => (by cases h), k1 _ hr.2⟩) fun _ => gr_ite (fun _ => ?_) fun _ => gr_ite (fun h => ?_) fun _ => ?_
    · exact gr_bind (gr_kid hs hp) fun _ _ hs1 k1 h1 => gr_bind (gr_ro hs1 (ro_unless (ro_inc hg _))) fun _ _ hs2 k2 _ => gr_bind (gr_ro hs2 (ro_when (ro_decRight hg))) fun _ _ hs3 k3 _ => gr_ret hs3 ⟨one (k3 _ (k2 _ h1)), k3 _ (k2 _ (k1 _ hr.2))⟩
    · exact gr_bind (gr_ro hs (ro_decRest hg)) fun _ _ hs2 k2 _ => gr_bind (gr_cutKids hs2 (k2 _ hp)) fun _ _ hs3 k3 _ => gr_ret hs3 ⟨one (k3 _ (k2 _ hp)), k3 _ (k2 _ hr.2)⟩
    · exact gr_bind (gr_newInner hE ho hs) fun _ _ hs1 k1 h1 => gr_bind (gr_doCopyInner hg hs1 (k1 _ hp)) fun _ _ hs2 k2 _ => gr_bind (gr_ro hs2 (ro_when (ro_decV hg _ _ _))) fun _ _ hs4 k4 _ => gr_ret hs4 ⟨one (k4 _ (k2 _ h1)), k4 _ (k2 _ (k1 _ hr.2))⟩

theorem fr_sliceRight (hg : E.gc = true) (hE : E.Fresh) (he : Ed S own) : ∀ (L : Nat) (mu collapse : Bool) (p : Nat) (sh : Shp) (s : St Dat T), Held m0 S s.mem → Fr m0 S (sliceRight c E own mu collapse L p sh last) s (fun _ _ => True)
  | 0, mu, collapse, p, sh, s, hs => by
    unfold VecHeap.sliceRight
    refine fr_ite (fun _ => fr_bind (fr_ro hs (ro_liftO _)) fun _ _ hs1 _ _ => fr_bind (fr_mayMutate hg he hs1) fun _ b hs2 _ hb => ?_) fun _ => trivial
    refine fr_ite (fun _ => fr_bind (fr_ro hs2 (ro_unless (ro_inc hg _))) fun _ _ hs3 _ _ => fr_ret hs3 trivial) fun _ => fr_ite (fun h => fr_bind (fr_destroyN (hb h).1 _ _ _ hs2) fun _ _ hs3 _ _ => fr_ret hs3 trivial) fun _ => ?_
    exact fr_bind (fr_copyLeafN hE hs2) fun _ _ hs3 _ _ => fr_bind (fr_ro hs3 (ro_when (ro_decV hg _ _ _))) fun _ _ hs4 _ _ => fr_ret hs4 trivial
  | L + 1, mu, collapse, p, sh, s, hs => by
    unfold VecHeap.sliceRight
    refine fr_bind (fr_ro hs (ro_liftO _)) fun _ _ hs1 _ _ => fr_bind (fr_mayMutate hg he hs1) fun _ b hs2 _ hb => fr_bind (fr_ro hs2 (ro_liftO _)) fun _ _ hs3 _ _ => fr_bind (fr_ro hs3 (ro_kid _ _)) fun _ _ hs4 _ _ => ?_
    refine fr_ite (fun _ => fr_bind (fr_sliceRight hg hE he L _ _ _ _ _ hs4) fun _ _ hs5 _ _ => fr_bind (fr_ro hs5 (ro_when (ro_decRight hg))) fun _ _ hs6 _ _ => fr_ret hs6 trivial) fun _ => ?_
    exact fr_bind (fr_sliceRight hg hE he L _ _ _ _ _ hs4) fun _ _ hs5 _ _ => fr_guard (fr_sliceNode hg hE hs5 fun h => (hb h).1) fun _ hs6 => fr_sv (fr_ro hs6 (ro_sliceCatch hg))

theorem gr_sliceRight (hg : E.gc = true) (hE : E.Fresh) (ho : OwnOk A own) : ∀ (L : Nat) (mu collapse : Bool) (p : Nat) (sh : Shp) (s : St Dat T), Fin' s.mem → Gd A s.mem p → Gr A (sliceRight c E own mu collapse L p sh last) s (SlGd A)
  | 0, mu, collapse, p, sh, s, hs, hp => by
    unfold VecHeap.sliceRight
    refine gr_ite (fun _ => gr_bind (gr_ro hs (ro_liftO _)) fun _ _ hs1 k1 _ => gr_bind (gr_mayMutate hs1) fun _ b hs2 k2 _ => ?_) fun _ => trivial
    have hp2 := k2 _ (k1 _ hp)
    refine gr_ite (fun _ => gr_bind (gr_ro hs2 (ro_unless (ro_inc hg _))) fun _ _ hs3 k3 _ => gr_ret hs3 ⟨fun _ h => (by cases h), k3 _ hp2⟩) fun _ => gr_ite (fun h => gr_bind (gr_destroyN _ _ _ hs2) fun _ _ hs3 k3 _ => gr_ret hs3 ⟨fun _ h => (by cases h), k3 _ hp2⟩) fun _ => ?_
    exact gr_bind (gr_copyLeafN hE ho hs2) fun _ _ hs3 _ h3 => gr_bind (gr_ro hs3 (ro_when (ro_decV hg _ _ _))) fun _ _ hs4 k4 _ => gr_ret hs4 ⟨fun _ h => (by cases h), k4 _ h3⟩
  | L + 1, mu, collapse, p, sh, s, hs, hp => by
    unfold VecHeap.sliceRight
    refine gr_bind (gr_ro hs (ro_liftO _)) fun _ _ hs1 k1 _ => gr_bind (gr_mayMutate hs1) fun _ b hs2 k2 _ => gr_bind (gr_ro hs2 (ro_liftO _)) fun _ _ hs3 k3 _ => gr_bind (gr_kid hs3 (k3 _ (k2 _ (k1 _ hp)))) fun _ _ hs4 k4 h4 => ?_
    have hp4 := k4 _ (k3 _ (k2 _ (k1 _ hp)))
    refine gr_ite (fun _ => gr_bind (gr_sliceRight hg hE ho L _ _ _ _ _ hs4 h4) fun _ _ hs5 _ h5 => gr_bind (gr_ro hs5 (ro_when (ro_decRight hg))) fun _ _ hs6 k6 _ => gr_ret hs6 (h5.keep k6)) fun _ => ?_
    exact gr_bind (gr_sliceRight hg hE ho L _ _ _ _ _ hs4 h4) fun _ _ hs5 k5 h5 => gr_guard (gr_sliceNode hg hE ho hs5 (k5 _ hp4) h5)

theorem fr_sliceNodeR {sh : Nat} {r : Sliced} (hg : E.gc = true) (hE : E.Fresh) (hs : Held m0 S s.mem) (hb : b = true → ¬ Shut m0 S p ∧ ∃ e, own = some e ∧ S e) : Fr m0 S (sliceNodeR c E own mu b collapse L p sh sz last idx r) s (fun _ _ => True) := by
  have hS : b = true → S (own.getD 0) := fun h => by
    obtain ⟨_, e, rfl, h⟩ := hb h
    exact h
  unfold sliceNodeR
  split
  · refine fr_ite (fun h => ?_) fun _ => ?_
    · exact fr_bind (fr_mutTable hg hE (hS h) hs (hb h).1) fun _ _ hs0 _ h0 => fr_bind (fr_ro hs0 (ro_decRestR hg)) fun _ _ hs2 _ _ => fr_bind (fr_putKid hs2 (hb h).1) fun _ _ hs1 _ _ => fr_bind (fr_cutKids hs1 (hb h).1) fun _ _ hs3 _ _ =>
        fr_bind (fr_ro hs3 (ro_sizesOf _)) fun _ _ hs4 _ _ => fr_bind (fr_ro hs4 (ro_liftO _)) fun _ _ hs5 _ _ => fr_bind (fr_setSizes hs5 h0) fun _ _ hs6 _ _ => fr_ret hs6 trivial
    · exact fr_bind (fr_newInnerR hE hs) fun _ _ hs1 _ h1 => fr_bind (fr_doCopyInnerR hg hs1 h1) fun _ _ hs2 k2 _ => fr_bind (fr_theTable hs2 (k2 _ h1.2)) fun _ _ hs3 _ h3 => fr_bind (fr_putKid hs3 h1.1) fun _ _ hs4 _ _ =>
        fr_bind (fr_ro hs4 (ro_sizesOf _)) fun _ _ hs5 _ _ => fr_bind (fr_setSizes hs5 h3) fun _ _ hs6 _ _ => fr_bind (fr_ro hs6 (ro_when (ro_decR hg _ _ _))) fun _ _ hs7 _ _ => fr_ret hs7 trivial
  · refine fr_ite (fun _ => fr_bind (fr_ro hs (ro_when (ro_decRightR hg))) fun _ _ hs1 _ _ => fr_ret hs1 trivial) fun _ => fr_ite (fun _ => ?_) fun _ => fr_ite (fun h => ?_) fun _ => ?_
    · exact fr_bind (fr_ro hs (ro_kid _ _)) fun _ _ hs1 _ _ => fr_bind (fr_ro hs1 (ro_unless (ro_inc hg _))) fun _ _ hs2 _ _ => fr_bind (fr_ro hs2 (ro_when (ro_decRightR hg))) fun _ _ hs3 _ _ => fr_ret hs3 trivial
    · exact fr_bind (fr_ro hs (ro_decRestR hg)) fun _ _ hs2 _ _ => fr_bind (fr_mutTable hg hE (hS h) hs2 (hb h).1) fun _ _ hs3 _ h3 => fr_bind (fr_cutKids hs3 (hb h).1) fun _ _ hs4 _ _ =>
        fr_bind (fr_ro hs4 (ro_sizesOf _)) fun _ _ hs5 _ _ => fr_bind (fr_ro hs5 (ro_liftO _)) fun _ _ hs6 _ _ => fr_bind (fr_setSizes hs6 h3) fun _ _ hs7 _ _ => fr_ret hs7 trivial
    · exact fr_bind (fr_newInnerR hE hs) fun _ _ hs1 _ h1 => fr_bind (fr_doCopyInnerR hg hs1 h1) fun _ _ hs2 _ _ => fr_bind (fr_ro hs2 (ro_when (ro_decR hg _ _ _))) fun _ _ hs4 _ _ => fr_ret hs4 trivial

theorem gr_sliceNodeR {sh : Nat} {r : Sliced} (hg : E.gc = true) (hE : E.Fresh) (ho : OwnOk A own) (hs : Fin' s.mem) (hp : Gd A s.mem p) (hr : SlGd A s.mem r) : Gr A (sliceNodeR c E own mu b collapse L p sh sz last idx r) s (SlGd A) := by
  have one : ∀ {m : Mem Dat T} {q : Nat}, Gd A m q → GdO A m (some q) := fun h _ h2 => by cases h2; exact h
  unfold sliceNodeR
  split
  · rename_i next hn
    have hx := hr.1 next hn
    refine gr_ite (fun h => ?_) fun _ => ?_
    · exact gr_bind (gr_mutTable hg hE (ownSome ho) hs) fun _ _ hs0 k0 _ => gr_bind (gr_ro hs0 (ro_decRestR hg)) fun _ _ hs2 k2 _ => gr_bind (gr_putKid hs2 (k2 _ (k0 _ hx))) fun _ _ hs1 k1 _ => gr_bind (gr_cutKids hs1 (k1 _ (k2 _ (k0 _ hp)))) fun _ _ hs3 k3 _ =>
        gr_bind (gr_ro hs3 (ro_sizesOf _)) fun _ _ hs4 k4 _ => gr_bind (gr_ro hs4 (ro_liftO _)) fun _ _ hs5 k5 _ => gr_bind (gr_setSizes hs5) fun _ _ hs6 k6 _ => gr_ret hs6
          ⟨one (k6 _ (k5 _ (k4 _ (k3 _ (k1 _ (k2 _ (k0 _ hp))))))), k6 _ (k5 _ (k4 _ (k3 _ (k1 _ (k2 _ (k0 _ hr.2))))))⟩
    · exact gr_bind (gr_newInnerR hE ho hs) fun _ _ hs1 k1 h1 => gr_bind (gr_doCopyInnerR hg hs1 (k1 _ hp)) fun _ _ hs2 k2 _ => gr_bind (gr_ro hs2 (ro_theTable _)) fun _ _ hs3 k3 _ => gr_bind (gr_putKid hs3 (k3 _ (k2 _ (k1 _ hx)))) fun _ _ hs4 k4 _ =>
        gr_bind (gr_ro hs4 (ro_sizesOf _)) fun _ _ hs5 k5 _ => gr_bind (gr_setSizes hs5) fun _ _ hs6 k6 _ => gr_bind (gr_ro hs6 (ro_when (ro_decR hg _ _ _))) fun _ _ hs7 k7 _ => gr_ret hs7
          ⟨one (k7 _ (k6 _ (k5 _ (k4 _ (k3 _ (k2 _ h1)))))), k7 _ (k6 _ (k5 _ (k4 _ (k3 _ (k2 _ (k1 _ hr.2))))))⟩
  · refine gr_ite (fun _ => gr_bind (gr_ro hs (ro_when (ro_decRightR hg))) fun _ _ hs1 k1 _ => gr_ret hs1 ⟨fun _ h => (by cases h), k1 _ hr.2⟩) fun _ => gr_ite (fun _ => ?_) fun _ => gr_ite (fun h => ?_) fun _ => ?_
    · exact gr_bind (gr_kid hs hp) fun _ _ hs1 k1 h1 => gr_bind (gr_ro hs1 (ro_unless (ro_inc hg _))) fun _ _ hs2 k2 _ => gr_bind (gr_ro hs2 (ro_when (ro_decRightR hg))) fun _ _ hs3 k3 _ => gr_ret hs3 ⟨one (k3 _ (k2 _ h1)), k3 _ (k2 _ (k1 _ hr.2))⟩
    · exact gr_bind (gr_ro hs (ro_decRestR hg)) fun _ _ hs2 k2 _ => gr_bind (gr_mutTable hg hE (ownSome ho) hs2) fun _ _ hs3 k3 _ => gr_bind (gr_cutKids hs3 (k3 _ (k2 _ hp))) fun _ _ hs4 k4 _ =>
        gr_bind (gr_ro hs4 (ro_sizesOf _)) fun _ _ hs5 k5 _ => gr_bind (gr_ro hs5 (ro_liftO _)) fun _ _ hs6 k6 _ => gr_bind (gr_setSizes hs6) fun _ _ hs7 k7 _ => gr_ret hs7
          ⟨one (k7 _ (k6 _ (k5 _ (k4 _ (k3 _ (k2 _ hp)))))), k7 _ (k6 _ (k5 _ (k4 _ (k3 _ (k2 _ hr.2)))))⟩
    · exact gr_bind (gr_newInnerR hE ho hs) fun _ _ hs1 k1 h1 => gr_bind (gr_doCopyInnerR hg hs1 (k1 _ hp)) fun _ _ hs2 k2 _ => gr_bind (gr_ro hs2 (ro_when (ro_decR hg _ _ _))) fun _ _ hs4 k4 _ => gr_ret hs4 ⟨one (k4 _ (k2 _ h1)), k4 _ (k2 _ (k1 _ hr.2))⟩

theorem fr_sliceRightR (hg : E.gc = true) (hE : E.Fresh) (he : Ed S own) : ∀ (L : Nat) (mu collapse : Bool) (p : Nat) (sh : RShp) (last : Nat) (s : St Dat T), Held m0 S s.mem → Fr m0 S (sliceRightR c E own mu collapse L p sh last) s (fun _ _ => True)
  | L, mu, collapse, p, .reg sh, last, s, hs => by cases L <;> (unfold sliceRightR; exact fr_sliceRight hg hE he _ _ _ _ _ _ hs)
  | 0, _, _, _, .rel _ _, _, _, _ => by unfold sliceRightR; trivial
  | L + 1, mu, collapse, p, .rel sh sz, last, s, hs => by
    unfold sliceRightR
    refine fr_bind (fr_ro hs (ro_liftO _)) fun _ _ hs1 _ _ => fr_bind (fr_mayMutate hg he hs1) fun _ b hs2 _ hb => fr_bind (fr_ro hs2 ro_relTowards) fun _ _ hs4 _ _ => ?_
    refine fr_ite (fun _ => fr_bind (fr_sliceRightR hg hE he L _ _ _ _ _ _ hs4) fun _ _ hs5 _ _ => fr_bind (fr_ro hs5 (ro_when (ro_decRightR hg))) fun _ _ hs6 _ _ => fr_ret hs6 trivial) fun _ => ?_
    exact fr_bind (fr_sliceRightR hg hE he L _ _ _ _ _ _ hs4) fun _ _ hs5 _ _ => fr_guard (fr_sliceNodeR hg hE hs5 hb) fun _ hs6 => fr_sv (fr_ro hs6 (ro_sliceCatchR hg))

theorem gr_sliceRightR (hg : E.gc = true) (hE : E.Fresh) (ho : OwnOk A own) : ∀ (L : Nat) (mu collapse : Bool) (p : Nat) (sh : RShp) (last : Nat) (s : St Dat T), Fin' s.mem → Gd A s.mem p → Gr A (sliceRightR c E own mu collapse L p sh last) s (SlGd A)
  | L, mu, collapse, p, .reg sh, last, s, hs, hp => by cases L <;> (unfold sliceRightR; exact gr_sliceRight hg hE ho _ _ _ _ _ _ hs hp)
  | 0, _, _, _, .rel _ _, _, _, _, _ => by unfold sliceRightR; trivial
  | L + 1, mu, collapse, p, .rel sh sz, last, s, hs, hp => by
    unfold sliceRightR
    refine gr_bind (gr_ro hs (ro_liftO _)) fun _ _ hs1 k1 _ => gr_bind (gr_mayMutate hs1) fun _ b hs2 k2 _ => gr_bind (gr_relTowards hs2 (k2 _ (k1 _ hp))) fun _ _ hs4 k4 h4 => ?_
    have hp4 := k4 _ (k2 _ (k1 _ hp))
    refine gr_ite (fun _ => gr_bind (gr_sliceRightR hg hE ho L _ _ _ _ _ _ hs4 h4) fun _ _ hs5 _ h5 => gr_bind (gr_ro hs5 (ro_when (ro_decRightR hg))) fun _ _ hs6 k6 _ => gr_ret hs6 (h5.keep k6)) fun _ => ?_
    exact gr_bind (gr_sliceRightR hg hE ho L _ _ _ _ _ _ hs4 h4) fun _ _ hs5 k5 h5 => gr_guard (gr_sliceNodeR hg hE ho hs5 (k5 _ hp4) h5)

theorem ro_empty (hg : E.gc = true) : Ro (Vc.empty c E er et) := ro_bind (ro_inc hg _) fun _ => ro_bind (ro_inc hg _) fun _ => ro_ret _
theorem ro_share (hg : E.gc = true) : Ro (v.share E) := ro_bind (ro_inc hg _) fun _ => ro_inc hg _
theorem ro_drop (hg : E.gc = true) : Ro (Fc.drop c E v) := ro_bind (ro_off v) fun _ => ro_bind (ro_ite (ro_decInner hg _ _ _ _) (ro_decEmpty hg _)) fun _ => ro_decLeaf hg

theorem gr_empty (hg : E.gc = true) (hs : Fin' s.mem) (hr : Gd A s.mem er) (ht : Gd A s.mem et) : Gr A (Vc.empty c E er et) s (Gc.VGd A) :=
  gr_bind (gr_ro hs (ro_inc hg _)) fun _ _ hs1 k1 _ => gr_bind (gr_ro hs1 (ro_inc hg _)) fun _ _ hs2 k2 _ => gr_ret hs2 ⟨k2 _ (k1 _ hr), k2 _ (k1 _ ht)⟩

theorem VGd.keep (h : Gc.VGd A s.mem v) (k : ∀ p, Gd A s.mem p → Gd A s'.mem p) : Gc.VGd A s'.mem v := ⟨k _ h.1, k _ h.2⟩

theorem fr_take (hg : E.gc = true) (hE : E.Fresh) (hs : Held m0 S s.mem) : Fr m0 S (Fc.take c E er et v n) s (fun _ _ => True) := by
  refine fr_bind (fr_ro hs (ro_off v)) fun _ _ hs1 _ _ => fr_ite (fun _ => fr_ro hs1 (ro_empty hg)) fun _ => fr_ite (fun _ => fr_bind (fr_ro hs1 (ro_share hg)) fun _ _ hs2 _ _ => fr_ret hs2 trivial) fun _ => fr_ite (fun _ => ?_) fun _ => ?_
  · exact fr_bind (fr_copyLeafN hE hs1) fun _ _ hs2 _ _ => fr_bind (fr_ro hs2 (ro_inc hg _)) fun _ _ hs3 _ _ => fr_ret hs3 trivial
  · refine fr_bind (fr_ro hs1 (ro_maybeRel _ _ _)) fun _ _ hs2 _ _ => fr_bind (fr_sliceRightR hg hE (fun _ h => by cases h) _ _ _ _ _ _ _ hs2) fun _ _ hs3 _ _ => ?_
    split
    · exact fr_ret hs3 trivial
    · exact fr_bind (fr_ro hs3 (ro_inc hg _)) fun _ _ hs4 _ _ => fr_ret hs4 trivial

theorem gr_take (hg : E.gc = true) (hE : E.Fresh) (h0 : A 0) (hs : Fin' s.mem) (hv : Gc.VGd A s.mem v) (hr : Gd A s.mem er) (ht : Gd A s.mem et) : Gr A (Fc.take c E er et v n) s (Gc.VGd A) := by
  have ho : OwnOk A none := ⟨h0, fun _ h => by cases h⟩
  refine gr_bind (gr_ro hs (ro_off v)) fun _ _ hs1 k1 _ => gr_ite (fun _ => gr_empty hg hs1 (k1 _ hr) (k1 _ ht)) fun _ => gr_ite (fun _ => gr_bind (gr_ro hs1 (ro_share hg)) fun _ _ hs2 k2 _ => gr_ret hs2 (VGd.keep (VGd.keep hv k1) k2)) fun _ => gr_ite (fun _ => ?_) fun _ => ?_
  · exact gr_bind (gr_copyLeafN hE ho hs1) fun _ _ hs2 k2 h2 => gr_bind (gr_ro hs2 (ro_inc hg _)) fun _ _ hs3 k3 _ => gr_ret hs3 ⟨k3 _ (k2 _ (k1 _ hv.1)), k3 _ h2⟩
  · refine gr_bind (gr_ro hs1 (ro_maybeRel _ _ _)) fun _ _ hs2 k2 _ => gr_bind (gr_sliceRightR hg hE ho _ _ _ _ _ _ _ hs2 (k2 _ (k1 _ hv.1))) fun _ _ hs3 k3 h3 => ?_
    split
    · rename_i root hroot
      exact gr_ret hs3 ⟨h3.1 _ hroot, h3.2⟩
    · exact gr_bind (gr_ro hs3 (ro_inc hg _)) fun _ _ hs4 k4 _ => gr_ret hs4 ⟨k4 _ (k3 _ (k2 _ (k1 _ hr))), k4 _ h3.2⟩

theorem fr_takeMut (hg : E.gc = true) (hE : E.Fresh) (he : S e) (hs : Held m0 S s.mem) : Fr m0 S (Fc.takeMut c E e er et v n) s (fun _ _ => True) := by
  refine fr_bind (fr_ro hs (ro_off v)) fun _ _ hs1 _ _ => fr_ite (fun _ => fr_bind (fr_ro hs1 (ro_empty hg)) fun _ _ hs2 _ _ => fr_bind (fr_ro hs2 (ro_drop hg)) fun _ _ hs3 _ _ => fr_ret hs3 trivial) fun _ =>
    fr_ite (fun _ => fr_ret hs1 trivial) fun _ => fr_ite (fun _ => fr_bind (fr_canMutate hg he hs1) fun _ b hs2 _ hb => fr_ite (fun h => ?_) fun _ => ?_) fun _ => ?_
  · exact fr_bind (fr_destroyN (hb h) _ _ _ hs2) fun _ _ hs3 _ _ => fr_ret hs3 trivial
  · exact fr_bind (fr_copyLeafN hE hs2) fun _ _ hs3 _ _ => fr_bind (fr_ro hs3 (ro_decLeaf hg)) fun _ _ hs4 _ _ => fr_ret hs4 trivial
  · refine fr_bind (fr_ro hs1 (ro_maybeRel _ _ _)) fun _ _ hs2 _ _ => fr_bind (fr_sliceRightR hg hE (fun _ h => by cases h; exact he) _ _ _ _ _ _ _ hs2) fun _ _ hs3 _ _ => fr_bind (Q := fun _ _ => True) ?_ fun _ _ hs4 _ _ =>
      fr_bind (fr_ro hs4 (ro_decLeaf hg)) fun _ _ hs5 _ _ => fr_ret hs5 trivial
    split
    · exact fr_ret hs3 trivial
    · exact fr_bind (fr_ro hs3 (ro_inc hg _)) fun _ _ hs4 _ _ => fr_ret hs4 trivial

theorem gr_takeMut (hg : E.gc = true) (hE : E.Fresh) (ho : OwnOk A (some e)) (hs : Fin' s.mem) (hv : Gc.VGd A s.mem v) (hr : Gd A s.mem er) (ht : Gd A s.mem et) : Gr A (Fc.takeMut c E e er et v n) s (Gc.VGd A) := by
  refine gr_bind (gr_ro hs (ro_off v)) fun _ _ hs1 k1 _ => gr_ite (fun _ => gr_bind (gr_empty hg hs1 (k1 _ hr) (k1 _ ht)) fun _ _ hs2 _ h2 => gr_bind (gr_ro hs2 (ro_drop hg)) fun _ _ hs3 k3 _ => gr_ret hs3 (VGd.keep h2 k3)) fun _ =>
    gr_ite (fun _ => gr_ret hs1 (VGd.keep hv k1)) fun _ => gr_ite (fun _ => gr_bind (gr_canMutate hs1) fun _ b hs2 k2 _ => gr_ite (fun h => ?_) fun _ => ?_) fun _ => ?_
  · exact gr_bind (gr_destroyN _ _ _ hs2) fun _ _ hs3 k3 _ => gr_ret hs3 (VGd.keep (VGd.keep (VGd.keep hv k1) k2) k3)
  · exact gr_bind (gr_copyLeafN hE ho hs2) fun _ _ hs3 k3 h3 => gr_bind (gr_ro hs3 (ro_decLeaf hg)) fun _ _ hs4 k4 _ => gr_ret hs4 ⟨k4 _ (k3 _ (k2 _ (k1 _ hv.1))), k4 _ h3⟩
  · refine gr_bind (gr_ro hs1 (ro_maybeRel _ _ _)) fun _ _ hs2 k2 _ => gr_bind (gr_sliceRightR hg hE ho _ _ _ _ _ _ _ hs2 (k2 _ (k1 _ hv.1))) fun _ _ hs3 k3 h3 => gr_bind (Q := Gc.VGd A) ?_ fun _ _ hs4 _ h4 =>
      gr_bind (gr_ro hs4 (ro_decLeaf hg)) fun _ _ hs5 k5 _ => gr_ret hs5 (VGd.keep h4 k5)
    split
    · rename_i root hroot
      exact gr_ret hs3 ⟨h3.1 _ hroot, h3.2⟩
    · exact gr_bind (gr_ro hs3 (ro_inc hg _)) fun _ _ hs4 k4 _ => gr_ret hs4 ⟨k4 _ (k3 _ (k2 _ (k1 _ hr))), k4 _ h3.2⟩

/-! ### `drop` -/

theorem fr_moveDown (hp : ¬ Shut m0 S p) : ∀ (n o : Nat) (s : St Dat T), Held m0 S s.mem → Fr m0 S (moveDown X p idx o n) s (fun _ _ => True)
  | 0, _, _, hs => fr_ret hs trivial
  | n + 1, o, s, hs => fr_bind (Q := fun _ _ => True) (fr_ite (fun _ => fr_bind (fr_ro hs (ro_readEl _ _)) fun _ _ hs1 _ _ => fr_assignEl hs1 hp) fun _ => fr_bind (fr_moveEl hs hp) fun _ _ hs1 _ _ => fr_assignEl hs1 hp) fun _ _ hs1 _ _ => fr_moveDown hp n _ _ hs1

theorem gr_moveDown : ∀ (n o : Nat) (s : St Dat T), Fin' s.mem → Gr A (moveDown X p idx o n) s (fun _ _ => True)
  | 0, _, _, hs => gr_ret hs trivial
  | n + 1, o, s, hs => gr_bind (Q := fun _ _ => True) (gr_ite (fun _ => gr_bind (gr_ro hs (ro_readEl _ _)) fun _ _ hs1 _ _ => gr_assignEl hs1) fun _ => gr_bind (gr_moveEl hs) fun _ _ hs1 _ _ => gr_assignEl hs1) fun _ _ hs1 _ _ => gr_moveDown n _ _ hs1

theorem fr_sliceLeafLeft {sh : Shp} (hg : E.gc = true) (hE : E.Fresh) (he : Ed S own) (hs : Held m0 S s.mem) : Fr m0 S (sliceLeafLeft c E X own mu p sh last) s (fun _ _ => True) := by
  refine fr_bind (fr_ro hs (ro_liftO _)) fun _ _ hs1 _ _ => fr_bind (fr_mayMutate hg he hs1) fun _ b hs2 _ hb => fr_ite (fun h => ?_) fun _ => ?_
  · exact fr_bind (fr_moveDown (hb h).1 _ _ _ hs2) fun _ _ hs3 _ _ => fr_bind (fr_destroyN (hb h).1 _ _ _ hs3) fun _ _ hs4 _ _ => fr_ret hs4 trivial
  · exact fr_bind (fr_copyLeafI hE hs2) fun _ _ hs3 _ _ => fr_bind (fr_ro hs3 (ro_when (ro_decV hg _ _ _))) fun _ _ hs4 _ _ => fr_ret hs4 trivial

theorem gr_sliceLeafLeft {sh : Shp} (hg : E.gc = true) (hE : E.Fresh) (ho : OwnOk A own) (hs : Fin' s.mem) (hp : Gd A s.mem p) : Gr A (sliceLeafLeft c E X own mu p sh last) s (fun m r => Gd A m r.2) := by
  refine gr_bind (gr_ro hs (ro_liftO _)) fun _ _ hs1 k1 _ => gr_bind (gr_mayMutate hs1) fun _ b hs2 k2 _ => gr_ite (fun h => ?_) fun _ => ?_
  · exact gr_bind (gr_moveDown _ _ _ hs2) fun _ _ hs3 k3 _ => gr_bind (gr_destroyN _ _ _ hs3) fun _ _ hs4 k4 _ => gr_ret hs4 (k4 _ (k3 _ (k2 _ (k1 _ hp))))
  · exact gr_bind (gr_copyLeafI hE ho hs2) fun _ _ hs3 _ h3 => gr_bind (gr_ro hs3 (ro_when (ro_decV hg _ _ _))) fun _ _ hs4 k4 _ => gr_ret hs4 (k4 _ h3)

theorem ro_subTowards {sh : RShp} : Ro (subTowards c p sh last idx : HM T _) := by
  cases sh with
  | reg sh => exact ro_bind (ro_liftO _) fun _ => ro_bind (ro_kid _ _) fun _ => ro_ret _
  | rel s sz => exact ro_relTowards

theorem gr_subTowards {sh : RShp} (hs : Fin' s.mem) (hp : Gd A s.mem p) : Gr A (subTowards c p sh last idx) s (fun m r => Gd A m r.1) := by
  cases sh with
  | reg sh => exact gr_bind (gr_ro hs (ro_liftO _)) fun _ _ hs1 k1 _ => gr_bind (gr_kid hs1 (k1 _ hp)) fun _ _ hs2 _ h2 => gr_ret hs2 h2
  | rel s sz => exact gr_relTowards hs hp

/-- the node that is filled has a table that may be changed -/
theorem fr_sliceTarget {sh : RShp} (hg : E.gc = true) (hE : E.Fresh) (hs : Held m0 S s.mem) (hb : b = true → ¬ Shut m0 S p ∧ ∃ e, own = some e ∧ S e) : Fr m0 S (sliceTarget c E own b p sh n) s (Open m0 S) := by
  refine fr_ite (fun h => ?_) fun _ => fr_newInnerR hE hs
  have hS : S (own.getD 0) := by
    obtain ⟨_, e, rfl, h⟩ := hb h
    exact h
  cases sh with
  | reg sh => exact fr_bind (fr_newTableK hE hs) fun _ _ hs1 _ h1 => fr_bind (fr_setTable hs1 (hb h).1 fun _ h => by cases h; exact h1.1) fun _ _ hs2 _ h2 => fr_ret hs2 ⟨(hb h).1, h2⟩
  | rel _ sz =>
    refine fr_bind (Q := fun m _ => TabOk m0 S m p) ?_ fun _ _ hs1 _ h1 => fr_ret hs1 ⟨(hb h).1, h1⟩
    exact fr_mutTableOk hg hE hS hs (hb h).1

theorem gr_sliceTarget {sh : RShp} (hg : E.gc = true) (hE : E.Fresh) (ho : OwnOk A own) (hs : Fin' s.mem) (hp : Gd A s.mem p) : Gr A (sliceTarget c E own b p sh n) s (Gd A) := by
  refine gr_ite (fun h => ?_) fun _ => gr_newInnerR hE ho hs
  cases sh with
  | reg sh => exact gr_bind (gr_newTableK hE ho.1 hs) fun _ _ hs1 k1 h1 => gr_bind (gr_setTable hs1 fun _ h => by cases h; exact h1) fun _ _ hs2 k2 _ => gr_ret hs2 (k2 _ (k1 _ hp))
  | rel _ sz => exact gr_bind (gr_mutTable hg hE (ownSome ho) hs) fun _ _ hs1 k1 _ => gr_ret hs1 (k1 _ hp)

theorem fr_sliceFill {sh : RShp} {s0 : Nat} (hg : E.gc = true) (hs : Held m0 S s.mem) (hn : Open m0 S s.mem n) : Fr m0 S (sliceFill c E mu b L p n sh idx s0 q) s (fun _ _ => True) :=
  fr_bind (fr_ro hs (ro_when (ro_decFirst hg))) fun _ _ hs1 k1 _ => fr_bind (fr_theTable hs1 (k1 _ hn.2)) fun _ _ hs2 _ h2 => fr_bind (fr_ro hs2 (ro_liftO _)) fun _ _ hs3 _ _ => fr_bind (fr_setSizes hs3 h2) fun _ _ hs4 _ _ =>
    fr_bind (fr_ro hs4 (ro_kids _)) fun _ _ hs5 _ _ => fr_bind (fr_ro hs5 (ro_liftO _)) fun _ _ hs6 _ _ => fr_bind (fr_setKids hs6 hn.1) fun _ _ hs7 _ _ =>
      fr_bind (fr_ro hs7 (ro_unless (ro_bind (ro_incAll hg _) fun _ => ro_when (ro_decR hg _ _ _)))) fun _ _ hs8 _ _ => fr_ret hs8 trivial

theorem gr_sliceFill {sh : RShp} {s0 : Nat} (hg : E.gc = true) (hs : Fin' s.mem) (hp : Gd A s.mem p) (hn : Gd A s.mem n) (hq : Gd A s.mem q) : Gr A (sliceFill c E mu b L p n sh idx s0 q) s (fun m r => Gd A m r.2) :=
  gr_bind (gr_ro hs (ro_when (ro_decFirst hg))) fun _ _ hs1 k1 _ => gr_bind (gr_ro hs1 (ro_theTable _)) fun _ _ hs2 k2 _ => gr_bind (gr_ro hs2 (ro_liftO _)) fun _ _ hs3 k3 _ => gr_bind (gr_setSizes hs3) fun _ _ hs4 k4 _ =>
    gr_bind (gr_kids hs4 (k4 _ (k3 _ (k2 _ (k1 _ hp))))) fun _ _ hs5 k5 h5 => gr_bind (gr_slice hs5 h5) fun _ _ hs6 k6 h6 => gr_bind (gr_setKids hs6 fun _ k hk => by
      rcases List.mem_cons.mp hk with rfl | hk
      · exact k6 _ (k5 _ (k4 _ (k3 _ (k2 _ (k1 _ hq)))))
      · exact h6 k hk) fun _ _ hs7 k7 _ =>
      gr_bind (gr_ro hs7 (ro_unless (ro_bind (ro_incAll hg _) fun _ => ro_when (ro_decR hg _ _ _)))) fun _ _ hs8 k8 _ => gr_ret hs8 (k8 _ (k7 _ (k6 _ (k5 _ (k4 _ (k3 _ (k2 _ (k1 _ hn))))))))

theorem fx_sliceLeftR (hg : E.gc = true) (hE : E.Fresh) (he : Ed S own) (hth : th → own = none) : ∀ (L : Nat) (mu collapse : Bool) (p : Nat) (sh : RShp) (first : Nat) (s : St Dat T), Held m0 S s.mem →
    Fx th m0 S (sliceLeftR c E X own mu collapse L p sh first) s (fun _ _ => True)
  | 0, mu, collapse, p, .reg sh, first, s, hs => by
    unfold sliceLeftR
    exact fx_ite (fun _ => fx (fr_sliceLeafLeft hg hE he hs)) fun _ => trivial
  | 0, _, _, _, .rel _ _, _, _, _ => by unfold sliceLeftR; trivial
  | L + 1, mu, collapse, p, sh, first, s, hs => by
    unfold sliceLeftR
    refine fx_bind (fx (fr_ro hs (ro_liftO _))) fun _ _ hs1 _ _ => fx_bind (fx (fr_mayMutate hg he hs1)) fun _ b hs2 _ hb => fx_bind (fx (fr_ro hs2 (ro_liftO _))) fun _ _ hs3 _ _ => fx_bind (fx (fr_ro hs3 (ro_liftO _))) fun _ _ hs4 _ _ => ?_
    refine fx_ite (fun _ => fx_bind (fx (fr_ro hs4 ro_subTowards)) fun _ _ hs5 _ _ => fx_bind (fx_sliceLeftR hg hE he hth L _ _ _ _ _ _ hs5) fun _ _ hs6 _ _ =>
      fx_bind (fx (fr_ro hs6 (ro_ite (ro_decLeft hg) (ro_when (ro_decR hg _ _ _))))) fun _ _ hs7 _ _ => fx (fr_ret hs7 trivial)) fun _ => ?_
    refine fx_bind (fx (fr_sliceTarget hg hE hs4 hb)) fun _ n hs5 _ h5 => fx_guard ?_ fun ht _ hs6 => ?_
    · exact fx_bind (fx (fr_ro hs5 ro_subTowards)) fun _ _ hs6 k6 _ => fx_bind (fx_sliceLeftR hg hE he hth L _ _ _ _ _ _ hs6) fun _ _ hs7 k7 _ => fx (fr_sliceFill hg hs7 ⟨h5.1, k7 _ (k6 _ h5.2)⟩)
    · cases hth ht
      unfold sliceLeftCatch
      cases b with
      | true => obtain ⟨_, e, h, _⟩ := hb rfl; cases h
      | false => exact sv_delInnerR hg hs6 h5.1

theorem gr_sliceLeftR (hg : E.gc = true) (hE : E.Fresh) (ho : OwnOk A own) : ∀ (L : Nat) (mu collapse : Bool) (p : Nat) (sh : RShp) (first : Nat) (s : St Dat T), Fin' s.mem → Gd A s.mem p →
    Gr A (sliceLeftR c E X own mu collapse L p sh first) s (fun m r => Gd A m r.2)
  | 0, mu, collapse, p, .reg sh, first, s, hs, hp => by
    unfold sliceLeftR
    exact gr_ite (fun _ => gr_sliceLeafLeft hg hE ho hs hp) fun _ => trivial
  | 0, _, _, _, .rel _ _, _, _, _, _ => by unfold sliceLeftR; trivial
  | L + 1, mu, collapse, p, sh, first, s, hs, hp => by
    unfold sliceLeftR
    refine gr_bind (gr_ro hs (ro_liftO _)) fun _ _ hs1 k1 _ => gr_bind (gr_mayMutate hs1) fun _ b hs2 k2 _ => gr_bind (gr_ro hs2 (ro_liftO _)) fun _ _ hs3 k3 _ => gr_bind (gr_ro hs3 (ro_liftO _)) fun _ _ hs4 k4 _ => ?_
    have hp4 := k4 _ (k3 _ (k2 _ (k1 _ hp)))
    refine gr_ite (fun _ => gr_bind (gr_subTowards hs4 hp4) fun _ _ hs5 _ h5 => gr_bind (gr_sliceLeftR hg hE ho L _ _ _ _ _ _ hs5 h5) fun _ _ hs6 _ h6 =>
      gr_bind (gr_ro hs6 (ro_ite (ro_decLeft hg) (ro_when (ro_decR hg _ _ _)))) fun _ _ hs7 k7 _ => gr_ret hs7 (k7 _ h6)) fun _ => ?_
    exact gr_bind (gr_sliceTarget hg hE ho hs4 hp4) fun _ n hs5 k5 h5 => gr_guard (gr_bind (gr_subTowards hs5 (k5 _ hp4)) fun _ _ hs6 k6 h6 => gr_bind (gr_sliceLeftR hg hE ho L _ _ _ _ _ _ hs6 h6) fun _ _ hs7 k7 h7 =>
      gr_sliceFill hg hs7 (k7 _ (k6 _ (k5 _ hp4))) (k7 _ (k6 _ h5)) h7)

theorem fx_dropN (hg : E.gc = true) (hE : E.Fresh) (hs : Held m0 S s.mem) : Fx th m0 S (Fc.dropN c E X er et v n) s (fun _ _ => True) := by
  refine fx_ite (fun _ => fx (fr_bind (fr_ro hs (ro_share hg)) fun _ _ hs1 _ _ => fr_ret hs1 trivial)) fun _ => fx_ite (fun _ => fx (fr_ro hs (ro_empty hg))) fun _ => fx_bind (fx (fr_ro hs (ro_off v))) fun _ _ hs1 _ _ => fx_ite (fun _ => ?_) fun _ => fx_ite (fun _ => ?_) fun _ => ?_
  · exact fx (fr_bind (fr_ro hs1 (ro_inc hg _)) fun _ _ hs2 _ _ => fr_bind (fr_ro hs2 (ro_inc hg _)) fun _ _ hs3 _ _ => fr_ret hs3 trivial)
  · exact fx (fr_bind (fr_copyLeafI hE hs1) fun _ _ hs2 _ _ => fr_bind (fr_ro hs2 (ro_inc hg _)) fun _ _ hs3 _ _ => fr_ret hs3 trivial)
  · exact fx_bind (fx (fr_ro hs1 (ro_maybeRel _ _ _))) fun _ _ hs2 _ _ => fx_bind (fx_sliceLeftR hg hE (fun _ h => by cases h) (fun _ => rfl) _ _ _ _ _ _ _ hs2) fun _ _ hs3 _ _ => fx (fr_bind (fr_ro hs3 (ro_inc hg _)) fun _ _ hs4 _ _ => fr_ret hs4 trivial)

theorem gr_dropN (hg : E.gc = true) (hE : E.Fresh) (h0 : A 0) (hs : Fin' s.mem) (hv : Gc.VGd A s.mem v) (hr : Gd A s.mem er) (ht : Gd A s.mem et) : Gr A (Fc.dropN c E X er et v n) s (Gc.VGd A) := by
  have ho : OwnOk A none := ⟨h0, fun _ h => by cases h⟩
  refine gr_ite (fun _ => gr_bind (gr_ro hs (ro_share hg)) fun _ _ hs1 k1 _ => gr_ret hs1 (VGd.keep hv k1)) fun _ => gr_ite (fun _ => gr_empty hg hs hr ht) fun _ => gr_bind (gr_ro hs (ro_off v)) fun _ _ hs1 k1 _ => gr_ite (fun _ => ?_) fun _ => gr_ite (fun _ => ?_) fun _ => ?_
  · exact gr_bind (gr_ro hs1 (ro_inc hg _)) fun _ _ hs2 k2 _ => gr_bind (gr_ro hs2 (ro_inc hg _)) fun _ _ hs3 k3 _ => gr_ret hs3 ⟨k3 _ (k2 _ (k1 _ hr)), k3 _ (k2 _ (k1 _ hv.2))⟩
  · exact gr_bind (gr_copyLeafI hE ho hs1) fun _ _ hs2 k2 h2 => gr_bind (gr_ro hs2 (ro_inc hg _)) fun _ _ hs3 k3 _ => gr_ret hs3 ⟨k3 _ (k2 _ (k1 _ hr)), k3 _ h2⟩
  · exact gr_bind (gr_ro hs1 (ro_maybeRel _ _ _)) fun _ _ hs2 k2 _ => gr_bind (gr_sliceLeftR hg hE ho _ _ _ _ _ _ _ hs2 (k2 _ (k1 _ hv.1))) fun _ _ hs3 k3 h3 => gr_bind (gr_ro hs3 (ro_inc hg _)) fun _ _ hs4 k4 _ => gr_ret hs4 ⟨k4 _ h3, k4 _ (k3 _ (k2 _ (k1 _ hv.2)))⟩

theorem fx_dropMut (hg : E.gc = true) (hE : E.Fresh) (he : S e) (hth : ¬ th) (hs : Held m0 S s.mem) : Fx th m0 S (Fc.dropMut c E X e er et v n) s (fun _ _ => True) := by
  have hE' : Ed S (some e) := fun _ h => by cases h; exact he
  refine fx_bind (fx (fr_ro hs (ro_off v))) fun _ _ hs1 _ _ => fx_ite (fun _ => fx (fr_ret hs1 trivial)) fun _ => fx_ite (fun _ => ?_) fun _ => fx_ite (fun _ => ?_) fun _ => fx_ite (fun _ => ?_) fun _ => ?_
  · exact fx (fr_bind (fr_ro hs1 (ro_empty hg)) fun _ _ hs2 _ _ => fr_bind (fr_ro hs2 (ro_drop hg)) fun _ _ hs3 _ _ => fr_ret hs3 trivial)
  · exact fx (fr_bind (fr_ro hs1 (ro_decInner hg _ _ _ _)) fun _ _ hs2 _ _ => fr_bind (fr_ro hs2 (ro_inc hg _)) fun _ _ hs3 _ _ => fr_ret hs3 trivial)
  · refine fx_bind (fx_sliceLeftR hg hE hE' (fun h => absurd h hth) _ _ _ _ _ _ _ hs1) fun _ _ hs2 _ _ => fx_ite (fun _ => ?_) fun _ => fx (fr_ret hs2 trivial)
    exact fx (fr_bind (fr_ro hs2 (ro_decInner hg _ _ _ _)) fun _ _ hs3 _ _ => fr_bind (fr_ro hs3 (ro_inc hg _)) fun _ _ hs4 _ _ => fr_ret hs4 trivial)
  · exact fx_bind (fx (fr_ro hs1 (ro_maybeRel _ _ _))) fun _ _ hs2 _ _ => fx_bind (fx_sliceLeftR hg hE hE' (fun h => absurd h hth) _ _ _ _ _ _ _ hs2) fun _ _ hs3 _ _ => fx (fr_ret hs3 trivial)

theorem gr_dropMut (hg : E.gc = true) (hE : E.Fresh) (ho : OwnOk A (some e)) (hs : Fin' s.mem) (hv : Gc.VGd A s.mem v) (hr : Gd A s.mem er) (ht : Gd A s.mem et) : Gr A (Fc.dropMut c E X e er et v n) s (Gc.VGd A) := by
  refine gr_bind (gr_ro hs (ro_off v)) fun _ _ hs1 k1 _ => gr_ite (fun _ => gr_ret hs1 (VGd.keep hv k1)) fun _ => gr_ite (fun _ => ?_) fun _ => gr_ite (fun _ => ?_) fun _ => gr_ite (fun _ => ?_) fun _ => ?_
  · exact gr_bind (gr_empty hg hs1 (k1 _ hr) (k1 _ ht)) fun _ _ hs2 _ h2 => gr_bind (gr_ro hs2 (ro_drop hg)) fun _ _ hs3 k3 _ => gr_ret hs3 (VGd.keep h2 k3)
  · exact gr_bind (gr_ro hs1 (ro_decInner hg _ _ _ _)) fun _ _ hs2 k2 _ => gr_bind (gr_ro hs2 (ro_inc hg _)) fun _ _ hs3 k3 _ => gr_ret hs3 ⟨k3 _ (k2 _ (k1 _ hr)), k3 _ (k2 _ (k1 _ hv.2))⟩
  · refine gr_bind (gr_sliceLeftR hg hE ho _ _ _ _ _ _ _ hs1 (k1 _ hv.2)) fun _ _ hs2 k2 h2 => gr_ite (fun _ => ?_) fun _ => gr_ret hs2 ⟨k2 _ (k1 _ hv.1), h2⟩
    exact gr_bind (gr_ro hs2 (ro_decInner hg _ _ _ _)) fun _ _ hs3 k3 _ => gr_bind (gr_ro hs3 (ro_inc hg _)) fun _ _ hs4 k4 _ => gr_ret hs4 ⟨k4 _ (k3 _ (k2 _ (k1 _ hr))), k4 _ (k3 _ h2)⟩
  · exact gr_bind (gr_ro hs1 (ro_maybeRel _ _ _)) fun _ _ hs2 k2 _ => gr_bind (gr_sliceLeftR hg hE ho _ _ _ _ _ _ _ hs2 (k2 _ (k1 _ hv.1))) fun _ _ hs3 k3 h3 => gr_ret hs3 ⟨h3, k3 _ (k2 _ (k1 _ hv.2))⟩

end FlexHeap
