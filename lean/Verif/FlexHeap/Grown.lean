import Verif.FlexHeap.FrameGc

/-!
# Whose nodes a tree is made of (helper lemmas for C54)

`A` are tokens.  Trees that are put together from trees whose nodes have these tokens only, are such trees, whatever the functions do
otherwise.
-/

namespace FlexHeap
open Mm Rrb VecHeap

variable {T β δ : Type}

/-- all nodes of the tree at `p` are there, with one of these tokens -/
def Gd (A : Nat → Prop) (m : Mem Dat T) (p : Nat) : Prop := ∀ q, VecHeap.Below m p q → ∃ x, m q = some x ∧ A x.tok

/-- memory is finite -/
def Fin' (m : Mem Dat T) : Prop := ∃ l : List Nat, ∀ p, m p ≠ none → p ∈ l

variable {c : Cfg} {E : Env Dat T} {A : Nat → Prop} {s s' : St Dat T} {m : Mem Dat T} {p q t e i n o : Nat} {Q : Mem Dat T → β → Prop} {R : Mem Dat T → δ → Prop} {own : Option Nat}

theorem below_head {a b r : Nat} {x : Cell Dat T} (h : m a = some x) (ho : b ∈ outsD x.data) (hb : VecHeap.Below m b r) : VecHeap.Below m a r := by
  induction hb with
  | here => exact .next .here h ho
  | next _ h1 h2 ih => exact .next ih h1 h2

theorem Gd.cell (h : Gd A m p) : ∃ x, m p = some x ∧ A x.tok := h p .here

theorem Gd.out {x : Cell Dat T} (h : Gd A m p) (hx : m p = some x) (ho : o ∈ outsD x.data) : Gd A m o := fun _ hr => h _ (below_head hx ho hr)

theorem gd_upd {x : Cell Dat T} (hx : A x.tok) (ho : ∀ o ∈ outsD x.data, Gd A m o ∨ o = p) (hq : Gd A m q ∨ q = p) : Gd A (upd m p (some x)) q := by
  have key : ∀ r, VecHeap.Below (upd m p (some x)) q r → Gd A m r ∨ r = p := by
    intro r hr
    induction hr with
    | here => exact hq
    | next _ h1 h2 ih =>
      rename_i a b cl _
      by_cases ha : a = p
      · subst ha; rw [upd_self] at h1; cases h1; exact ho _ h2
      · rw [upd_ne ha] at h1
        exact .inl ((ih.resolve_right ha).out h1 h2)
  intro r hr
  by_cases hrp : r = p
  · subst hrp; exact ⟨x, upd_self, hx⟩
  · rw [upd_ne hrp]
    exact ((key r hr).resolve_right hrp).cell

/-- what is not reached does not matter -/
theorem gd_upd' {x : Option (Cell Dat T)} (hp : ¬ Gd A m p) (hq : Gd A m q) : Gd A (upd m p x) q := by
  have key : ∀ r, VecHeap.Below (upd m p x) q r → Gd A m r := by
    intro r hr
    induction hr with
    | here => exact hq
    | next _ h1 h2 ih =>
      rename_i a b cl _
      have ha : a ≠ p := by rintro rfl; exact hp ih
      rw [upd_ne ha] at h1
      exact ih.out h1 h2
  intro r hr
  have h := key r hr
  rw [upd_ne (by rintro rfl; exact hp h)]
  exact h.cell

theorem fin_upd {x : Option (Cell Dat T)} (h : Fin' m) : Fin' (upd m p x) := by
  obtain ⟨l, hl⟩ := h
  refine ⟨p :: l, fun q hq => ?_⟩
  by_cases hqp : q = p
  · rw [hqp]; exact List.mem_cons_self
  · rw [upd_ne hqp] at hq; exact List.mem_cons_of_mem _ (hl q hq)

/-- if `x` returns, good trees are still good, and `Q` -/
def Gr (A : Nat → Prop) (x : HM T β) (s : St Dat T) (Q : Mem Dat T → β → Prop) : Prop :=
  match x s with
  | .ok s' b => Fin' s'.mem ∧ (∀ p, Gd A s.mem p → Gd A s'.mem p) ∧ Q s'.mem b
  | _ => True

theorem gr_bind {x : HM T β} {f : β → HM T δ} (hx : Gr A x s Q)
    (hf : ∀ s' b, Fin' s'.mem → (∀ p, Gd A s.mem p → Gd A s'.mem p) → Q s'.mem b → Gr A (f b) s' R) : Gr A (x.bind f) s R := by
  unfold Gr M.bind at *
  cases h : x s with
  | ok s1 b =>
    rw [h] at hx
    have h2 := hf s1 b hx.1 hx.2.1 hx.2.2
    simp only
    cases h3 : f b s1 with
    | ok s2 d => rw [h3] at h2; exact ⟨h2.1, fun p hp => h2.2.1 p (hx.2.1 p hp), h2.2.2⟩
    | thrown s2 => trivial
    | ub => trivial
  | thrown s1 => trivial
  | ub => trivial

theorem gr_mono {x : HM T β} {Q' : Mem Dat T → β → Prop} (hx : Gr A x s Q) (h : ∀ m b, Q m b → Q' m b) : Gr A x s Q' := by
  unfold Gr at *
  cases hs : x s with
  | ok s1 b => rw [hs] at hx; exact ⟨hx.1, hx.2.1, h _ _ hx.2.2⟩
  | thrown s1 => trivial
  | ub => trivial

theorem gr_ret {b : β} (hs : Fin' s.mem) (h : Q s.mem b) : Gr A (M.ret b) s Q := ⟨hs, fun _ h => h, h⟩

theorem gr_guard {x : HM T β} {hd : HM T Unit} (hx : Gr A x s Q) : Gr A (x.guard hd) s Q := by
  unfold Gr M.guard at *
  cases h : x s with
  | ok s1 b => rw [h] at hx; exact hx
  | thrown s1 => simp only; cases hd s1 <;> trivial
  | ub => trivial

theorem gr_ro {x : HM T β} (hs : Fin' s.mem) (hx : Ro x) : Gr A x s (fun _ _ => True) := by
  unfold Gr
  have h := hx s
  cases hxs : x s with
  | ok s1 b => rw [hxs] at h; subst h; exact ⟨hs, fun _ h => h, trivial⟩
  | thrown s1 => trivial
  | ub => trivial

theorem gr_ro' {x : HM T β} (hs : Fin' s.mem) (hx : Ro x) (hq : ∀ b, x s = .ok s b → Q s.mem b) : Gr A x s Q := by
  unfold Gr
  have h := hx s
  cases hxs : x s with
  | ok s1 b => rw [hxs] at h; subst h; exact ⟨hs, fun _ h => h, hq b hxs⟩
  | thrown s1 => trivial
  | ub => trivial

theorem gr_ite {P : Prop} [Decidable P] {x y : HM T β} (hx : P → Gr A x s Q) (hy : ¬ P → Gr A y s Q) : Gr A (if P then x else y) s Q := by
  split
  · exact hx ‹_›
  · exact hy ‹_›

theorem gr_liftO (hs : Fin' s.mem) (o : Option β) : Gr A (liftO o) s (fun _ b => o = some b) := by
  cases o with
  | none => trivial
  | some b => exact gr_ret hs rfl

/-! ### Commands -/

theorem gr_tick (hs : Fin' s.mem) (k : Kind) : Gr A (tick k) s (fun _ _ => True) := by
  unfold Gr tick
  cases s.fault with
  | none => exact ⟨hs, fun _ h => h, trivial⟩
  | some kn =>
    obtain ⟨k', n⟩ := kn
    simp only
    by_cases h : k = k'
    · rw [if_pos h]
      cases n with
      | zero => trivial
      | succ n => exact ⟨hs, fun _ h => h, trivial⟩
    · rw [if_neg h]; exact ⟨hs, fun _ h => h, trivial⟩

theorem gr_fresh (hE : E.Fresh) (h0 : A 0) (hs : Fin' s.mem) {els : List (Slot T)} {d : Dat} (hd : outsD d = []) :
    (∀ p, Gd A s.mem p → Gd A (upd s.mem (E.alloc s.clock s.mem) (some ⟨1, 0, els, d⟩)) p) ∧ Gd A (upd s.mem (E.alloc s.clock s.mem) (some ⟨1, 0, els, d⟩)) (E.alloc s.clock s.mem) := by
  have ho : ∀ o ∈ outsD d, Gd A s.mem o ∨ o = E.alloc s.clock s.mem := fun o h => by rw [hd] at h; cases h
  exact ⟨fun p hp => gd_upd (x := ⟨1, 0, els, d⟩) h0 ho (.inl hp), gd_upd (x := ⟨1, 0, els, d⟩) h0 ho (.inr rfl)⟩

theorem gr_alloc (hE : E.Fresh) (h0 : A 0) (hs : Fin' s.mem) (k : Nat) (d : Dat) (hd : outsD d = []) : Gr A (alloc E k d) s (Gd A) := by
  refine gr_bind (gr_tick hs _) fun s1 _ hs1 _ _ => ?_
  exact ⟨fin_upd hs1, (gr_fresh hE h0 hs1 hd).1, (gr_fresh hE h0 hs1 hd).2⟩

theorem gr_modify {f : Cell Dat T → Cell Dat T} (hs : Fin' s.mem) (hf : ∀ x, s.mem p = some x → Gd A s.mem p → A (f x).tok ∧ ∀ o ∈ outsD (f x).data, Gd A s.mem o) :
    Gr A (Mm.modify p f) s (fun _ _ => True) := by
  unfold Gr Mm.modify
  cases h : s.mem p with
  | none => trivial
  | some x =>
    refine ⟨fin_upd hs, fun q hq => ?_, trivial⟩
    by_cases hp : Gd A s.mem p
    · obtain ⟨h1, h2⟩ := hf x h hp
      exact gd_upd h1 (fun o ho => .inl (h2 o ho)) (.inl hq)
    · exact gd_upd' hp hq

theorem gr_cell (hs : Fin' s.mem) (p : Nat) : Gr A (cell p) s (fun m x => m p = some x) := by
  refine gr_ro' hs (ro_cell p) fun x hx => ?_
  unfold cell at hx
  cases h : s.mem p with
  | none => rw [h] at hx; cases hx
  | some y => rw [h] at hx; cases hx; rfl

theorem gr_setTok (hs : Fin' s.mem) (he : A e) : Gr A (setTok E p e) s (fun _ _ => True) := by
  refine gr_bind (gr_cell hs p) fun s1 x hs1 _ _ => ?_
  split
  · exact gr_modify hs1 fun x hx h => ⟨he, fun o ho => h.out hx ho⟩
  · exact gr_ret hs1 trivial

theorem gr_setEls {l : List (Slot T)} (hs : Fin' s.mem) : Gr A (setEls p l) s (fun _ _ => True) :=
  gr_modify hs fun x hx h => by
    obtain ⟨y, h1, h2⟩ := h.cell
    rw [hx] at h1; cases h1
    exact ⟨h2, fun o ho => h.out hx ho⟩

theorem gr_canMutate (hs : Fin' s.mem) : Gr A (canMutate E e p) s (fun _ _ => True) := gr_bind (gr_cell hs p) fun _ _ hs1 _ _ => gr_ret hs1 trivial

/-! ### Reading -/

theorem gr_tableOf (hs : Fin' s.mem) (hp : Gd A s.mem p) : Gr A (tableOf p) s (fun m r => ∀ t, r = some t → Gd A m t) := by
  obtain ⟨x, hx, _⟩ := hp.cell
  refine gr_ro' hs (ro_tableOf p) fun r hr => ?_
  unfold tableOf M.bind cell at hr
  rw [hx] at hr
  simp only at hr
  cases hd : x.data with
  | leaf => rw [hd] at hr; cases hr
  | table => rw [hd] at hr; cases hr
  | inner cap r' ks =>
    rw [hd] at hr
    cases hr
    rintro t rfl
    exact hp.out hx (by rw [hd]; simp [outsD])

theorem gr_kids (hs : Fin' s.mem) (hp : Gd A s.mem p) : Gr A (kids p) s (fun m ks => ∀ k ∈ ks, Gd A m k) := by
  obtain ⟨x, hx, _⟩ := hp.cell
  refine gr_ro' hs (ro_kids p) fun r hr => ?_
  unfold VecHeap.kids M.bind cell at hr
  rw [hx] at hr
  simp only at hr
  cases hd : x.data with
  | leaf => rw [hd] at hr; cases hr
  | table => rw [hd] at hr; cases hr
  | inner cap r' ks =>
    rw [hd] at hr
    cases hr
    exact fun k hk => hp.out hx (by rw [hd]; exact List.mem_append_right _ hk)

theorem gr_kid (hs : Fin' s.mem) (hp : Gd A s.mem p) : Gr A (kid p i) s (Gd A) := by
  refine gr_bind (gr_kids hs hp) fun _ ks hs1 _ h1 => ?_
  refine gr_ro' hs1 (ro_liftO _) fun b hb => ?_
  cases h : ks[i]? with
  | none => rw [h] at hb; cases hb
  | some k => rw [h] at hb; cases hb; exact h1 _ (List.mem_of_getElem? h)

theorem gr_slice {ks : List Nat} {a b : Nat} (hs : Fin' s.mem) (hk : ∀ k ∈ ks, Gd A s.mem k) : Gr A (liftO (slice ks a b)) s (fun m ks => ∀ k ∈ ks, Gd A m k) := by
  refine gr_ro' hs (ro_liftO _) fun l hl => ?_
  unfold slice at hl
  split at hl
  · cases hl
    exact fun k h => hk k (List.mem_of_mem_drop (List.mem_of_mem_take h))
  · cases hl

/-! ### Nodes -/

theorem gr_setTable {r : Option Nat} (hs : Fin' s.mem) (hr : ∀ t, r = some t → Gd A s.mem t) : Gr A (setTable p r) s (fun _ _ => True) := by
  refine gr_bind (gr_cell hs p) fun s1 x hs1 k1 hx => ?_
  cases hd : x.data with
  | leaf => trivial
  | table => trivial
  | inner cap r' ks =>
    refine gr_modify hs1 fun y hy h => ?_
    rw [hx] at hy; cases hy
    obtain ⟨z, hz, hz'⟩ := h.cell
    rw [hx] at hz; cases hz
    refine ⟨hz', fun o ho => ?_⟩
    rcases List.mem_append.mp ho with ho | ho
    · exact k1 _ (hr o (Option.mem_toList.mp ho))
    · exact h.out hx (by rw [hd]; exact List.mem_append_right _ ho)

theorem gr_setKids {ks : List Nat} (hs : Fin' s.mem) (hk : Gd A s.mem p → ∀ k ∈ ks, Gd A s.mem k) : Gr A (setKids p ks) s (fun _ _ => True) := by
  refine gr_bind (Q := fun m x => m = s.mem ∧ m p = some x) ?_ fun s1 x hs1 _ hx => ?_
  · refine gr_ro' hs (ro_cell p) fun x hx => ?_
    unfold cell at hx
    cases h : s.mem p with
    | none => rw [h] at hx; cases hx
    | some y => rw [h] at hx; cases hx; exact ⟨rfl, rfl⟩
  obtain ⟨he, hx⟩ := hx
  rw [← he] at hk
  cases hd : x.data with
  | leaf => trivial
  | table => trivial
  | inner cap r' ks =>
    refine gr_ite (fun _ => gr_modify hs1 fun y hy h => ?_) fun _ => trivial
    rw [hx] at hy; cases hy
    obtain ⟨z, hz, hz'⟩ := h.cell
    rw [hx] at hz; cases hz
    refine ⟨hz', fun o ho => ?_⟩
    rcases List.mem_append.mp ho with ho | ho
    · exact h.out hx (by rw [hd]; exact List.mem_append_left _ ho)
    · exact hk h o ho

theorem gr_setSizes {sz : List Nat} (hs : Fin' s.mem) : Gr A (setSizes p sz) s (fun _ _ => True) := by
  refine gr_bind (gr_cell hs p) fun s1 x hs1 _ hx => ?_
  cases hd : x.data with
  | leaf => trivial
  | inner => trivial
  | table cap sz' =>
    refine gr_ite (fun _ => gr_modify hs1 fun y hy h => ?_) fun _ => trivial
    obtain ⟨z, hz, hz'⟩ := h.cell
    rw [hy] at hz; cases hz
    exact ⟨hz', fun o ho => by cases ho⟩

theorem gr_putKid (hs : Fin' s.mem) (hq : Gd A s.mem q) : Gr A (putKid p i q) s (fun _ _ => True) := by
  by_cases hp : Gd A s.mem p
  · refine gr_bind (gr_kids hs hp) fun _ ks hs1 k1 h1 => gr_ite (fun _ => gr_setKids hs1 fun _ k hk => ?_) fun _ => gr_ite (fun _ => gr_setKids hs1 fun _ k hk => ?_) fun _ => trivial
    · rcases List.mem_or_eq_of_mem_set hk with hk | rfl
      · exact h1 k hk
      · exact k1 _ hq
    · rcases List.mem_append.mp hk with hk | hk
      · exact h1 k hk
      · rw [List.mem_singleton.mp hk]; exact k1 _ hq
  · refine gr_bind (Q := fun m _ => m = s.mem) (gr_ro' hs (ro_kids p) fun _ _ => rfl) fun s1 ks hs1 _ h1 => ?_
    rw [← h1] at hp
    exact gr_ite (fun _ => gr_setKids hs1 fun h => absurd h hp) fun _ => gr_ite (fun _ => gr_setKids hs1 fun h => absurd h hp) fun _ => trivial

/-- tokens for new nodes -/
def OwnOk (A : Nat → Prop) (own : Option Nat) : Prop := A 0 ∧ ∀ e, own = some e → A e

theorem gr_owned {x : HM T Nat} (he : A e) (hx : Gr A x s (Gd A)) : Gr A (x.bind fun p => (setTok E p e).bind fun _ => M.ret p) s (Gd A) :=
  gr_bind hx fun _ _ hs1 _ h => gr_bind (gr_setTok hs1 he) fun _ _ hs2 k2 _ => gr_ret hs2 (k2 _ h)

theorem gr_newInner (hE : E.Fresh) (ho : OwnOk A own) (hs : Fin' s.mem) : Gr A (newInner c E own n) s (Gd A) := by
  cases own with
  | none => exact gr_alloc hE ho.1 hs _ _ rfl
  | some e => exact gr_owned (ho.2 e rfl) (gr_alloc hE ho.1 hs _ _ rfl)

theorem gr_newLeaf (hE : E.Fresh) (ho : OwnOk A own) (hs : Fin' s.mem) : Gr A (newLeaf c E own n) s (Gd A) := by
  cases own with
  | none => exact gr_alloc hE ho.1 hs _ _ rfl
  | some e => exact gr_owned (ho.2 e rfl) (gr_alloc hE ho.1 hs _ _ rfl)

theorem gr_newTable (hE : E.Fresh) (ho : OwnOk A own) (hs : Fin' s.mem) : Gr A (newTable c E own n) s (Gd A) := by
  cases own with
  | none => exact gr_alloc hE ho.1 hs _ _ rfl
  | some e => exact gr_owned (ho.2 e rfl) (gr_alloc hE ho.1 hs _ _ rfl)

theorem gr_newInnerR (hE : E.Fresh) (ho : OwnOk A own) (hs : Fin' s.mem) : Gr A (newInnerR c E own n) s (Gd A) :=
  gr_bind (gr_newInner hE ho hs) fun _ _ hs1 _ h1 => gr_bind (gr_guard (gr_newTable hE ho hs1)) fun _ _ hs2 k2 h2 =>
    gr_bind (gr_setTable hs2 fun _ h => by cases h; exact h2) fun _ _ hs3 k3 _ => gr_ret hs3 (k3 _ (k2 _ h1))

theorem gr_newTableK {k : Kind} (hE : E.Fresh) (h0 : A 0) (hs : Fin' s.mem) : Gr A (newTableK c E k) s (Gd A) := by
  refine gr_bind (gr_tick hs _) fun s1 _ hs1 _ _ => ?_
  exact ⟨fin_upd hs1, (gr_fresh hE h0 hs1 rfl).1, (gr_fresh hE h0 hs1 rfl).2⟩

theorem gr_dec (hg : E.gc = true) (hs : Fin' s.mem) : Gr A (dec E p) s (fun _ b => b = false) :=
  gr_bind (gr_cell hs p) fun _ _ hs1 _ _ => by rw [if_pos hg]; exact gr_ret hs1 rfl

theorem gr_mutTable {k : Kind} (hg : E.gc = true) (hE : E.Fresh) (he : OwnOk A (some e)) (hs : Fin' s.mem) : Gr A (mutTable c E k e p n) s (fun _ _ => True) := by
  refine gr_bind (gr_ro hs (ro_theTable p)) fun s1 t hs1 _ _ => gr_bind (gr_canMutate hs1) fun s2 b hs2 _ hb => ?_
  refine gr_ite (fun h => gr_ret hs2 trivial) fun _ => ?_
  refine gr_bind (gr_newTableK hE he.1 hs2) fun s3 t' hs3 _ h3 => gr_bind (gr_ro hs3 (ro_sizesOf t)) fun s4 _ hs4 k4 _ => gr_bind (gr_ro hs4 (ro_liftO _)) fun s5 _ hs5 k5 _ =>
    gr_bind (gr_setSizes hs5) fun s6 _ hs6 k6 _ => ?_
  refine gr_bind (gr_dec hg hs6) fun s7 b hs7 k7 hb => ?_
  subst hb
  exact gr_bind (gr_ret (Q := fun _ _ => True) hs7 trivial) fun s8 _ hs8 k8 _ => gr_bind (gr_setTok hs8 (he.2 e rfl)) fun s9 _ hs9 k9 _ =>
    gr_bind (gr_setTable hs9 fun _ h => by cases h; exact k9 _ (k8 _ (k7 _ (k6 _ (k5 _ (k4 _ h3)))))) fun _ _ hs10 _ _ => gr_ret hs10 trivial

theorem gr_doCopyInner {dst src : Nat} (hg : E.gc = true) (hs : Fin' s.mem) (hp : Gd A s.mem src) : Gr A (doCopyInner E dst src n) s (fun _ _ => True) :=
  gr_bind (gr_kids hs hp) fun _ _ hs1 _ h1 => gr_bind (gr_slice hs1 h1) fun _ _ hs2 _ h2 => gr_bind (gr_ro hs2 (ro_incAll hg _)) fun _ _ hs3 k3 _ => gr_setKids hs3 fun _ k hk => k3 _ (h2 k hk)

theorem gr_doCopyInnerR {dst src : Nat} (hg : E.gc = true) (hs : Fin' s.mem) (hp : Gd A s.mem src) : Gr A (doCopyInnerR E dst src n) s (fun _ _ => True) :=
  gr_bind (gr_ro hs (ro_theTable src)) fun _ _ hs1 k1 _ => gr_bind (gr_ro hs1 (ro_theTable _)) fun _ _ hs2 k2 _ => gr_bind (gr_doCopyInner hg hs2 (k2 _ (k1 _ hp))) fun _ _ hs3 _ _ =>
    gr_bind (gr_ro hs3 (ro_sizesOf _)) fun _ _ hs4 _ _ => gr_bind (gr_ro hs4 (ro_liftO _)) fun _ _ hs5 _ _ => gr_setSizes hs5

/-! ### Elements -/

theorem gr_copyEl (hs : Fin' s.mem) : Gr A (copyEl p i) s (fun _ _ => True) :=
  gr_bind (gr_ro hs (ro_readEl p i)) fun _ _ hs1 _ _ => gr_bind (gr_tick hs1 _) fun _ _ hs2 _ _ => gr_ret hs2 trivial

theorem gr_moveEl (hs : Fin' s.mem) : Gr A (moveEl p i) s (fun _ _ => True) :=
  gr_bind (gr_cell hs p) fun _ _ hs1 _ _ => by
    split
    · exact gr_bind (gr_setEls hs1) fun _ _ hs2 _ _ => gr_ret hs2 trivial
    · trivial

theorem gr_construct {v : T} (hs : Fin' s.mem) : Gr A (construct p i v) s (fun _ _ => True) :=
  gr_bind (gr_cell hs p) fun _ _ hs1 _ _ => by
    split
    · exact gr_setEls hs1
    · trivial

theorem gr_assignEl {v : T} (hs : Fin' s.mem) : Gr A (assignEl p i v) s (fun _ _ => True) :=
  gr_bind (gr_cell hs p) fun _ _ hs1 _ _ => by
    split
    · exact gr_setEls hs1
    · exact gr_setEls hs1
    · trivial

theorem gr_uninitCopyLoop {src dst o : Nat} : ∀ (n i k : Nat) (s : St Dat T), Fin' s.mem → Gr A (uninitCopyLoop src dst o i k n) s (fun _ _ => True)
  | 0, _, _, _, hs => gr_ret hs trivial
  | n + 1, _, _, _, hs => gr_bind (gr_guard (gr_bind (gr_copyEl hs) fun _ _ hs1 _ _ => gr_construct hs1)) fun _ _ hs1 _ _ => gr_uninitCopyLoop n _ _ _ hs1

theorem gr_uninitCopy {src dst o : Nat} (hs : Fin' s.mem) : Gr A (uninitCopy src i n dst o) s (fun _ _ => True) := gr_uninitCopyLoop n i 0 s hs

theorem gr_copyLeafN {allocn src : Nat} (hE : E.Fresh) (ho : OwnOk A own) (hs : Fin' s.mem) : Gr A (copyLeafN c E own allocn src n) s (Gd A) :=
  gr_bind (gr_newLeaf hE ho hs) fun _ _ hs1 _ h1 => gr_bind (gr_guard (gr_uninitCopy hs1)) fun _ _ hs2 k2 _ => gr_ret hs2 (k2 _ h1)

theorem gr_copyLeafI {src : Nat} (hE : E.Fresh) (ho : OwnOk A own) (hs : Fin' s.mem) : Gr A (copyLeafI c E own src i n) s (Gd A) :=
  gr_bind (gr_newLeaf hE ho hs) fun _ _ hs1 _ h1 => gr_bind (gr_guard (gr_uninitCopy hs1)) fun _ _ hs2 k2 _ => gr_ret hs2 (k2 _ h1)

theorem gr_copyLeaf2 {a n1 b n2 : Nat} (hE : E.Fresh) (ho : OwnOk A own) (hs : Fin' s.mem) : Gr A (copyLeaf2 c E own a n1 b n2) s (Gd A) :=
  gr_bind (gr_newLeaf hE ho hs) fun _ _ hs1 _ h1 => gr_bind (gr_guard (gr_uninitCopy hs1)) fun _ _ hs2 k2 _ => gr_bind (gr_guard (gr_uninitCopy hs2)) fun _ _ hs3 k3 _ => gr_ret hs3 (k3 _ (k2 _ h1))

/-! ### Pushing a tail -/

theorem gr_makePath (hE : E.Fresh) (ho : OwnOk A own) : ∀ (k p : Nat) (s : St Dat T), Fin' s.mem → Gd A s.mem p → Gr A (makePath c E own k p) s (Gd A)
  | 0, _, _, hs, hp => gr_ret hs hp
  | k + 1, p, s, hs, hp => gr_bind (gr_newInner hE ho hs) fun _ _ hs1 k1 h1 => gr_bind (gr_guard (gr_makePath hE ho k p _ hs1 (k1 _ hp))) fun _ _ hs2 k2 h2 =>
      gr_bind (gr_putKid hs2 h2) fun _ _ hs3 k3 _ => gr_ret hs3 (k3 _ (k2 _ h1))

theorem gr_pushTailNew {tail : Nat} (hg : E.gc = true) (hE : E.Fresh) (ho : OwnOk A own) : ∀ (L p : Nat) (sh : Shp) (s : St Dat T), Fin' s.mem → Gd A s.mem p → Gd A s.mem tail → Gr A (pushTailNew c E own tail L p sh) s (Gd A)
  | 0, _, _, _, _, _, _ => trivial
  | L + 1, p, sh, s, hs, hp, ht => by
    unfold pushTailNew
    refine gr_bind (gr_ro hs (ro_liftO _)) fun _ _ hs1 k1 _ => gr_bind (gr_ro hs1 (ro_liftO _)) fun _ _ hs2 k2 _ => gr_bind (gr_ro hs2 (ro_liftO _)) fun _ _ hs3 k3 _ => gr_bind (gr_newInner hE ho hs3) fun _ _ hs4 k4 h4 => ?_
    have hp4 := k4 _ (k3 _ (k2 _ (k1 _ hp)))
    have ht4 := k4 _ (k3 _ (k2 _ (k1 _ ht)))
    refine gr_bind (gr_guard (gr_ite (fun _ => gr_bind (gr_ro hs4 (ro_liftO _)) fun _ _ hs5 k5 _ => gr_bind (gr_kid hs5 (k5 _ hp4)) fun _ _ hs6 k6 h6 => gr_pushTailNew hg hE ho L _ _ _ hs6 h6 (k6 _ (k5 _ ht4)))
      fun _ => gr_makePath hE ho _ _ _ hs4 ht4)) fun _ _ hs5 k5 h5 => ?_
    exact gr_bind (gr_doCopyInner hg hs5 (k5 _ hp4)) fun _ _ hs6 k6 _ => gr_bind (gr_putKid hs6 (k6 _ h5)) fun _ _ hs7 k7 _ => gr_ret hs7 (k7 _ (k6 _ (k5 _ h4)))

theorem gr_pushTailMutV {tail : Nat} (hg : E.gc = true) (hE : E.Fresh) (ho : OwnOk A (some e)) : ∀ (L p : Nat) (sh : Shp) (s : St Dat T), Fin' s.mem → Gd A s.mem p → Gd A s.mem tail → Gr A (VecHeap.pushTailMut c E e tail L p sh) s (Gd A)
  | 0, _, _, _, _, _, _ => trivial
  | L + 1, p, sh, s, hs, hp, ht => by
    unfold VecHeap.pushTailMut
    refine gr_bind (gr_canMutate hs) fun _ b hs0 k0 _ => gr_ite (fun h => ?_) fun _ => ?_
    · refine gr_bind (gr_ro hs0 (ro_liftO _)) fun _ _ hs1 k1 _ => gr_bind (gr_ro hs1 (ro_liftO _)) fun _ _ hs2 k2 _ => gr_bind (gr_ro hs2 (ro_liftO _)) fun _ _ hs3 k3 _ => ?_
      have hp4 := k3 _ (k2 _ (k1 _ (k0 _ hp)))
      have ht4 := k3 _ (k2 _ (k1 _ (k0 _ ht)))
      refine gr_bind (gr_ite (fun _ => gr_bind (gr_ro hs3 (ro_liftO _)) fun _ _ hs5 k5 _ => gr_bind (gr_kid hs5 (k5 _ hp4)) fun _ _ hs6 k6 h6 => gr_pushTailMutV hg hE ho L _ _ _ hs6 h6 (k6 _ (k5 _ ht4)))
        fun _ => gr_makePath hE ho _ _ _ hs3 ht4) fun _ _ hs5 k5 h5 => ?_
      exact gr_bind (gr_putKid hs5 h5) fun _ _ hs7 k7 _ => gr_ret hs7 (k7 _ (k5 _ hp4))
    · exact gr_bind (gr_pushTailNew hg hE ho _ _ _ _ hs0 (k0 _ hp) (k0 _ ht)) fun _ _ hs1 _ h1 => gr_bind (gr_ro hs1 (ro_decV hg _ _ _)) fun _ _ hs2 k2 _ => gr_ret hs2 (k2 _ h1)

/-- a node, if any -/
def GdO (A : Nat → Prop) (m : Mem Dat T) (r : Option Nat) : Prop := ∀ p, r = some p → Gd A m p

/-- and where it goes -/
def GdP (A : Nat → Prop) (m : Mem Dat T) (r : Option (Nat × Nat)) : Prop := ∀ x, r = some x → Gd A m x.2

theorem gr_pushChild {tail L ni : Nat} {r : Option Nat} (hE : E.Fresh) (ho : OwnOk A own) (hs : Fin' s.mem) (hr : GdO A s.mem r) (ht : Gd A s.mem tail) : Gr A (pushChild c E own tail L ni r) s (GdP A) := by
  cases r with
  | some ch => exact gr_ret hs fun x h => by cases h; exact hr _ rfl
  | none => exact gr_ite (fun _ => gr_bind (gr_makePath hE ho _ _ _ hs ht) fun _ _ hs1 _ h1 => gr_ret hs1 fun x h => by cases h; exact h1) fun _ => gr_ret hs fun x h => by cases h

theorem gr_pushCopy {sz : List Nat} {ts ni ch : Nat} (hg : E.gc = true) (hE : E.Fresh) (ho : OwnOk A own) (hs : Fin' s.mem) (hp : Gd A s.mem p) (hc : Gd A s.mem ch) : Gr A (pushCopy c E own p sz ts ni ch) s (Gd A) :=
  gr_bind (gr_newInnerR hE ho hs) fun _ _ hs1 k1 h1 => gr_bind (gr_doCopyInnerR hg hs1 (k1 _ hp)) fun _ _ hs2 k2 _ => gr_bind (gr_ro hs2 (ro_theTable _)) fun _ _ hs3 k3 _ =>
    gr_bind (gr_putKid hs3 (k3 _ (k2 _ (k1 _ hc)))) fun _ _ hs4 k4 _ => gr_bind (gr_ro hs4 (ro_liftO _)) fun _ _ hs5 k5 _ => gr_bind (gr_ro hs5 (ro_sizesOf _)) fun _ _ hs6 k6 _ =>
      gr_bind (gr_setSizes hs6) fun _ _ hs7 k7 _ => gr_ret hs7 (k7 _ (k6 _ (k5 _ (k4 _ (k3 _ (k2 _ h1))))))

theorem gr_pushTailNewR {tail ts : Nat} (hg : E.gc = true) (hE : E.Fresh) (ho : OwnOk A own) : ∀ (L p : Nat) (sh : RShp) (s : St Dat T), Fin' s.mem → Gd A s.mem p → Gd A s.mem tail → Gr A (pushTailNewR c E own tail ts L p sh) s (GdO A)
  | L, p, .reg sh, s, hs, hp, ht => by
    cases L <;> (unfold pushTailNewR; exact gr_bind (gr_pushTailNew hg hE ho _ _ _ _ hs hp ht) fun _ _ hs1 _ h1 => gr_ret hs1 fun x h => by cases h; exact h1)
  | 0, _, .rel _ _, _, _, _, _ => by unfold pushTailNewR; trivial
  | L + 1, p, .rel sh sz, s, hs, hp, ht => by
    unfold pushTailNewR
    refine gr_bind (gr_ro hs (ro_liftO _)) fun _ _ hs1 k1 _ => gr_ite (fun _ => gr_ret hs1 fun x h => by cases h) fun _ => ?_
    refine gr_bind (Q := GdP A) (gr_ite (fun _ => gr_bind (gr_kid hs1 (k1 _ hp)) fun _ _ hs2 k2 h2 => gr_bind (gr_ro hs2 (ro_kidRel _ _ _)) fun _ _ hs3 k3 _ =>
      gr_bind (gr_pushTailNewR hg hE ho L _ _ _ hs3 (k3 _ h2) (k3 _ (k2 _ (k1 _ ht)))) fun _ _ hs4 k4 h4 => gr_pushChild hE ho hs4 h4 (k4 _ (k3 _ (k2 _ (k1 _ ht)))))
      fun _ => gr_bind (gr_makePath hE ho _ _ _ hs1 (k1 _ ht)) fun _ _ hs2 _ h2 => gr_ret hs2 fun x h => by cases h; exact h2) fun _ y hs2 k2 h2 => ?_
    cases y with
    | none => exact gr_ret hs2 fun x h => by cases h
    | some y => exact gr_bind (gr_guard (gr_pushCopy hg hE ho hs2 (k2 _ (k1 _ hp)) (h2 _ rfl))) fun _ _ hs3 _ h3 => gr_ret hs3 fun x h => by cases h; exact h3

theorem gr_pushTailMutR {tail ts : Nat} (hg : E.gc = true) (hE : E.Fresh) (ho : OwnOk A (some e)) : ∀ (L p : Nat) (sh : RShp) (s : St Dat T), Fin' s.mem → Gd A s.mem p → Gd A s.mem tail → Gr A (pushTailMutR c E e tail ts L p sh) s (GdO A)
  | L, p, .reg sh, s, hs, hp, ht => by
    cases L <;> (unfold pushTailMutR; exact gr_bind (gr_pushTailMutV hg hE ho _ _ _ _ hs hp ht) fun _ _ hs1 _ h1 => gr_ret hs1 fun x h => by cases h; exact h1)
  | 0, _, .rel _ _, _, _, _, _ => by unfold pushTailMutR; trivial
  | L + 1, p, .rel sh sz, s, hs, hp, ht => by
    unfold pushTailMutR
    refine gr_bind (gr_canMutate hs) fun _ b hs0 k0 _ => gr_ite (fun h => ?_) fun _ => ?_
    · refine gr_bind (gr_ro hs0 (ro_liftO _)) fun _ _ hs1 k1 _ => gr_ite (fun _ => gr_ret hs1 fun x h => by cases h) fun _ => ?_
      have hp1 := k1 _ (k0 _ hp)
      have ht1 := k1 _ (k0 _ ht)
      refine gr_bind (Q := GdP A) (gr_ite (fun _ => gr_bind (gr_kid hs1 hp1) fun _ _ hs2 k2 h2 => gr_bind (gr_ro hs2 (ro_kidRel _ _ _)) fun _ _ hs3 k3 _ =>
        gr_bind (gr_pushTailMutR hg hE ho L _ _ _ hs3 (k3 _ h2) (k3 _ (k2 _ ht1))) fun _ _ hs4 k4 h4 => gr_pushChild hE ho hs4 h4 (k4 _ (k3 _ (k2 _ ht1))))
        fun _ => gr_bind (gr_makePath hE ho _ _ _ hs1 ht1) fun _ _ hs2 _ h2 => gr_ret hs2 fun x h => by cases h; exact h2) fun _ y hs2 k2 h2 => ?_
      cases y with
      | none => exact gr_ret hs2 fun x h => by cases h
      | some y =>
        exact gr_bind (gr_mutTable hg hE ho hs2) fun _ _ hs3 k3 _ => gr_bind (gr_putKid hs3 (k3 _ (h2 _ rfl))) fun _ _ hs4 k4 _ => gr_bind (gr_ro hs4 (ro_liftO _)) fun _ _ hs5 k5 _ =>
          gr_bind (gr_ro hs5 (ro_sizesOf _)) fun _ _ hs6 k6 _ => gr_bind (gr_ro hs6 (ro_liftO _)) fun _ _ hs7 k7 _ => gr_bind (gr_setSizes hs7) fun _ _ hs8 k8 _ => gr_ret hs8 fun x h => by
            cases h; exact k8 _ (k7 _ (k6 _ (k5 _ (k4 _ (k3 _ (k2 _ hp1))))))
    · refine gr_bind (gr_pushTailNewR hg hE ho _ _ _ _ hs0 (k0 _ hp) (k0 _ ht)) fun _ n hs1 _ h1 => ?_
      cases n with
      | none => exact gr_ret hs1 fun x h => by cases h
      | some n => exact gr_bind (gr_ro hs1 (ro_decR hg _ _ _)) fun _ _ hs2 k2 _ => gr_ret hs2 fun x h => by cases h; exact k2 _ (h1 _ rfl)

theorem ownNone (h : OwnOk A own) : OwnOk A none := ⟨h.1, fun _ h => by cases h⟩

theorem gr_fcPushTail {root shift size tail ts : Nat} (hg : E.gc = true) (hE : E.Fresh) (ho : OwnOk A none) (hs : Fin' s.mem) (hp : Gd A s.mem root) (ht : Gd A s.mem tail) : Gr A (Fc.pushTail c E root shift size tail ts) s (fun m x => Gd A m x.2) := by
  refine gr_bind (gr_ro hs (ro_tableOf _)) fun _ r hs1 k1 _ => ?_
  replace hp := k1 _ hp
  replace ht := k1 _ ht
  cases r with
  | some t =>
    refine gr_bind (gr_ro hs1 (ro_sizesOf t)) fun _ _ hs2 k2 _ => gr_bind (gr_pushTailNewR hg hE ho _ _ _ _ hs2 (k2 _ hp) (k2 _ ht)) fun _ n hs3 k3 h3 => ?_
    cases n with
    | some n => exact gr_ret hs3 (h3 _ rfl)
    | none =>
      refine gr_bind (gr_newInnerR hE ho hs3) fun _ _ hs4 k4 h4 => gr_guard ?_
      exact gr_bind (gr_makePath hE ho _ _ _ hs4 (k4 _ (k3 _ (k2 _ ht)))) fun _ _ hs5 k5 h5 => gr_bind (gr_ro hs5 (ro_inc hg _)) fun _ _ hs6 k6 _ => gr_bind (gr_putKid hs6 (k6 _ (k5 _ (k4 _ (k3 _ (k2 _ hp)))))) fun _ _ hs7 k7 _ => gr_bind (gr_putKid hs7 (k7 _ (k6 _ h5))) fun _ _ hs8 k8 _ =>
        gr_bind (gr_ro hs8 (ro_theTable _)) fun _ _ hs9 k9 _ => gr_bind (gr_setSizes hs9) fun _ _ hs10 k10 _ => gr_ret hs10 (k10 _ (k9 _ (k8 _ (k7 _ (k6 _ (k5 _ h4))))))
  | none =>
    refine gr_ite (fun _ => ?_) fun _ => gr_ite (fun _ => ?_) fun _ => ?_
    · refine gr_bind (gr_newInner hE ho hs1) fun _ _ hs4 k4 h4 => gr_guard ?_
      exact gr_bind (gr_makePath hE ho _ _ _ hs4 (k4 _ ht)) fun _ _ hs5 k5 h5 => gr_bind (gr_ro hs5 (ro_inc hg _)) fun _ _ hs6 k6 _ => gr_bind (gr_putKid hs6 (k6 _ (k5 _ (k4 _ hp)))) fun _ _ hs7 k7 _ => gr_bind (gr_putKid hs7 (k7 _ (k6 _ h5))) fun _ _ hs8 k8 _ =>
        gr_ret hs8 (k8 _ (k7 _ (k6 _ (k5 _ h4))))
    · exact gr_bind (gr_pushTailNew hg hE ho _ _ _ _ hs1 hp ht) fun _ _ hs2 _ h2 => gr_ret hs2 h2
    · exact gr_bind (gr_makePath hE ho _ _ _ hs1 ht) fun _ _ hs2 _ h2 => gr_ret hs2 h2

theorem gr_fcPushTailMut {root shift size tail ts : Nat} (hg : E.gc = true) (hE : E.Fresh) (ho : OwnOk A (some e)) (hs : Fin' s.mem) (hp : Gd A s.mem root) (ht : Gd A s.mem tail) : Gr A (Fc.pushTailMut c E e root shift size tail ts) s (fun m x => Gd A m x.2) := by
  refine gr_bind (gr_ro hs (ro_tableOf _)) fun _ r hs1 k1 _ => ?_
  replace hp := k1 _ hp
  replace ht := k1 _ ht
  cases r with
  | some t =>
    refine gr_bind (gr_ro hs1 (ro_sizesOf t)) fun _ _ hs2 k2 _ => gr_bind (gr_pushTailMutR hg hE ho _ _ _ _ hs2 (k2 _ hp) (k2 _ ht)) fun _ n hs3 k3 h3 => ?_
    cases n with
    | some n => exact gr_ret hs3 (h3 _ rfl)
    | none =>
      refine gr_bind (gr_newInnerR hE ho hs3) fun _ _ hs4 k4 h4 => gr_guard ?_
      exact gr_bind (gr_makePath hE ho _ _ _ hs4 (k4 _ (k3 _ (k2 _ ht)))) fun _ _ hs5 k5 h5 => gr_bind (gr_putKid hs5 (k5 _ (k4 _ (k3 _ (k2 _ hp))))) fun _ _ hs7 k7 _ => gr_bind (gr_putKid hs7 (k7 _ h5)) fun _ _ hs8 k8 _ =>
        gr_bind (gr_ro hs8 (ro_theTable _)) fun _ _ hs9 k9 _ => gr_bind (gr_setSizes hs9) fun _ _ hs10 k10 _ => gr_ret hs10 (k10 _ (k9 _ (k8 _ (k7 _ (k5 _ h4)))))
  | none =>
    refine gr_ite (fun _ => ?_) fun _ => gr_ite (fun _ => ?_) fun _ => ?_
    · refine gr_bind (gr_newInner hE ho hs1) fun _ _ hs4 k4 h4 => gr_guard ?_
      exact gr_bind (gr_makePath hE ho _ _ _ hs4 (k4 _ ht)) fun _ _ hs5 k5 h5 => gr_bind (gr_putKid hs5 (k5 _ (k4 _ hp))) fun _ _ hs7 k7 _ => gr_bind (gr_putKid hs7 (k7 _ h5)) fun _ _ hs8 k8 _ =>
        gr_ret hs8 (k8 _ (k7 _ (k5 _ h4)))
    · exact gr_bind (gr_pushTailMutV hg hE ho _ _ _ _ hs1 hp ht) fun _ _ hs2 _ h2 => gr_ret hs2 h2
    · exact gr_bind (gr_makePath hE ho _ _ _ hs1 ht) fun _ _ hs2 _ h2 => gr_bind (gr_ro hs2 (ro_decEmpty hg _)) fun _ _ hs3 k3 _ => gr_ret hs3 (k3 _ h2)

theorem gr_mutableTail {v : Vc} (hg : E.gc = true) (hE : E.Fresh) (ho : OwnOk A (some e)) (hs : Fin' s.mem) (ht : Gd A s.mem v.tail) : Gr A (Vc.mutableTail c E e v n) s (fun m v' => v'.root = v.root ∧ v'.size = v.size ∧ v'.shift = v.shift ∧ Gd A m v'.tail) :=
  gr_bind (gr_canMutate hs) fun _ _ hs1 k1 _ => gr_ite (fun h => gr_ret hs1 ⟨rfl, rfl, rfl, k1 _ ht⟩) fun _ =>
    gr_bind (gr_copyLeafN hE ho hs1) fun _ _ hs2 _ h2 => gr_bind (gr_ro hs2 (ro_decV hg _ _ _)) fun _ _ hs3 k3 _ => gr_ret hs3 ⟨rfl, rfl, rfl, k3 _ h2⟩

theorem gr_concatTail {share : Bool} {l r : Vc} {o : Nat} (hg : E.gc = true) (hE : E.Fresh) (ho : OwnOk A own) (hs : Fin' s.mem) (hl : Gd A s.mem l.root) (hlt : Gd A s.mem l.tail) (hrt : Gd A s.mem r.tail) :
    Gr A (Fc.concatTail c E own share l o r) s (fun m x => Gd A m x.2.1 ∧ Gd A m x.2.2) := by
  refine gr_ite (fun _ => ?_) fun _ => gr_ite (fun _ => ?_) fun _ => ?_
  · refine gr_bind (gr_fcPushTail hg hE (ownNone ho) hs hl hlt) fun _ _ hs1 k1 h1 => gr_bind (Q := fun _ _ => True) (gr_ite (fun _ => gr_ro hs1 (ro_inc hg _)) fun _ => gr_ret hs1 trivial) fun _ _ hs2 k2 _ =>
      gr_bind (gr_ro hs2 (ro_inc hg _)) fun _ _ hs3 k3 _ => gr_ret hs3 ⟨k3 _ (k2 _ h1), k3 _ (k2 _ (k1 _ hrt))⟩
  · exact gr_bind (gr_copyLeaf2 hE (ownNone ho) hs) fun _ _ hs1 k1 h1 => gr_bind (gr_ro hs1 (ro_inc hg _)) fun _ _ hs3 k3 _ => gr_ret hs3 ⟨k3 _ (k1 _ hl), k3 _ h1⟩
  · refine gr_bind (gr_copyLeaf2 hE ho hs) fun _ _ hs1 k1 h1 => gr_guard (gr_bind (gr_copyLeafI hE ho hs1) fun _ _ hs2 k2 h2 => gr_guard ?_)
    exact gr_bind (gr_fcPushTail hg hE (ownNone ho) hs2 (k2 _ (k1 _ hl)) (k2 _ h1)) fun _ _ hs3 k3 h3 => gr_ret hs3 ⟨h3, k3 _ h2⟩

end FlexHeap
