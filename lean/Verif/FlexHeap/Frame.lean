import Verif.FlexHeap.ConcatGc
import Verif.FlexHeap.Programs

/-!
# What concatenation in place under the collector leaves alone (helper lemmas for C54)

`S` are the tokens of the transients that are worked on.  Nodes with other tokens stay as they are, whatever the functions do
otherwise.
-/

namespace FlexHeap
open Mm Rrb VecHeap

variable {T β δ : Type}

/-- a node that was there at the start, with the token of none of `S` -/
def Shut (m0 : Mem Dat T) (S : Nat → Prop) (p : Nat) : Prop := ∃ x, m0 p = some x ∧ ¬ S x.tok

/-- these nodes are as they were -/
def Held (m0 : Mem Dat T) (S : Nat → Prop) (m : Mem Dat T) : Prop := (∃ l : List Nat, ∀ p, m p ≠ none → p ∈ l) ∧ ∀ p, Shut m0 S p → m p = m0 p

/-- a node with no table of sizes, or one that may be changed -/
def TabOk (m0 : Mem Dat T) (S : Nat → Prop) (m : Mem Dat T) (p : Nat) : Prop :=
  ∃ x, m p = some x ∧ ∀ cap t ks, x.data = .inner cap (some t) ks → ¬ Shut m0 S t

variable {c : Cfg} {E : Env Dat T} {m0 : Mem Dat T} {S : Nat → Prop} {s s' : St Dat T} {p q t e i n : Nat} {Q : Mem Dat T → β → Prop} {R : Mem Dat T → δ → Prop}

/-- what `x` does leaves the nodes as they are -/
def Fr (m0 : Mem Dat T) (S : Nat → Prop) (x : HM T β) (s : St Dat T) (Q : Mem Dat T → β → Prop) : Prop :=
  match x s with
  | .ok s' b => Held m0 S s'.mem ∧ (∀ p, TabOk m0 S s.mem p → TabOk m0 S s'.mem p) ∧ Q s'.mem b
  | .thrown s' => Held m0 S s'.mem
  | .ub => True

theorem fr_bind {x : HM T β} {f : β → HM T δ} (hx : Fr m0 S x s Q)
    (hf : ∀ s' b, Held m0 S s'.mem → (∀ p, TabOk m0 S s.mem p → TabOk m0 S s'.mem p) → Q s'.mem b → Fr m0 S (f b) s' R) : Fr m0 S (x.bind f) s R := by
  unfold Fr M.bind at *
  cases h : x s with
  | ok s1 b =>
    rw [h] at hx
    have h2 := hf s1 b hx.1 hx.2.1 hx.2.2
    simp only
    cases h3 : f b s1 with
    | ok s2 d => rw [h3] at h2; exact ⟨h2.1, fun p hp => h2.2.1 p (hx.2.1 p hp), h2.2.2⟩
    | thrown s2 => rw [h3] at h2; exact h2
    | ub => trivial
  | thrown s1 => rw [h] at hx; exact hx
  | ub => trivial

theorem fr_mono {x : HM T β} {Q' : Mem Dat T → β → Prop} (hx : Fr m0 S x s Q) (h : ∀ m b, Q m b → Q' m b) : Fr m0 S x s Q' := by
  unfold Fr at *
  cases hs : x s with
  | ok s1 b => rw [hs] at hx; exact ⟨hx.1, hx.2.1, h _ _ hx.2.2⟩
  | thrown s1 => rw [hs] at hx; exact hx
  | ub => trivial

theorem fr_ret {b : β} (hs : Held m0 S s.mem) (h : Q s.mem b) : Fr m0 S (M.ret b) s Q := ⟨hs, fun _ h => h, h⟩

theorem fr_undef : Fr m0 S (undef : HM T β) s Q := trivial

/-- a handler, which may release nodes -/
def Sv (m0 : Mem Dat T) (S : Nat → Prop) (x : HM T β) (s : St Dat T) : Prop :=
  match x s with
  | .ok s' _ => Held m0 S s'.mem
  | .thrown s' => Held m0 S s'.mem
  | .ub => True

theorem fr_sv {x : HM T β} (hx : Fr m0 S x s Q) : Sv m0 S x s := by
  unfold Fr Sv at *
  cases h : x s with
  | ok => rw [h] at hx; exact hx.1
  | thrown => rw [h] at hx; exact hx
  | ub => trivial

theorem sv_bind {x : HM T β} {f : β → HM T δ} (hx : Fr m0 S x s Q) (hf : ∀ s' b, Held m0 S s'.mem → Q s'.mem b → Sv m0 S (f b) s') : Sv m0 S (x.bind f) s := by
  unfold Sv M.bind
  unfold Fr at hx
  cases h : x s with
  | ok s1 b => rw [h] at hx; exact hf s1 b hx.1 hx.2.2
  | thrown s1 => rw [h] at hx; exact hx
  | ub => trivial

theorem sv_bind' {x : HM T β} {f : β → HM T δ} (hx : Sv m0 S x s) (hf : ∀ s' b, Held m0 S s'.mem → Sv m0 S (f b) s') : Sv m0 S (x.bind f) s := by
  unfold Sv M.bind at *
  cases h : x s with
  | ok s1 b => rw [h] at hx; exact hf s1 b hx
  | thrown s1 => rw [h] at hx; exact hx
  | ub => trivial

theorem fr_guard {x : HM T β} {hd : HM T Unit} (hx : Fr m0 S x s Q) (hh : ∀ s', Held m0 S s'.mem → Sv m0 S hd s') : Fr m0 S (x.guard hd) s Q := by
  unfold Fr M.guard at *
  cases h : x s with
  | ok s1 b => rw [h] at hx; exact hx
  | thrown s1 =>
    rw [h] at hx
    have h2 := hh s1 hx
    unfold Sv at h2
    simp only
    cases h3 : hd s1 with
    | ok s2 d => rw [h3] at h2; exact h2
    | thrown s2 => trivial
    | ub => trivial
  | ub => trivial

/-- `x` only reads -/
def Ro (x : HM T β) : Prop := ∀ s, match x s with
  | .ok s' _ => s' = s
  | .thrown _ => False
  | .ub => True

theorem ro_ret (b : β) : Ro (M.ret b : HM T β) := fun _ => rfl
theorem ro_undef : Ro (undef : HM T β) := fun _ => trivial
theorem ro_bind {x : HM T β} {f : β → HM T δ} (hx : Ro x) (hf : ∀ b, Ro (f b)) : Ro (x.bind f) := by
  intro s
  have h := hx s
  unfold M.bind
  cases hs : x s with
  | ok s1 b => rw [hs] at h; subst h; exact hf b _
  | thrown s1 => rw [hs] at h; exact h
  | ub => trivial
theorem ro_ite {P : Prop} [Decidable P] {x y : HM T β} (hx : Ro x) (hy : Ro y) : Ro (if P then x else y) := by split <;> assumption
theorem ro_cell (p : Nat) : Ro (cell p : HM T _) := by
  intro s; unfold cell; cases s.mem p <;> simp
theorem ro_liftO (o : Option β) : Ro (liftO o : HM T β) := by
  cases o with
  | none => exact ro_undef
  | some => exact ro_ret _

theorem fr_ro {x : HM T β} (hs : Held m0 S s.mem) (hx : Ro x) : Fr m0 S x s (fun _ _ => True) := by
  unfold Fr
  have h := hx s
  cases hxs : x s with
  | ok s1 b => rw [hxs] at h; subst h; exact ⟨hs, fun _ h => h, trivial⟩
  | thrown s1 => rw [hxs] at h; exact h.elim
  | ub => trivial

/-- with what is read -/
theorem fr_ro' {x : HM T β} (hs : Held m0 S s.mem) (hx : Ro x) (hq : ∀ b, x s = .ok s b → Q s.mem b) : Fr m0 S x s Q := by
  unfold Fr
  have h := hx s
  cases hxs : x s with
  | ok s1 b => rw [hxs] at h; subst h; exact ⟨hs, fun _ h => h, hq b hxs⟩
  | thrown s1 => rw [hxs] at h; exact h.elim
  | ub => trivial

/-! ### Commands -/

theorem fr_tick (hs : Held m0 S s.mem) (k : Kind) : Fr m0 S (tick k) s (fun _ _ => True) := by
  unfold Fr tick
  cases s.fault with
  | none => exact ⟨hs, fun _ h => h, trivial⟩
  | some kn =>
    obtain ⟨k', n⟩ := kn
    simp only
    by_cases h : k = k'
    · rw [if_pos h]
      cases n with
      | zero => exact hs
      | succ n => exact ⟨hs, fun _ h => h, trivial⟩
    · rw [if_neg h]; exact ⟨hs, fun _ h => h, trivial⟩

theorem held_upd {m : Mem Dat T} {x : Option (Cell Dat T)} (hs : Held m0 S m) (hp : ¬ Shut m0 S p) : Held m0 S (upd m p x) := by
  obtain ⟨⟨l, hl⟩, h⟩ := hs
  refine ⟨⟨p :: l, fun q hq => ?_⟩, fun q hq => ?_⟩
  · by_cases hqp : q = p
    · rw [hqp]; exact List.mem_cons_self
    · rw [upd_ne hqp] at hq; exact List.mem_cons_of_mem _ (hl q hq)
  · rw [upd_ne (by rintro rfl; exact hp hq)]
    exact h q hq

/-- fresh memory -/
theorem fr_new (hE : E.Fresh) (hs : Held m0 S s.mem) : ¬ Shut m0 S (E.alloc s.clock s.mem) ∧ ∀ q, TabOk m0 S s.mem q → q ≠ E.alloc s.clock s.mem := by
  have hf := (hE s.clock s.mem hs.1).1
  constructor
  · rintro h
    rw [hs.2 _ h] at hf
    obtain ⟨x, h, _⟩ := h
    rw [h] at hf
    cases hf
  · rintro q ⟨x, h, _⟩ rfl
    rw [h] at hf
    cases hf

theorem fr_alloc (hE : E.Fresh) (hs : Held m0 S s.mem) (k : Nat) (d : Dat) (hd : ∀ cap t ks, d ≠ .inner cap (some t) ks) :
    Fr m0 S (alloc E k d) s (fun m q => ¬ Shut m0 S q ∧ TabOk m0 S m q) := by
  refine fr_bind (fr_tick hs _) fun s1 _ hs1 _ _ => ?_
  obtain ⟨h1, h2⟩ := fr_new hE hs1
  refine ⟨held_upd hs1 h1, fun q hq => ?_, h1, _, upd_self, fun cap t ks h => absurd h (hd _ _ _)⟩
  obtain ⟨x, hx, hx'⟩ := hq
  exact ⟨x, by simp only [upd_ne (h2 q ⟨x, hx, hx'⟩)]; exact hx, hx'⟩

theorem fr_modify {f : Cell Dat T → Cell Dat T} (hs : Held m0 S s.mem) (hp : ¬ Shut m0 S p)
    (hf : ∀ x, s.mem p = some x → ((∀ cap t ks, x.data = .inner cap (some t) ks → ¬ Shut m0 S t) → ∀ cap t ks, (f x).data = .inner cap (some t) ks → ¬ Shut m0 S t)) :
    Fr m0 S (Mm.modify p f) s (fun _ _ => True) := by
  unfold Fr Mm.modify
  cases h : s.mem p with
  | none => trivial
  | some x =>
    refine ⟨held_upd hs hp, fun q hq => ?_, trivial⟩
    obtain ⟨y, hy, hy'⟩ := hq
    by_cases hqp : q = p
    · subst hqp
      rw [h] at hy
      cases hy
      exact ⟨_, upd_self, hf _ h hy'⟩
    · exact ⟨y, by simp only [upd_ne hqp]; exact hy, hy'⟩

theorem fr_cell (hs : Held m0 S s.mem) (p : Nat) : Fr m0 S (cell p) s (fun m x => m p = some x) := by
  refine fr_ro' hs (ro_cell p) fun x hx => ?_
  unfold cell at hx
  cases h : s.mem p with
  | none => rw [h] at hx; cases hx
  | some y => rw [h] at hx; cases hx; rfl

theorem fr_ite {P : Prop} [Decidable P] {x y : HM T β} (hx : P → Fr m0 S x s Q) (hy : ¬ P → Fr m0 S y s Q) : Fr m0 S (if P then x else y) s Q := by
  split
  · exact hx ‹_›
  · exact hy ‹_›

theorem fr_liftO (hs : Held m0 S s.mem) (o : Option β) : Fr m0 S (liftO o) s (fun _ b => o = some b) := by
  cases o with
  | none => trivial
  | some b => exact fr_ret hs rfl

/-- `can_mutate` is true for open nodes only -/
theorem fr_canMutate (hg : E.gc = true) (he : S e) (hs : Held m0 S s.mem) : Fr m0 S (canMutate E e p) s (fun _ b => b = true → ¬ Shut m0 S p) := by
  refine fr_bind (fr_cell hs p) fun s1 x hs1 _ hx => fr_ret hs1 fun hb hsh => ?_
  rw [hs1.2 p hsh] at hx
  obtain ⟨y, hy, hy'⟩ := hsh
  rw [hy] at hx
  cases hx
  unfold mutable at hb
  rw [if_pos hg] at hb
  rw [beq_iff_eq.mp hb] at hy'
  exact hy' he

theorem fr_setTok (hs : Held m0 S s.mem) (hp : ¬ Shut m0 S p) : Fr m0 S (setTok E p e) s (fun _ _ => True) := by
  refine fr_bind (fr_cell hs p) fun s1 x hs1 _ _ => ?_
  split
  · exact fr_modify hs1 hp fun x _ h => h
  · exact fr_ret hs1 trivial

theorem fr_setEls {l : List (Slot T)} (hs : Held m0 S s.mem) (hp : ¬ Shut m0 S p) : Fr m0 S (setEls p l) s (fun _ _ => True) := fr_modify hs hp fun _ _ h => h

theorem sv_dealloc {rm : Dat → Nat} {k l : Nat} (hs : Held m0 S s.mem) (hp : ¬ Shut m0 S p) : Sv m0 S (dealloc rm p k l) s := by
  refine sv_bind (fr_cell hs p) fun s1 x hs1 _ => ?_
  split
  · exact held_upd hs1 hp
  · trivial

/-! ### Reading -/

theorem ro_tableOf (p : Nat) : Ro (tableOf p : HM T _) := ro_bind (ro_cell p) fun x => by split <;> [exact ro_ret _; exact ro_undef]
theorem ro_theTable (p : Nat) : Ro (theTable p : HM T _) := ro_bind (ro_tableOf p) fun _ => ro_liftO _
theorem ro_sizesOf (p : Nat) : Ro (sizesOf p : HM T _) := ro_bind (ro_cell p) fun x => by split <;> [exact ro_ret _; exact ro_undef]
theorem ro_kids (p : Nat) : Ro (kids p : HM T _) := ro_bind (ro_cell p) fun x => by split <;> [exact ro_ret _; exact ro_undef]
theorem ro_kid (p i : Nat) : Ro (kid p i : HM T _) := ro_bind (ro_kids p) fun _ => ro_liftO _
theorem ro_inc (hg : E.gc = true) (p : Nat) : Ro (inc E p) := ro_bind (ro_cell p) fun _ => by rw [if_pos hg]; exact ro_ret _
theorem ro_dec {f : Bool → HM T β} (hg : E.gc = true) (p : Nat) (hf : Ro (f false)) : Ro ((dec E p).bind f) := by
  have : (dec E p).bind f = (cell p).bind fun _ => f false := by
    funext s
    unfold dec M.bind M.ret
    cases cell p s with
    | ok s x => simp only [if_pos hg]
    | thrown => rfl
    | ub => rfl
  rw [this]
  exact ro_bind (ro_cell p) fun _ => hf
theorem ro_incAll (hg : E.gc = true) : ∀ l, Ro (incAll E l)
  | [] => ro_ret _
  | p :: ps => ro_bind (ro_inc hg p) fun _ => ro_incAll hg ps
theorem ro_decV (hg : E.gc = true) : ∀ L p sh, Ro (decV c E L p sh)
  | 0, p, sh => by
    unfold decV
    exact ro_ite (ro_dec hg p (ro_ret _)) ro_undef
  | L + 1, p, sh => by
    unfold decV
    exact ro_dec hg p (ro_ret _)
theorem ro_decR (hg : E.gc = true) : ∀ L p sh, Ro (decR c E L p sh)
  | L, p, .reg sh => by cases L <;> (unfold decR; exact ro_decV hg _ _ _)
  | 0, _, .rel _ _ => by unfold decR; exact ro_undef
  | L + 1, p, .rel s sz => by unfold decR; exact ro_dec hg p (ro_ret _)
theorem ro_maybeRel (p s size : Nat) : Ro (maybeRel p s size : HM T _) := ro_bind (ro_tableOf p) fun r => by
  cases r with
  | none => exact ro_ret _
  | some t => exact ro_bind (ro_sizesOf t) fun _ => ro_ret _
theorem ro_kidRel (s size q : Nat) : Ro (kidRel c s size q : HM T _) := ro_ite (ro_ret _) (ro_maybeRel _ _ _)
theorem ro_decInner (hg : E.gc = true) (L p s size : Nat) : Ro (decInner c E L p s size) := ro_bind (ro_maybeRel p s size) fun _ => ro_decR hg _ _ _
theorem ro_decEmpty (hg : E.gc = true) (p : Nat) : Ro (decEmpty c E p) := ro_dec hg p (ro_ret _)
theorem ro_off (v : Vc) : Ro (Fc.off c v : HM T _) := ro_bind (ro_tableOf _) fun r => by
  cases r with
  | none => exact ro_ret _
  | some t => exact ro_bind (ro_sizesOf t) fun _ => ro_liftO _
theorem ro_readEl (p i : Nat) : Ro (readEl p i : HM T _) := ro_bind (ro_cell p) fun x => by split <;> [exact ro_ret _; exact ro_undef]

/-! ### Nodes -/

/-- the table of a node that may be changed -/
theorem fr_theTable (hs : Held m0 S s.mem) (hp : TabOk m0 S s.mem p) : Fr m0 S (theTable p) s (fun _ t => ¬ Shut m0 S t) := by
  obtain ⟨x, hx, hx'⟩ := hp
  refine fr_bind (Q := fun _ r => ∀ t, r = some t → ¬ Shut m0 S t) ?_ fun s1 r hs1 _ hr => fr_mono (fr_liftO hs1 r) fun _ t h => hr t h
  refine fr_ro' hs (ro_tableOf p) fun r hr => ?_
  unfold tableOf M.bind cell at hr
  rw [hx] at hr
  simp only at hr
  cases hd : x.data with
  | leaf => rw [hd] at hr; cases hr
  | table => rw [hd] at hr; cases hr
  | inner cap r' ks =>
    rw [hd] at hr
    cases hr
    rintro t rfl
    exact hx' _ _ _ hd

theorem fr_setTable {r : Option Nat} (hs : Held m0 S s.mem) (hp : ¬ Shut m0 S p) (hr : ∀ t, r = some t → ¬ Shut m0 S t) : Fr m0 S (setTable p r) s (fun m _ => TabOk m0 S m p) := by
  refine fr_bind (fr_cell hs p) fun s1 x hs1 _ hx => ?_
  cases hd : x.data with
  | leaf => trivial
  | table => trivial
  | inner cap r' ks =>
    have h := fr_modify (f := fun x => { x with data := Dat.inner cap r ks }) hs1 hp (fun y _ _ cap' t ks' h => by cases h; exact hr _ rfl)
    simp only
    unfold Fr Mm.modify at *
    rw [hx] at h ⊢
    exact ⟨h.1, h.2.1, _, upd_self, fun cap' t ks' h => by cases h; exact hr _ rfl⟩

theorem fr_setKids {ks : List Nat} (hs : Held m0 S s.mem) (hp : ¬ Shut m0 S p) : Fr m0 S (setKids p ks) s (fun _ _ => True) := by
  refine fr_bind (fr_cell hs p) fun s1 x hs1 _ hx => ?_
  cases hd : x.data with
  | leaf => trivial
  | table => trivial
  | inner cap r' ks =>
    refine fr_ite (fun _ => fr_modify hs1 hp fun y hy h cap' t ks' h' => ?_) fun _ => trivial
    rw [hx] at hy
    cases hy
    cases h'
    exact h _ _ _ hd

theorem fr_setSizes {sz : List Nat} (hs : Held m0 S s.mem) (hp : ¬ Shut m0 S p) : Fr m0 S (setSizes p sz) s (fun _ _ => True) := by
  refine fr_bind (fr_cell hs p) fun s1 x hs1 _ hx => ?_
  cases hd : x.data with
  | leaf => trivial
  | inner => trivial
  | table cap sz' => exact fr_ite (fun _ => fr_modify hs1 hp fun y _ _ cap' t ks' h' => by cases h') fun _ => trivial

theorem fr_putKid (hs : Held m0 S s.mem) (hp : ¬ Shut m0 S p) : Fr m0 S (putKid p i q) s (fun _ _ => True) :=
  fr_bind (fr_ro hs (ro_kids p)) fun _ _ hs1 _ _ => fr_ite (fun _ => fr_setKids hs1 hp) fun _ => fr_ite (fun _ => fr_setKids hs1 hp) fun _ => trivial

/-- a node that may be written to -/
abbrev Open (m0 : Mem Dat T) (S : Nat → Prop) (m : Mem Dat T) (p : Nat) : Prop := ¬ Shut m0 S p ∧ TabOk m0 S m p

theorem fr_owned {x : HM T Nat} (hx : Fr m0 S x s (Open m0 S)) : Fr m0 S (x.bind fun p => (setTok E p e).bind fun _ => M.ret p) s (Open m0 S) :=
  fr_bind hx fun _ _ hs1 _ h => fr_bind (fr_setTok hs1 h.1) fun _ _ hs2 k2 _ => fr_ret hs2 ⟨h.1, k2 _ h.2⟩

variable {own : Option Nat}

theorem fr_newInner (hE : E.Fresh) (hs : Held m0 S s.mem) : Fr m0 S (newInner c E own n) s (Open m0 S) := by
  cases own with
  | none => exact fr_alloc hE hs _ _ (fun _ _ _ h => by cases h)
  | some e => exact fr_owned (fr_alloc hE hs _ _ (fun _ _ _ h => by cases h))

theorem fr_newLeaf (hE : E.Fresh) (hs : Held m0 S s.mem) : Fr m0 S (newLeaf c E own n) s (Open m0 S) := by
  cases own with
  | none => exact fr_alloc hE hs _ _ (fun _ _ _ h => by cases h)
  | some e => exact fr_owned (fr_alloc hE hs _ _ (fun _ _ _ h => by cases h))

theorem fr_newTable (hE : E.Fresh) (hs : Held m0 S s.mem) : Fr m0 S (newTable c E own n) s (Open m0 S) := by
  cases own with
  | none => exact fr_alloc hE hs _ _ (fun _ _ _ h => by cases h)
  | some e => exact fr_owned (fr_alloc hE hs _ _ (fun _ _ _ h => by cases h))

theorem fr_newInnerR (hE : E.Fresh) (hs : Held m0 S s.mem) : Fr m0 S (newInnerR c E own n) s (Open m0 S) :=
  fr_bind (fr_newInner hE hs) fun _ _ hs1 _ h1 => fr_bind (fr_guard (fr_newTable hE hs1) fun _ hs2 => sv_dealloc hs2 h1.1) fun _ _ hs2 _ h2 =>
    fr_bind (fr_setTable hs2 h1.1 fun _ h => by cases h; exact h2.1) fun _ _ hs3 _ h3 => fr_ret hs3 ⟨h1.1, h3⟩

theorem fr_newTableK {k : Kind} (hE : E.Fresh) (hs : Held m0 S s.mem) : Fr m0 S (newTableK c E k) s (Open m0 S) := by
  refine fr_bind (fr_tick hs _) fun s1 _ hs1 _ _ => ?_
  obtain ⟨h1, h2⟩ := fr_new hE hs1
  refine ⟨held_upd hs1 h1, fun q hq => ?_, h1, _, upd_self, fun cap t ks h => by cases h⟩
  obtain ⟨x, hx, hx'⟩ := hq
  exact ⟨x, by simp only [upd_ne (h2 q ⟨x, hx, hx'⟩)]; exact hx, hx'⟩

theorem fr_dec (hg : E.gc = true) (hs : Held m0 S s.mem) : Fr m0 S (dec E p) s (fun _ b => b = false) :=
  fr_bind (fr_cell hs p) fun _ _ hs1 _ _ => by rw [if_pos hg]; exact fr_ret hs1 rfl

theorem fr_mutTable {k : Kind} (hg : E.gc = true) (hE : E.Fresh) (he : S e) (hs : Held m0 S s.mem) (hp : ¬ Shut m0 S p) : Fr m0 S (mutTable c E k e p n) s (fun _ t => ¬ Shut m0 S t) := by
  refine fr_bind (fr_ro hs (ro_theTable p)) fun s1 t hs1 _ _ => fr_bind (fr_canMutate hg he hs1) fun s2 b hs2 _ hb => ?_
  refine fr_ite (fun h => fr_ret hs2 (hb h)) fun _ => ?_
  refine fr_bind (fr_newTableK hE hs2) fun s3 t' hs3 _ h3 => fr_bind (fr_ro hs3 (ro_sizesOf t)) fun s4 _ hs4 _ _ => fr_bind (fr_ro hs4 (ro_liftO _)) fun s5 _ hs5 _ _ =>
    fr_bind (fr_setSizes hs5 h3.1) fun s6 _ hs6 _ _ => ?_
  refine fr_bind (fr_dec hg hs6) fun s7 b hs7 _ hb => ?_
  subst hb
  exact fr_bind (fr_ret (Q := fun _ _ => True) hs7 trivial) fun s8 _ hs8 _ _ => fr_bind (fr_setTok hs8 h3.1) fun s9 _ hs9 _ _ =>
    fr_bind (fr_setTable hs9 hp fun _ h => by cases h; exact h3.1) fun _ _ hs10 _ _ => fr_ret hs10 h3.1

theorem fr_doCopyInner {dst src : Nat} (hg : E.gc = true) (hs : Held m0 S s.mem) (hp : ¬ Shut m0 S dst) : Fr m0 S (doCopyInner E dst src n) s (fun _ _ => True) :=
  fr_bind (fr_ro hs (ro_kids src)) fun _ _ hs1 _ _ => fr_bind (fr_ro hs1 (ro_liftO _)) fun _ _ hs2 _ _ => fr_bind (fr_ro hs2 (ro_incAll hg _)) fun _ _ hs3 _ _ => fr_setKids hs3 hp

theorem fr_doCopyInnerR {dst src : Nat} (hg : E.gc = true) (hs : Held m0 S s.mem) (hp : Open m0 S s.mem dst) : Fr m0 S (doCopyInnerR E dst src n) s (fun _ _ => True) :=
  fr_bind (fr_ro hs (ro_theTable src)) fun _ _ hs1 k1 _ => fr_bind (fr_theTable hs1 (k1 _ hp.2)) fun _ _ hs2 _ h2 => fr_bind (fr_doCopyInner hg hs2 hp.1) fun _ _ hs3 _ _ =>
    fr_bind (fr_ro hs3 (ro_sizesOf _)) fun _ _ hs4 _ _ => fr_bind (fr_ro hs4 (ro_liftO _)) fun _ _ hs5 _ _ => fr_setSizes hs5 h2

/-! ### Elements -/

theorem fr_copyEl (hs : Held m0 S s.mem) : Fr m0 S (copyEl p i) s (fun _ _ => True) :=
  fr_bind (fr_ro hs (ro_readEl p i)) fun _ _ hs1 _ _ => fr_bind (fr_tick hs1 _) fun _ _ hs2 _ _ => fr_ret hs2 trivial

theorem fr_moveEl (hs : Held m0 S s.mem) (hp : ¬ Shut m0 S p) : Fr m0 S (moveEl p i) s (fun _ _ => True) :=
  fr_bind (fr_cell hs p) fun _ _ hs1 _ _ => by
    split
    · exact fr_bind (fr_setEls hs1 hp) fun _ _ hs2 _ _ => fr_ret hs2 trivial
    · trivial

theorem fr_construct {v : T} (hs : Held m0 S s.mem) (hp : ¬ Shut m0 S p) : Fr m0 S (construct p i v) s (fun _ _ => True) :=
  fr_bind (fr_cell hs p) fun _ _ hs1 _ _ => by
    split
    · exact fr_setEls hs1 hp
    · trivial

theorem fr_assignEl {v : T} (hs : Held m0 S s.mem) (hp : ¬ Shut m0 S p) : Fr m0 S (assignEl p i v) s (fun _ _ => True) :=
  fr_bind (fr_cell hs p) fun _ _ hs1 _ _ => by
    split
    · exact fr_setEls hs1 hp
    · exact fr_setEls hs1 hp
    · trivial

theorem fr_destroy1 (hs : Held m0 S s.mem) (hp : ¬ Shut m0 S p) : Fr m0 S (destroy1 p i) s (fun _ _ => True) :=
  fr_bind (fr_cell hs p) fun _ _ hs1 _ _ => by
    split
    · exact fr_setEls hs1 hp
    · exact fr_setEls hs1 hp
    · trivial

theorem fr_destroyN (hp : ¬ Shut m0 S p) : ∀ (n i : Nat) (s : St Dat T), Held m0 S s.mem → Fr m0 S (destroyN p i n) s (fun _ _ => True)
  | 0, _, _, hs => fr_ret hs trivial
  | n + 1, _, _, hs => fr_bind (fr_destroy1 hs hp) fun _ _ hs1 _ _ => fr_destroyN hp n _ _ hs1

theorem fr_uninitCopyLoop {src dst o : Nat} (hp : ¬ Shut m0 S dst) : ∀ (n i k : Nat) (s : St Dat T), Held m0 S s.mem → Fr m0 S (uninitCopyLoop src dst o i k n) s (fun _ _ => True)
  | 0, _, _, _, hs => fr_ret hs trivial
  | n + 1, _, _, _, hs => fr_bind (fr_guard (fr_bind (fr_copyEl hs) fun _ _ hs1 _ _ => fr_construct hs1 hp) fun _ hs1 => fr_sv (fr_destroyN hp _ _ _ hs1)) fun _ _ hs1 _ _ =>
      fr_uninitCopyLoop hp n _ _ _ hs1

theorem fr_uninitCopy {src dst o : Nat} (hs : Held m0 S s.mem) (hp : ¬ Shut m0 S dst) : Fr m0 S (uninitCopy src i n dst o) s (fun _ _ => True) := fr_uninitCopyLoop hp n i 0 s hs

theorem sv_delLeaf (hs : Held m0 S s.mem) (hp : ¬ Shut m0 S p) : Sv m0 S (delLeaf c E p n) s :=
  sv_bind (fr_destroyN hp _ _ _ hs) fun _ _ hs1 _ => sv_bind (fr_cell hs1 p) fun _ _ hs2 _ => sv_dealloc hs2 hp

theorem sv_delInner (hs : Held m0 S s.mem) (hp : ¬ Shut m0 S p) : Sv m0 S (delInner c E p n) s :=
  sv_bind (fr_cell hs p) fun _ _ hs2 _ => sv_dealloc hs2 hp

theorem sv_delInnerR (hg : E.gc = true) (hs : Held m0 S s.mem) (hp : ¬ Shut m0 S p) : Sv m0 S (delInnerR c E p n) s :=
  sv_bind (fr_ro hs (ro_theTable p)) fun _ _ hs1 _ => sv_bind (fr_dec hg hs1) fun _ b hs2 hb => by
    subst hb
    exact sv_bind (fr_ret (Q := fun _ _ => True) hs2 trivial) fun _ _ hs3 _ => sv_delInner hs3 hp

theorem sv_delInnerRE (hg : E.gc = true) (hs : Held m0 S s.mem) (hp : ¬ Shut m0 S p) : Sv m0 S (delInnerRE c E p) s :=
  sv_bind (fr_ro hs (ro_theTable p)) fun _ _ hs1 _ => sv_bind (fr_dec hg hs1) fun _ b hs2 hb => by
    subst hb
    exact sv_bind (fr_ret (Q := fun _ _ => True) hs2 trivial) fun _ _ hs3 _ => sv_dealloc hs3 hp

theorem sv_freeInner (hs : Held m0 S s.mem) (hp : ¬ Shut m0 S p) : Sv m0 S (freeInner c E own p n) s := by
  cases own with
  | none => exact sv_delInner hs hp
  | some e => exact sv_dealloc hs hp

theorem fr_copyLeafN {allocn src : Nat} (hE : E.Fresh) (hs : Held m0 S s.mem) : Fr m0 S (copyLeafN c E own allocn src n) s (Open m0 S) :=
  fr_bind (fr_newLeaf hE hs) fun _ _ hs1 _ h1 => fr_bind (fr_guard (fr_uninitCopy hs1 h1.1) fun _ hs2 => sv_dealloc hs2 h1.1) fun _ _ hs2 k2 _ => fr_ret hs2 ⟨h1.1, k2 _ h1.2⟩

theorem fr_copyLeafI {src : Nat} (hE : E.Fresh) (hs : Held m0 S s.mem) : Fr m0 S (copyLeafI c E own src i n) s (Open m0 S) :=
  fr_bind (fr_newLeaf hE hs) fun _ _ hs1 _ h1 => fr_bind (fr_guard (fr_uninitCopy hs1 h1.1) fun _ hs2 => sv_dealloc hs2 h1.1) fun _ _ hs2 k2 _ => fr_ret hs2 ⟨h1.1, k2 _ h1.2⟩

theorem fr_copyLeaf2 {a n1 b n2 : Nat} (hE : E.Fresh) (hs : Held m0 S s.mem) : Fr m0 S (copyLeaf2 c E own a n1 b n2) s (Open m0 S) :=
  fr_bind (fr_newLeaf hE hs) fun _ _ hs1 _ h1 => fr_bind (fr_guard (fr_uninitCopy hs1 h1.1) fun _ hs2 => sv_dealloc hs2 h1.1) fun _ _ hs2 k2 _ =>
    fr_bind (fr_guard (fr_uninitCopy hs2 h1.1) fun _ hs3 => sv_bind (fr_destroyN h1.1 _ _ _ hs3) fun _ _ hs4 _ => sv_dealloc hs4 h1.1) fun _ _ hs3 k3 _ => fr_ret hs3 ⟨h1.1, k3 _ (k2 _ h1.2)⟩

/-! ### Pushing a tail -/

theorem fr_makePath (hE : E.Fresh) : ∀ (k p : Nat) (s : St Dat T), Held m0 S s.mem → Fr m0 S (makePath c E own k p) s (fun _ _ => True)
  | 0, _, _, hs => fr_ret hs trivial
  | k + 1, p, s, hs => fr_bind (fr_newInner hE hs) fun _ _ hs1 _ h1 => fr_bind (fr_guard (fr_makePath hE k p _ hs1) fun _ hs2 => sv_dealloc hs2 h1.1) fun _ _ hs2 _ _ =>
      fr_bind (fr_putKid hs2 h1.1) fun _ _ hs3 _ _ => fr_ret hs3 trivial

theorem fr_pushTailNew {tail : Nat} (hg : E.gc = true) (hE : E.Fresh) : ∀ (L p : Nat) (sh : Shp) (s : St Dat T), Held m0 S s.mem → Fr m0 S (pushTailNew c E own tail L p sh) s (fun _ _ => True)
  | 0, _, _, _, _ => trivial
  | L + 1, p, sh, s, hs => by
    unfold pushTailNew
    refine fr_bind (fr_ro hs (ro_liftO _)) fun _ _ hs1 _ _ => fr_bind (fr_ro hs1 (ro_liftO _)) fun _ _ hs2 _ _ => fr_bind (fr_ro hs2 (ro_liftO _)) fun _ _ hs3 _ _ => fr_bind (fr_newInner hE hs3) fun _ _ hs4 _ h4 => ?_
    refine fr_bind (fr_guard (fr_ite (fun _ => fr_bind (fr_ro hs4 (ro_liftO _)) fun _ _ hs5 _ _ => fr_bind (fr_ro hs5 (ro_kid _ _)) fun _ _ hs6 _ _ => fr_pushTailNew hg hE L _ _ _ hs6)
      fun _ => fr_makePath hE _ _ _ hs4) fun _ hs5 => sv_freeInner hs5 h4.1) fun _ _ hs5 _ _ => ?_
    exact fr_bind (fr_doCopyInner hg hs5 h4.1) fun _ _ hs6 _ _ => fr_bind (fr_putKid hs6 h4.1) fun _ _ hs7 _ _ => fr_ret hs7 trivial

theorem fr_pushTailMutV {tail : Nat} (hg : E.gc = true) (hE : E.Fresh) (he : S e) : ∀ (L p : Nat) (sh : Shp) (s : St Dat T), Held m0 S s.mem → Fr m0 S (VecHeap.pushTailMut c E e tail L p sh) s (fun _ _ => True)
  | 0, _, _, _, _ => trivial
  | L + 1, p, sh, s, hs => by
    unfold VecHeap.pushTailMut
    refine fr_bind (fr_canMutate hg he hs) fun _ b hs0 _ hb => fr_ite (fun h => ?_) fun _ => ?_
    · refine fr_bind (fr_ro hs0 (ro_liftO _)) fun _ _ hs1 _ _ => fr_bind (fr_ro hs1 (ro_liftO _)) fun _ _ hs2 _ _ => fr_bind (fr_ro hs2 (ro_liftO _)) fun _ _ hs3 _ _ => ?_
      refine fr_bind (fr_ite (fun _ => fr_bind (fr_ro hs3 (ro_liftO _)) fun _ _ hs5 _ _ => fr_bind (fr_ro hs5 (ro_kid _ _)) fun _ _ hs6 _ _ => fr_pushTailMutV hg hE he L _ _ _ hs6)
        fun _ => fr_makePath hE _ _ _ hs3) fun _ _ hs5 _ _ => ?_
      exact fr_bind (fr_putKid hs5 (hb h)) fun _ _ hs7 _ _ => fr_ret hs7 trivial
    · exact fr_bind (fr_pushTailNew hg hE _ _ _ _ hs0) fun _ _ hs1 _ _ => fr_bind (fr_ro hs1 (ro_decV hg _ _ _)) fun _ _ hs2 _ _ => fr_ret hs2 trivial

theorem fr_pushChild {tail L ni : Nat} {r : Option Nat} (hE : E.Fresh) (hs : Held m0 S s.mem) : Fr m0 S (pushChild c E own tail L ni r) s (fun _ _ => True) := by
  cases r with
  | some ch => exact fr_ret hs trivial
  | none => exact fr_ite (fun _ => fr_bind (fr_makePath hE _ _ _ hs) fun _ _ hs1 _ _ => fr_ret hs1 trivial) fun _ => fr_ret hs trivial

theorem fr_pushCopy {sz : List Nat} {ts ni ch : Nat} (hg : E.gc = true) (hE : E.Fresh) (hs : Held m0 S s.mem) : Fr m0 S (pushCopy c E own p sz ts ni ch) s (fun _ _ => True) :=
  fr_bind (fr_newInnerR hE hs) fun _ _ hs1 _ h1 => fr_bind (fr_doCopyInnerR hg hs1 h1) fun _ _ hs2 k2 _ => fr_bind (fr_theTable hs2 (k2 _ h1.2)) fun _ _ hs3 _ h3 =>
    fr_bind (fr_putKid hs3 h1.1) fun _ _ hs4 _ _ => fr_bind (fr_ro hs4 (ro_liftO _)) fun _ _ hs5 _ _ => fr_bind (fr_ro hs5 (ro_sizesOf _)) fun _ _ hs6 _ _ =>
      fr_bind (fr_setSizes hs6 h3) fun _ _ hs7 _ _ => fr_ret hs7 trivial

theorem sv_pushCatch {tail ts L sh idx children ni ch : Nat} (hg : E.gc = true) (hs : Held m0 S s.mem) : Sv m0 S (pushCatch c E tail ts L sh idx children ni ch) s := by
  unfold pushCatch
  split
  · exact fr_sv (fr_ro hs (ro_bind (ro_inc hg _) fun _ => ro_decInner hg _ _ _ _))
  · exact hs

theorem fr_pushTailNewR {tail ts : Nat} (hg : E.gc = true) (hE : E.Fresh) : ∀ (L p : Nat) (sh : RShp) (s : St Dat T), Held m0 S s.mem → Fr m0 S (pushTailNewR c E own tail ts L p sh) s (fun _ _ => True)
  | L, p, .reg sh, s, hs => by
    cases L <;> (unfold pushTailNewR; exact fr_bind (fr_pushTailNew hg hE _ _ _ _ hs) fun _ _ hs1 _ _ => fr_ret hs1 trivial)
  | 0, _, .rel _ _, _, _ => by unfold pushTailNewR; trivial
  | L + 1, p, .rel sh sz, s, hs => by
    unfold pushTailNewR
    refine fr_bind (fr_ro hs (ro_liftO _)) fun _ _ hs1 _ _ => fr_ite (fun _ => fr_ret hs1 trivial) fun _ => ?_
    refine fr_bind (Q := fun _ _ => True) (fr_ite (fun _ => fr_bind (fr_ro hs1 (ro_kid _ _)) fun _ _ hs2 _ _ => fr_bind (fr_ro hs2 (ro_kidRel _ _ _)) fun _ _ hs3 _ _ => fr_bind (fr_pushTailNewR hg hE L _ _ _ hs3) fun _ _ hs4 _ _ => fr_pushChild hE hs4)
      fun _ => fr_bind (fr_makePath hE _ _ _ hs1) fun _ _ hs2 _ _ => fr_ret hs2 trivial) fun _ y hs2 _ _ => ?_
    cases y with
    | none => exact fr_ret hs2 trivial
    | some y => exact fr_bind (fr_guard (fr_pushCopy hg hE hs2) fun _ hs3 => sv_pushCatch hg hs3) fun _ _ hs3 _ _ => fr_ret hs3 trivial

theorem fr_pushTailMutR {tail ts : Nat} (hg : E.gc = true) (hE : E.Fresh) (he : S e) : ∀ (L p : Nat) (sh : RShp) (s : St Dat T), Held m0 S s.mem → Fr m0 S (pushTailMutR c E e tail ts L p sh) s (fun _ _ => True)
  | L, p, .reg sh, s, hs => by
    cases L <;> (unfold pushTailMutR; exact fr_bind (fr_pushTailMutV hg hE he _ _ _ _ hs) fun _ _ hs1 _ _ => fr_ret hs1 trivial)
  | 0, _, .rel _ _, _, _ => by unfold pushTailMutR; trivial
  | L + 1, p, .rel sh sz, s, hs => by
    unfold pushTailMutR
    refine fr_bind (fr_canMutate hg he hs) fun _ b hs0 _ hb => fr_ite (fun h => ?_) fun _ => ?_
    · refine fr_bind (fr_ro hs0 (ro_liftO _)) fun _ _ hs1 _ _ => fr_ite (fun _ => fr_ret hs1 trivial) fun _ => ?_
      refine fr_bind (Q := fun _ _ => True) (fr_ite (fun _ => fr_bind (fr_ro hs1 (ro_kid _ _)) fun _ _ hs2 _ _ => fr_bind (fr_ro hs2 (ro_kidRel _ _ _)) fun _ _ hs3 _ _ => fr_bind (fr_pushTailMutR hg hE he L _ _ _ hs3) fun _ _ hs4 _ _ => fr_pushChild hE hs4)
        fun _ => fr_bind (fr_makePath hE _ _ _ hs1) fun _ _ hs2 _ _ => fr_ret hs2 trivial) fun _ y hs2 _ _ => ?_
      cases y with
      | none => exact fr_ret hs2 trivial
      | some y =>
        exact fr_bind (fr_mutTable hg hE he hs2 (hb h)) fun _ _ hs3 _ h3 => fr_bind (fr_putKid hs3 (hb h)) fun _ _ hs4 _ _ => fr_bind (fr_ro hs4 (ro_liftO _)) fun _ _ hs5 _ _ =>
          fr_bind (fr_ro hs5 (ro_sizesOf _)) fun _ _ hs6 _ _ => fr_bind (fr_ro hs6 (ro_liftO _)) fun _ _ hs7 _ _ => fr_bind (fr_setSizes hs7 h3) fun _ _ hs8 _ _ => fr_ret hs8 trivial
    · refine fr_bind (fr_pushTailNewR hg hE _ _ _ _ hs0) fun _ n hs1 _ _ => ?_
      cases n with
      | none => exact fr_ret hs1 trivial
      | some n => exact fr_bind (fr_ro hs1 (ro_decR hg _ _ _)) fun _ _ hs2 _ _ => fr_ret hs2 trivial

theorem fr_fcPushTail {root shift size tail ts : Nat} (hg : E.gc = true) (hE : E.Fresh) (hs : Held m0 S s.mem) : Fr m0 S (Fc.pushTail c E root shift size tail ts) s (fun _ _ => True) := by
  refine fr_bind (fr_ro hs (ro_tableOf _)) fun _ r hs1 _ _ => ?_
  cases r with
  | some t =>
    refine fr_bind (fr_ro hs1 (ro_sizesOf t)) fun _ _ hs2 _ _ => fr_bind (fr_pushTailNewR hg hE _ _ _ _ hs2) fun _ n hs3 _ _ => ?_
    cases n with
    | some n => exact fr_ret hs3 trivial
    | none =>
      refine fr_bind (fr_newInnerR hE hs3) fun _ _ hs4 _ h4 => fr_guard ?_ fun _ hs5 => sv_delInnerR hg hs5 h4.1
      exact fr_bind (fr_makePath hE _ _ _ hs4) fun _ _ hs5 k5 _ => fr_bind (fr_ro hs5 (ro_inc hg _)) fun _ _ hs6 k6 _ => fr_bind (fr_putKid hs6 h4.1) fun _ _ hs7 k7 _ => fr_bind (fr_putKid hs7 h4.1) fun _ _ hs8 k8 _ =>
        fr_bind (fr_theTable hs8 (k8 _ (k7 _ (k6 _ (k5 _ h4.2))))) fun _ _ hs9 _ h9 => fr_bind (fr_setSizes hs9 h9) fun _ _ hs10 _ _ => fr_ret hs10 trivial
  | none =>
    refine fr_ite (fun _ => ?_) fun _ => fr_ite (fun _ => ?_) fun _ => ?_
    · refine fr_bind (fr_newInner hE hs1) fun _ _ hs4 _ h4 => fr_guard ?_ fun _ hs5 => sv_delInner hs5 h4.1
      exact fr_bind (fr_makePath hE _ _ _ hs4) fun _ _ hs5 k5 _ => fr_bind (fr_ro hs5 (ro_inc hg _)) fun _ _ hs6 k6 _ => fr_bind (fr_putKid hs6 h4.1) fun _ _ hs7 k7 _ => fr_bind (fr_putKid hs7 h4.1) fun _ _ hs8 k8 _ => fr_ret hs8 trivial
    · exact fr_bind (fr_pushTailNew hg hE _ _ _ _ hs1) fun _ _ hs2 _ _ => fr_ret hs2 trivial
    · exact fr_bind (fr_makePath hE _ _ _ hs1) fun _ _ hs2 _ _ => fr_ret hs2 trivial

theorem fr_fcPushTailMut {root shift size tail ts : Nat} (hg : E.gc = true) (hE : E.Fresh) (he : S e) (hs : Held m0 S s.mem) : Fr m0 S (Fc.pushTailMut c E e root shift size tail ts) s (fun _ _ => True) := by
  refine fr_bind (fr_ro hs (ro_tableOf _)) fun _ r hs1 _ _ => ?_
  cases r with
  | some t =>
    refine fr_bind (fr_ro hs1 (ro_sizesOf t)) fun _ _ hs2 _ _ => fr_bind (fr_pushTailMutR hg hE he _ _ _ _ hs2) fun _ n hs3 _ _ => ?_
    cases n with
    | some n => exact fr_ret hs3 trivial
    | none =>
      refine fr_bind (fr_newInnerR hE hs3) fun _ _ hs4 _ h4 => fr_guard ?_ fun _ hs5 => sv_delInnerRE hg hs5 h4.1
      exact fr_bind (fr_makePath hE _ _ _ hs4) fun _ _ hs5 k5 _ => fr_bind (fr_putKid hs5 h4.1) fun _ _ hs7 k7 _ => fr_bind (fr_putKid hs7 h4.1) fun _ _ hs8 k8 _ =>
        fr_bind (fr_theTable hs8 (k8 _ (k7 _ (k5 _ h4.2)))) fun _ _ hs9 _ h9 => fr_bind (fr_setSizes hs9 h9) fun _ _ hs10 _ _ => fr_ret hs10 trivial
  | none =>
    refine fr_ite (fun _ => ?_) fun _ => fr_ite (fun _ => ?_) fun _ => ?_
    · refine fr_bind (fr_newInner hE hs1) fun _ _ hs4 _ h4 => fr_guard ?_ fun _ hs5 => sv_dealloc hs5 h4.1
      exact fr_bind (fr_makePath hE _ _ _ hs4) fun _ _ hs5 k5 _ => fr_bind (fr_putKid hs5 h4.1) fun _ _ hs7 k7 _ => fr_bind (fr_putKid hs7 h4.1) fun _ _ hs8 k8 _ => fr_ret hs8 trivial
    · exact fr_bind (fr_pushTailMutV hg hE he _ _ _ _ hs1) fun _ _ hs2 _ _ => fr_ret hs2 trivial
    · exact fr_bind (fr_makePath hE _ _ _ hs1) fun _ _ hs2 _ _ => fr_bind (fr_ro hs2 (ro_decEmpty hg _)) fun _ _ hs3 _ _ => fr_ret hs3 trivial

theorem fr_mutableTail {v : Vc} (hg : E.gc = true) (hE : E.Fresh) (he : S e) (hs : Held m0 S s.mem) : Fr m0 S (Vc.mutableTail c E e v n) s (fun _ v => ¬ Shut m0 S v.tail) :=
  fr_bind (fr_canMutate hg he hs) fun _ _ hs1 _ hb => fr_ite (fun h => fr_ret hs1 (hb h)) fun _ =>
    fr_bind (fr_copyLeafN hE hs1) fun _ _ hs2 _ h2 => fr_bind (fr_ro hs2 (ro_decV hg _ _ _)) fun _ _ hs3 _ _ => fr_ret hs3 h2.1

theorem fr_concatTail {share : Bool} {l r : Vc} {o : Nat} (hg : E.gc = true) (hE : E.Fresh) (hs : Held m0 S s.mem) : Fr m0 S (Fc.concatTail c E own share l o r) s (fun _ _ => True) := by
  refine fr_ite (fun _ => ?_) fun _ => fr_ite (fun _ => ?_) fun _ => ?_
  · refine fr_bind (fr_fcPushTail hg hE hs) fun _ _ hs1 _ _ => fr_bind (Q := fun _ _ => True) (fr_ite (fun _ => fr_ro hs1 (ro_inc hg _)) fun _ => fr_ret hs1 trivial) fun _ _ hs2 _ _ =>
      fr_bind (fr_ro hs2 (ro_inc hg _)) fun _ _ hs3 _ _ => fr_ret hs3 trivial
  · exact fr_bind (fr_copyLeaf2 hE hs) fun _ _ hs1 _ _ => fr_bind (fr_ro hs1 (ro_inc hg _)) fun _ _ hs3 _ _ => fr_ret hs3 trivial
  · refine fr_bind (fr_copyLeaf2 hE hs) fun _ _ hs1 _ h1 => fr_guard (fr_bind (fr_copyLeafI hE hs1) fun _ _ hs2 _ h2 => fr_guard ?_ fun _ hs3 => sv_delLeaf hs3 h2.1) fun _ hs3 => sv_delLeaf hs3 h1.1
    exact fr_bind (fr_fcPushTail hg hE hs2) fun _ _ hs3 _ _ => fr_ret hs3 trivial

end FlexHeap
