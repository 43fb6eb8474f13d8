import Verif.ChampHeap.Cost
import Verif.ChampHeap.Examples

/-!
# What operations of maps and sets cost (C49)
-/

namespace ChampHeap
open Mm Champ

section world
variable {K T β δ : Type} {c : Cfg K T} {kd : Kind} {k n : Nat}

/-- without the request to throw -/
def World.calm (w : World c) : World c := { w with st := w.st.calm }

/-- how a call ends that was to throw at event `n` of kind `kd` and makes at most `k` of them; `r0`: how it ends when nothing is to throw -/
def Within (kd : Kind) (k n : Nat) (r r0 : Ans c β) : Prop :=
  match r with
  | .ok w' b => ∃ n', w'.st.fault = some (kd, n') ∧ n ≤ n' + k ∧ r0 = .ok w'.calm b
  | .thrown _ => False
  | .ub => r0 = .ub

/-- as `Uses`, for calls -/
def WUses (kd : Kind) (k : Nat) (x : WM c β) : Prop := ∀ w n, w.st.fault = some (kd, n) → k ≤ n → Within kd k n (x w) (x w.calm)

theorem within_mono {r r0 : Ans c β} {m : Nat} (hr : Within kd k m r r0) (h : k ≤ n) : Within kd n m r r0 := by
  cases r with
  | ok w' b =>
    obtain ⟨n', h1, h2, h3⟩ := hr
    exact ⟨n', h1, by omega, h3⟩
  | thrown _ => exact hr
  | ub => exact hr

theorem wuses_mono {x : WM c β} (hx : WUses kd k x) (h : k ≤ n) : WUses kd n x :=
  fun s m hs hm => within_mono (hx s m hs (by omega)) h

theorem wuses_pure {f : World c → World c} {g : World c → β} (hf : ∀ w, (f w).st.fault = w.st.fault ∧ f w.calm = (f w).calm ∧ g w.calm = g w) : WUses kd n (fun w => .ok (f w) (g w) : WM c β) :=
  fun s m hs _ => ⟨m, (hf s).1.trans hs, by omega, by show Ans.ok _ _ = _; rw [(hf s).2.1, (hf s).2.2]⟩

theorem wuses_ret (b : β) : WUses kd n (WM.ret b : WM c β) := wuses_pure fun _ => ⟨rfl, rfl, rfl⟩
theorem wuses_push (h : Obj) : WUses kd n (push h : WM c Unit) := wuses_pure fun _ => ⟨rfl, rfl, rfl⟩
theorem wuses_setCh (i : Nat) (x : Ch) : WUses kd 0 (setCh i x : WM c Unit) := wuses_pure fun _ => ⟨rfl, rfl, rfl⟩
theorem wuses_setOwner (i t : Nat) : WUses kd 0 (setOwner i t : WM c Unit) := wuses_pure fun _ => ⟨rfl, rfl, rfl⟩

theorem wuses_bind {x : WM c β} {f : β → WM c δ} (hx : WUses kd k x) (h : k ≤ n) (hf : ∀ b, WUses kd (n - k) (f b)) : WUses kd n (x.bind f) := by
  intro s m hs hm
  have h1 := hx s m hs (by omega)
  simp only [WM.bind]
  cases hx : x s with
  | ok s' b =>
    rw [hx] at h1
    obtain ⟨m', h2, h3, h4⟩ := h1
    rw [h4]
    have h5 := hf b s' m' h2 (by omega)
    simp only
    cases hr : f b s' with
    | ok s'' d =>
      rw [hr] at h5
      obtain ⟨m'', h6, h7, h8⟩ := h5
      exact ⟨m'', h6, by omega, h8⟩
    | thrown _ => rw [hr] at h5; exact h5.elim
    | ub => rw [hr] at h5; exact h5
  | thrown s' => rw [hx] at h1; exact h1.elim
  | ub =>
    rw [hx] at h1
    simp only [Within] at h1 ⊢
    rw [h1]

theorem wuses_lift {x : HM c.W T β} (hx : Uses kd k x) : WUses kd k (lift x : WM c β) := by
  intro w n hw hk
  have h1 := hx w.st n hw hk
  simp only [lift]
  rw [show w.calm.st = w.st.calm from rfl]
  cases h : x w.st with
  | ok s' b =>
    rw [h] at h1
    obtain ⟨n', h2, h3, h4⟩ := h1
    rw [h4]
    exact ⟨n', h2, h3, rfl⟩
  | thrown _ => rw [h] at h1; exact h1.elim
  | ub =>
    rw [h] at h1
    simp only [Spent] at h1
    rw [h1]
    rfl

theorem wuses_withObj {i : Nat} {q : Option Kd} {f : Obj → WM c Unit} (h : ∀ o, WUses kd n (f o)) : WUses kd n (withObj i q f) := by
  intro w m hw hm
  unfold withObj
  rw [show w.calm.objs = w.objs from rfl]
  cases ho : w.objs[i]? with
  | none => exact ⟨m, hw, by omega, rfl⟩
  | some o =>
    by_cases hq : q = none ∨ q = some o.kd
    · simp only [if_pos hq]
      exact h o w m hw hm
    · simp only [if_neg hq]
      exact ⟨m, hw, by omega, rfl⟩
end world

section ops
variable {K T P : Type} (A : Api K T P) (E : Env (Dat A.cfg.W) T) (em : Nat) {kd : Kind}

theorem uses_chEmpty : Uses kd 0 (Ch.empty A E em) := by unfold Ch.empty; exact uses_bind (uses_empty A.cfg E em) (Nat.le_refl _) fun _ => uses_ret _
theorem uses_chCopy (x : Ch) : Uses kd 0 (x.copy A E) := by unfold Ch.copy; uses
theorem uses_chDestroy (x : Ch) : Uses kd 0 (x.destroy A E) := uses_release E _ _
theorem uses_replaced (x : Ch) (b : Bool) : Uses kd 0 (x.replaced A E b) := by
  unfold Ch.replaced
  split
  · exact uses_ret _
  · exact uses_release E _ _

theorem uses_apply (hk : kd ≠ .copy) (hu : kd ≠ .user) (x : Ch) (o : Op K T P) : Uses kd (amt (A.cfg.maxDepth + 3) 0 0 0 kd) (x.apply A E em o) := by
  cases o with
  | insert v =>
    refine uses_bind (k := 0) (uses_mono uses_tick_user (by uses_arith)) (by omega) fun _ => uses_bind (uses_doPut A.cfg E hk hu _ _ _ _ _) (by omega) fun r => ?_
    rcases r with _ | ⟨q, added⟩ <;> uses
  | update k f =>
    refine uses_bind (k := 0) (uses_mono uses_tick_user (by uses_arith)) (by omega) fun _ => uses_bind (uses_doPut A.cfg E hk hu _ _ _ _ _) (by omega) fun r => ?_
    rcases r with _ | ⟨q, added⟩ <;> uses
  | updateIfExists k f =>
    refine uses_bind (k := 0) (uses_mono uses_tick_user (by uses_arith)) (by omega) fun _ => uses_bind (uses_doPut A.cfg E hk hu _ _ _ _ _) (by omega) fun r => ?_
    rcases r with _ | ⟨q, added⟩ <;> uses
  | erase k =>
    refine uses_bind (k := 0) (uses_mono uses_tick_user (by uses_arith)) (by omega) fun _ =>
      uses_bind (uses_of_usesB (uses_doSub A.cfg E hk hu em _ _ _ _ _) (by intro b; cases b <;> simp only [subAmt] <;> uses_arith)) (by uses_arith) fun r => ?_
    rcases r with _ | _ | _ <;> uses

theorem uses_applyMut (hk : kd ≠ .copy) (hu : kd ≠ .user) (e : Nat) (x : Ch) (o : Op K T P) : Uses kd (amt (A.cfg.maxDepth + 3) 0 0 0 kd) (x.applyMut A E em e o) := by
  cases o with
  | insert v =>
    refine uses_bind (k := 0) (uses_mono uses_tick_user (by uses_arith)) (by omega) fun _ => uses_bind (uses_doPutMut A.cfg E hk hu _ _ _ _ _ _) (by omega) fun r => ?_
    rcases r with _ | ⟨q, added, m⟩
    · exact uses_undef
    · exact uses_bind (uses_replaced A E x m) (by omega) fun _ => uses_ret _
  | update k f =>
    refine uses_bind (k := 0) (uses_mono uses_tick_user (by uses_arith)) (by omega) fun _ => uses_bind (uses_doPutMut A.cfg E hk hu _ _ _ _ _ _) (by omega) fun r => ?_
    rcases r with _ | ⟨q, added, m⟩
    · exact uses_undef
    · exact uses_bind (uses_replaced A E x m) (by omega) fun _ => uses_ret _
  | updateIfExists k f =>
    refine uses_bind (k := 0) (uses_mono uses_tick_user (by uses_arith)) (by omega) fun _ => uses_bind (uses_doPutMut A.cfg E hk hu _ _ _ _ _ _) (by omega) fun r => ?_
    rcases r with _ | ⟨q, added, m⟩
    · exact uses_ret _
    · exact uses_bind (uses_replaced A E x m) (by omega) fun _ => uses_ret _
  | erase k =>
    refine uses_bind (k := 0) (uses_mono uses_tick_user (by uses_arith)) (by omega) fun _ =>
      uses_bind (uses_of_usesB (uses_doSubMut A.cfg E hk hu em _ _ _ _ _ _) (by intro b; cases b <;> simp only [subAmtM] <;> uses_arith)) (by uses_arith) fun r => ?_
    rcases r with _ | ⟨_, _⟩ | ⟨q, m⟩
    · exact uses_ret _
    · exact uses_undef
    · exact uses_bind (uses_replaced A E x m) (by omega) fun _ => uses_ret _

theorem wuses_newTok : WUses kd (amt (if E.gc then 1 else 0) 0 0 0 kd) (newTok A E) := by
  refine wuses_bind (wuses_lift ?_) (Nat.le_refl _) fun _ => wuses_pure fun _ => ⟨rfl, rfl, rfl⟩
  split
  · exact uses_tick_alloc
  · exact uses_ret _

theorem wuses_ownerFor (q : Kd) : WUses kd (amt (if E.gc then 1 else 0) 0 0 0 kd) (ownerFor A E q) := by
  cases q
  · exact wuses_ret _
  · exact wuses_newTok A E

/-- calls that make an object from another, or end one -/
def Handles : Cmd K T P → Prop
  | .ofRange _ | .apply _ _ | .applyMove _ _ | .applyMut _ _ => False
  | _ => True

/-- operations on object `i`, persistent, on an rvalue, or in place -/
def OpOn (i : Nat) (o : Op K T P) (x : Cmd K T P) : Prop := x = .apply i o ∨ x = .applyMove i o ∨ x = .applyMut i o

theorem wuses_handles (x : Cmd K T P) (hx : Handles x) : WUses kd (amt (if E.gc then 2 else 0) 0 0 0 kd) (step A E em x) := by
  have le : amt (if E.gc then 1 else 0) 0 0 0 kd + amt (if E.gc then 1 else 0) 0 0 0 kd ≤ amt (if E.gc then 2 else 0) 0 0 0 kd := by
    cases kd <;> simp only [amt] <;> first | omega | (split <;> omega)
  cases x with
  | new q => exact wuses_bind (wuses_ownerFor (kd := kd) A E q) (by omega) fun t => wuses_bind (wuses_lift (uses_chEmpty A E em)) (by omega) fun v => wuses_push _
  | ofRange xs => exact hx.elim
  | copy i =>
    refine wuses_withObj fun h => ?_
    exact wuses_bind (wuses_ownerFor A E _) (by omega) fun t => wuses_bind (wuses_ownerFor A E _) (by omega) fun t' => wuses_bind (wuses_setOwner _ _) (by omega) fun _ =>
      wuses_bind (wuses_lift (uses_chCopy A E h.ch)) (by omega) fun _ => wuses_push _
  | move i => exact wuses_withObj fun h => wuses_bind (wuses_lift (uses_chEmpty A E em)) (by omega) fun x => wuses_bind (wuses_setCh _ _) (by omega) fun _ => wuses_push _
  | assign i j =>
    refine wuses_withObj fun h => wuses_withObj fun h' => ?_
    exact wuses_bind (wuses_ownerFor A E _) (by omega) fun t => wuses_bind (wuses_setOwner _ _) (by omega) fun _ =>
      wuses_bind (wuses_ownerFor A E _) (by omega) fun t => wuses_bind (wuses_setOwner _ _) (by omega) fun _ =>
      wuses_bind (wuses_lift (uses_chCopy A E h'.ch)) (by omega) fun _ =>
      wuses_bind (wuses_setCh _ _) (by omega) fun _ => wuses_mono (wuses_lift (uses_chDestroy A E _)) (by omega)
  | moveAssign i j =>
    refine wuses_withObj fun h => wuses_withObj fun h' => ?_
    exact wuses_bind (wuses_setOwner _ _) (by omega) fun _ => wuses_bind (wuses_setCh _ _) (by omega) fun _ => wuses_mono (wuses_setCh _ _) (by omega)
  | destroy i => exact wuses_withObj fun h => wuses_bind (wuses_lift (uses_chDestroy A E _)) (by omega) fun _ => wuses_pure fun _ => ⟨rfl, rfl, rfl⟩
  | transient i =>
    exact wuses_withObj fun h => wuses_bind (wuses_ownerFor A E _) (by omega) fun t => wuses_bind (wuses_lift (uses_chCopy A E h.ch)) (by omega) fun _ => wuses_push _
  | transientMove i =>
    exact wuses_withObj fun h => wuses_bind (wuses_lift (uses_chEmpty A E em)) (by omega) fun x => wuses_bind (wuses_setCh _ _) (by omega) fun _ =>
      wuses_bind (wuses_ownerFor A E _) (by omega) fun t => wuses_push _
  | persistent i =>
    exact wuses_withObj fun h => wuses_bind (wuses_ownerFor A E _) (by omega) fun t => wuses_bind (wuses_setOwner _ _) (by omega) fun _ =>
      wuses_bind (wuses_lift (uses_chCopy A E h.ch)) (by omega) fun _ => wuses_push _
  | persistentMove i => exact wuses_withObj fun h => wuses_bind (wuses_lift (uses_chEmpty A E em)) (by omega) fun x => wuses_bind (wuses_setCh _ _) (by omega) fun _ => wuses_push _
  | apply i o => exact hx.elim
  | applyMove i o => exact hx.elim
  | applyMut i o => exact hx.elim

theorem wuses_op (hk : kd ≠ .copy) (hu : kd ≠ .user) {i : Nat} {o : Op K T P} {x : Cmd K T P} (hx : OpOn i o x) : WUses kd (amt (A.cfg.maxDepth + 3) 0 0 0 kd) (step A E em x) := by
  rcases hx with rfl | rfl | rfl
  · exact wuses_withObj fun h => wuses_bind (wuses_lift (uses_apply A E em hk hu _ _)) (by omega) fun _ => wuses_push _
  · refine wuses_withObj fun h => ?_
    split
    · exact wuses_bind (wuses_lift (uses_apply A E em hk hu _ _)) (by omega) fun _ => wuses_push _
    · exact wuses_bind (wuses_lift (uses_applyMut A E em hk hu _ _ _)) (by omega) fun _ => wuses_mono (wuses_setCh _ _) (by omega)
  · exact wuses_withObj fun h => wuses_bind (wuses_lift (uses_applyMut A E em hk hu _ _ _)) (by omega) fun _ => wuses_mono (wuses_setCh _ _) (by omega)

end ops

section
variable {K T P : Type} {A : Api K T P} {E : Env (Dat A.cfg.W) T} {em : Nat} {w : World A.cfg} {M : List (Spec.SObj K T)}

/-- The call `x` makes at most `k` events of kind `kd`: if the first `k` succeed, it does not throw, no more of them happen, and it does
what it does when nothing is to throw. -/
def AtMost (A : Api K T P) (E : Env (Dat A.cfg.W) T) (em : Nat) (w : World A.cfg) (x : Cmd K T P) (kd : Kind) (k : Nat) : Prop :=
  ∀ n, k ≤ n → ∃ w' n', call A E em (some (kd, n)) x w = .ok w' () ∧ w'.st.fault = some (kd, n') ∧ n ≤ n' + k ∧ call A E em none x w = .ok w'.calm ()

/-- it is enough that the call, when nothing is to throw, is defined -/
theorem atMost_of (hA : A.Lawful) (hE : E.Fresh) (h : Reached A E em w M) {x : Cmd K T P} (ha : Spec.Allowed A E.gc M none x) {kd : Kind} {k : Nat} (hx : WUses kd k (step A E em x)) :
    AtMost A E em w x kd k := by
  intro n hn
  have h1 := call_out hA hE (h.rel hA hE) none x ha
  have h2 : Within kd k n (call A E em (some (kd, n)) x w) (call A E em none x w) := hx { w with st := { w.st with fault := some (kd, n) } } n rfl hn
  cases hc : call A E em (some (kd, n)) x w with
  | ub => rw [hc] at h2; rw [show call A E em none x w = .ub from h2] at h1; exact h1.elim
  | thrown _ => rw [hc] at h2; exact h2.elim
  | ok w' u =>
    rw [hc] at h2
    obtain ⟨n', h3, h4, h5⟩ := h2
    exact ⟨w', n', rfl, h3, h4, h5⟩

/-- **C49**, maps, sets and tables.  An insertion, update or erasure, persistent, on an rvalue or in place, allocates at most three
nodes more than a tree has levels, however many elements there are and whatever is shared.  (A node with its values counts as
two.) -/
theorem C49_map_ops (hA : A.Lawful) (hE : E.Fresh) (h : Reached A E em w M) {i : Nat} {o : Op K T P} {x : Cmd K T P} (hx : OpOn i o x) (ha : Spec.Allowed A E.gc M none x) :
    AtMost A E em w x .alloc (A.cfg.maxDepth + 3) :=
  atMost_of hA hE h ha (wuses_op A E em (kd := .alloc) (by decide) (by decide) hx)

/-- **C49**, maps, sets and tables.  Construction, copies, moves, assignments, destruction, `transient()` and `persistent()` allocate no
node, copy no element, and neither compare nor hash keys.  (Under the collector up to two tokens are allocated.) -/
theorem C49_map_handles (hA : A.Lawful) (hE : E.Fresh) (h : Reached A E em w M) {x : Cmd K T P} (hx : Handles x) (ha : Spec.Allowed A E.gc M none x) :
    AtMost A E em w x .alloc (if E.gc then 2 else 0) ∧ AtMost A E em w x .copy 0 ∧ AtMost A E em w x .user 0 :=
  ⟨atMost_of hA hE h ha (wuses_handles A E em (kd := .alloc) x hx), atMost_of hA hE h ha (wuses_handles A E em (kd := .copy) x hx),
    atMost_of hA hE h ha (wuses_handles A E em (kd := .user) x hx)⟩

end

/-- the hypotheses of `C49_map_ops`; an insertion in place makes at most 35 allocations with two bits of the hash per level -/
example : ∃ w M, Reached idApi idEnv 1 w M ∧ AtMost idApi idEnv 1 w (.applyMut 0 (.insert (2 ^ 63, 1))) .alloc 35 ∧ AtMost idApi idEnv 1 w (.persistent 0) .alloc 0 := by
  obtain ⟨w, fl, h1, hl, _⟩ := C22_programs (em := 1) idApi_lawful (exEnv_fresh _ _ false) erProg erProg_allowed
  have hr : Reached idApi idEnv 1 w _ := ⟨erProg, fl, erProg_allowed, h1, rfl⟩
  have h0 : Spec.Whole (Spec.run idApi false [] ((erProg.map Prod.snd).zip fl)) 0 := by
    match fl, hl with
    | [a, b, d], _ => cases a <;> cases b <;> cases d <;> simp [erProg, Spec.run, Spec.step, Spec.failed, Spec.on, Spec.Whole, Spec.SKd.of, Spec.SKd.kd]
  exact ⟨w, _, hr, C49_map_ops idApi_lawful (exEnv_fresh _ _ false) hr (.inr (.inr rfl)) ⟨rfl, h0⟩, (C49_map_handles idApi_lawful (exEnv_fresh _ _ false) hr (x := .persistent 0) trivial h0).1⟩

/-- and it does make 33: the last of them can be made to fail, but not a 34th -/
example : (run idApi idEnv 1 erProg (start idApi 1)).map
    (fun x => [32, 33, 34].map fun n => match call idApi idEnv 1 (some (.alloc, n)) (.applyMut 0 (.insert (2 ^ 63, 1))) x.1 with | .ok w _ => w.st.fault.map Prod.snd | _ => none) =
    some [none, some 0, some 1] := by decide +kernel

end ChampHeap
