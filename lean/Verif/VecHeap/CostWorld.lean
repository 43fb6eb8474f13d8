import Verif.VecHeap.Cost
import Verif.VecHeap.Progs

/-!
# What calls use (helper lemmas for C49)
-/

namespace VecHeap
open Mm Rrb

variable {T β δ : Type} {kd : Kind} {k n : Nat}

/-- without the request to throw -/
def World.calm (w : World T) : World T := { w with st := w.st.calm }

/-- how a call ends that was to throw at event `n` of kind `kd` and makes at most `k` of them; `r0`: how it ends when nothing is to throw -/
def Within (kd : Kind) (k n : Nat) (r r0 : Ans T β) : Prop :=
  match r with
  | .ok w' b => ∃ n', w'.st.fault = some (kd, n') ∧ n ≤ n' + k ∧ r0 = .ok w'.calm b
  | .thrown _ => False
  | .ub => r0 = .ub

/-- as `Uses`, for calls -/
def WUses (kd : Kind) (k : Nat) (x : WM T β) : Prop := ∀ w n, w.st.fault = some (kd, n) → k ≤ n → Within kd k n (x w) (x w.calm)

theorem within_mono {r r0 : Ans T β} {m : Nat} (hr : Within kd k m r r0) (h : k ≤ n) : Within kd n m r r0 := by
  cases r with
  | ok w' b =>
    obtain ⟨n', h1, h2, h3⟩ := hr
    exact ⟨n', h1, by omega, h3⟩
  | thrown _ => exact hr
  | ub => exact hr

theorem wuses_mono {x : WM T β} (hx : WUses kd k x) (h : k ≤ n) : WUses kd n x :=
  fun s m hs hm => within_mono (hx s m hs (by omega)) h

theorem wuses_pure {f : World T → World T} {g : World T → β} (hf : ∀ w, (f w).st.fault = w.st.fault ∧ f w.calm = (f w).calm ∧ g w.calm = g w) : WUses kd n (fun w => .ok (f w) (g w) : WM T β) :=
  fun s m hs _ => ⟨m, (hf s).1.trans hs, by omega, by show Ans.ok _ _ = _; rw [(hf s).2.1, (hf s).2.2]⟩

theorem wuses_ret (b : β) : WUses kd n (WM.ret b : WM T β) := wuses_pure fun _ => ⟨rfl, rfl, rfl⟩
theorem wuses_push (h : Obj) : WUses kd n (push h : WM T Unit) := wuses_pure fun _ => ⟨rfl, rfl, rfl⟩
theorem wuses_setVc (i : Nat) (x : Vc) : WUses kd 0 (setVc i x : WM T Unit) := wuses_pure fun _ => ⟨rfl, rfl, rfl⟩
theorem wuses_setOwner (i t : Nat) : WUses kd 0 (setOwner i t : WM T Unit) := wuses_pure fun _ => ⟨rfl, rfl, rfl⟩

theorem wuses_bind {x : WM T β} {f : β → WM T δ} (hx : WUses kd k x) (h : k ≤ n) (hf : ∀ b, WUses kd (n - k) (f b)) : WUses kd n (x.bind f) := by
  intro s m hs hm
  have h1 := hx s m hs (by omega)
  simp only [WM.bind]
  cases hx : x s with
  | ok s' b =>
    rw [hx] at h1
    obtain ⟨m', h2, h3, h4⟩ := h1
    rw [h4]
    have h5 := hf b s' m' h2 (by omega)
    simp only
    cases hr : f b s' with
    | ok s'' d =>
      rw [hr] at h5
      obtain ⟨m'', h6, h7, h8⟩ := h5
      exact ⟨m'', h6, by omega, h8⟩
    | thrown _ => rw [hr] at h5; exact h5.elim
    | ub => rw [hr] at h5; exact h5
  | thrown s' => rw [hx] at h1; exact h1.elim
  | ub =>
    rw [hx] at h1
    simp only [Within] at h1 ⊢
    rw [h1]

theorem wuses_lift {x : HM T β} (hx : Uses kd k x) : WUses kd k (lift x) := by
  intro w n hw hk
  have h1 := hx w.st n hw hk
  simp only [lift]
  rw [show w.calm.st = w.st.calm from rfl]
  cases h : x w.st with
  | ok s' b =>
    rw [h] at h1
    obtain ⟨n', h2, h3, h4⟩ := h1
    rw [h4]
    exact ⟨n', h2, h3, rfl⟩
  | thrown _ => rw [h] at h1; exact h1.elim
  | ub =>
    rw [h] at h1
    simp only [Spent] at h1
    rw [h1]
    rfl

theorem wuses_withObj {i : Nat} {q : Option Kd} {f : Obj → WM T Unit} {w : World T} {m : Nat} (hw : w.st.fault = some (kd, m)) (hm : n ≤ m)
    (h : ∀ o, w.objs[i]? = some o → WUses kd n (f o)) :
    Within kd n m (withObj i q f w) (withObj i q f w.calm) := by
  unfold withObj
  rw [show w.calm.objs = w.objs from rfl]
  cases ho : w.objs[i]? with
  | none => exact ⟨m, hw, by omega, rfl⟩
  | some o =>
    by_cases hq : q = none ∨ q = some o.kd
    · simp only [if_pos hq]
      exact h o ho w m hw hm
    · simp only [if_neg hq]
      exact ⟨m, hw, by omega, rfl⟩

section
variable (c : Cfg) (K : Kit T) (E : Env Dat T) (er et : Nat)

theorem wuses_newTok : WUses kd (amt (if E.gc then 1 else 0) 0 0 0 kd) (newTok E) := by
  refine wuses_bind (wuses_lift ?_) (Nat.le_refl _) fun _ => wuses_pure fun _ => ⟨rfl, rfl, rfl⟩
  split
  · exact uses_tick_alloc
  · exact uses_ret _

theorem wuses_ownerFor (q : Kd) : WUses kd (amt (if E.gc then 1 else 0) 0 0 0 kd) (ownerFor E q) := by
  cases q
  · exact wuses_ret _
  · exact wuses_newTok E

/-- bounds for the operations of a kind of vector; the first argument of `b`: whether in place -/
structure KitUses (b : Bool → Vc → K.Op → Kind → Nat) (kd : Kind) : Prop where
  apply : ∀ v o, Uses kd (b false v o kd) (K.apply E er et v o)
  applyMut : ∀ e v o, Uses kd (b true v o kd) (K.applyMut E er et e v o)
  drop : ∀ v, Uses kd 0 (K.drop E v)

variable {K}

/-- a bound for a call: that of the operation on the object it is called on, or up to two tokens of owners -/
def callUses (b : Bool → Vc → K.Op → Kind → Nat) (w : World T) : Cmd T K.Op → Kind → Nat
  | .apply i o, kd => ((w.objs[i]?).map fun h => b false h.v o kd).getD 0
  | .applyMove i o, kd => ((w.objs[i]?).map fun h => if E.gc then b false h.v o kd else b true h.v o kd + amt 0 0 1 0 kd).getD 0
  | .applyMut i o, kd => ((w.objs[i]?).map fun h => b true h.v o kd + amt 0 0 1 0 kd).getD 0
  | _, kd => amt (if E.gc then 2 else 0) 0 0 0 kd

theorem wuses_inPlace {b : Bool → Vc → K.Op → Kind → Nat} (hK : KitUses K E er et b kd) (i e : Nat) (h : Obj) (o : K.Op) :
    WUses kd (b true h.v o kd + amt 0 0 1 0 kd) (inPlace K E er et i e h o) := by
  unfold inPlace
  refine wuses_bind (wuses_lift (hK.applyMut e h.v o)) (by omega) fun r => wuses_bind (wuses_setVc _ _) (by omega) fun _ => ?_
  split
  · exact wuses_ret _
  · exact wuses_mono (wuses_lift (uses_applyFn _ _ _)) (by omega)

theorem call_uses {b : Bool → Vc → K.Op → Kind → Nat} (hK : KitUses K E er et b kd) (x : Cmd T K.Op) (hx : ∀ xs, x ≠ .ofRange xs) (w : World T) (n : Nat) (hn : callUses E b w x kd ≤ n) :
    Within kd (callUses E b w x kd) n (call c K E er et (some (kd, n)) x w) (call c K E er et none x w) := by
  have le : amt (if E.gc then 1 else 0) 0 0 0 kd + amt (if E.gc then 1 else 0) 0 0 0 kd ≤ amt (if E.gc then 2 else 0) 0 0 0 kd := by
    cases kd <;> simp only [amt] <;> first | omega | (split <;> omega)
  unfold call
  cases x with
  | new q =>
    simp only [callUses] at hn ⊢
    exact wuses_bind (wuses_ownerFor (kd := kd) E q) (by omega) (fun t => wuses_bind (wuses_lift (uses_empty c E er et)) (by omega) fun v => wuses_push _) _ n rfl hn
  | ofRange xs => exact absurd rfl (hx xs)
  | copy i =>
    simp only [callUses] at hn ⊢
    refine wuses_withObj rfl hn fun h _ => ?_
    exact wuses_bind (wuses_ownerFor E _) (by omega) fun t => wuses_bind (wuses_ownerFor E _) (by omega) fun t' => wuses_bind (wuses_setOwner _ _) (by omega) fun _ =>
      wuses_bind (wuses_lift (uses_bind (uses_share E h.v) (Nat.le_refl _) fun _ => uses_ret _)) (by omega) fun _ => wuses_push _
  | move i =>
    simp only [callUses] at hn ⊢
    refine wuses_withObj rfl hn fun h _ => ?_
    exact wuses_bind (wuses_lift (uses_empty c E er et)) (by omega) fun x => wuses_bind (wuses_setVc _ _) (by omega) fun _ => wuses_push _
  | assign i j =>
    simp only [callUses] at hn ⊢
    refine wuses_withObj rfl hn fun h _ w m hw hm => ?_
    refine wuses_withObj hw hm fun h' _ => ?_
    exact wuses_bind (wuses_ownerFor E _) (by omega) fun t => wuses_bind (wuses_setOwner _ _) (by omega) fun _ =>
      wuses_bind (wuses_ownerFor E _) (by omega) fun t => wuses_bind (wuses_setOwner _ _) (by omega) fun _ =>
      wuses_bind (wuses_lift (uses_bind (uses_share E h'.v) (Nat.le_refl _) fun _ => uses_ret _)) (by omega) fun _ =>
      wuses_bind (wuses_setVc _ _) (by omega) fun _ => wuses_mono (wuses_lift (hK.drop _)) (by omega)
  | moveAssign i j =>
    simp only [callUses] at hn ⊢
    refine wuses_withObj rfl hn fun h _ w m hw hm => ?_
    refine wuses_withObj hw hm fun h' _ => ?_
    exact wuses_bind (wuses_setOwner _ _) (by omega) fun _ => wuses_bind (wuses_setVc _ _) (by omega) fun _ => wuses_mono (wuses_setVc _ _) (by omega)
  | destroy i =>
    simp only [callUses] at hn ⊢
    refine wuses_withObj rfl hn fun h _ => ?_
    exact wuses_bind (wuses_lift (hK.drop _)) (by omega) fun _ => wuses_pure fun _ => ⟨rfl, rfl, rfl⟩
  | transient i =>
    simp only [callUses] at hn ⊢
    refine wuses_withObj rfl hn fun h _ => ?_
    exact wuses_bind (wuses_ownerFor E _) (by omega) fun t =>
      wuses_bind (wuses_lift (uses_bind (uses_share E h.v) (Nat.le_refl _) fun _ => uses_ret _)) (by omega) fun _ => wuses_push _
  | transientMove i =>
    simp only [callUses] at hn ⊢
    refine wuses_withObj rfl hn fun h _ => ?_
    exact wuses_bind (wuses_lift (uses_empty c E er et)) (by omega) fun x => wuses_bind (wuses_setVc _ _) (by omega) fun _ =>
      wuses_bind (wuses_ownerFor E _) (by omega) fun t => wuses_push _
  | persistent i =>
    simp only [callUses] at hn ⊢
    refine wuses_withObj rfl hn fun h _ => ?_
    exact wuses_bind (wuses_ownerFor E _) (by omega) fun t => wuses_bind (wuses_setOwner _ _) (by omega) fun _ =>
      wuses_bind (wuses_lift (uses_bind (uses_share E h.v) (Nat.le_refl _) fun _ => uses_ret _)) (by omega) fun _ => wuses_push _
  | persistentMove i =>
    simp only [callUses] at hn ⊢
    refine wuses_withObj rfl hn fun h _ => ?_
    exact wuses_bind (wuses_lift (uses_empty c E er et)) (by omega) fun x => wuses_bind (wuses_setVc _ _) (by omega) fun _ => wuses_push _
  | apply i o =>
    refine wuses_withObj rfl hn fun h (ho : w.objs[i]? = some h) => ?_
    simp only [callUses, ho, Option.map_some, Option.getD_some]
    exact wuses_bind (wuses_lift (hK.apply h.v o)) (by omega) fun x => wuses_push _
  | applyMove i o =>
    refine wuses_withObj rfl hn fun h (ho : w.objs[i]? = some h) => ?_
    simp only [callUses, ho, Option.map_some, Option.getD_some]
    by_cases hg : E.gc = true
    · simp only [if_pos hg]
      exact wuses_bind (wuses_lift (hK.apply h.v o)) (by omega) fun x => wuses_push _
    · simp only [if_neg hg]
      exact wuses_inPlace E er et hK i 0 h o
  | applyMut i o =>
    refine wuses_withObj rfl hn fun h (ho : w.objs[i]? = some h) => ?_
    simp only [callUses, ho, Option.map_some, Option.getD_some]
    exact wuses_inPlace E er et hK i h.tok h o

end
end VecHeap
