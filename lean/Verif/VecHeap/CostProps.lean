import Verif.VecHeap.CostWorld
import Verif.VecHeap.Examples

/-!
# What operations of vectors cost (C49)

A call is asked to throw at the event number `n` of some kind: the allocation of a node, the copy of an element, the call of
the user's function.  That it does not, and that the counter has not gone down by more than `k`, says that it makes at most `k`
such events.
-/

namespace VecHeap
open Mm Rrb

section generic
variable {T : Type} {c : Cfg} {K : Kit T} {E : Env Dat T} {S : Spec.Ops K.Op T} {Good : Tree T → List T → Prop} {Tm : Spec.Terms K.Op} {er et : Nat} {w : World T} {M : List (Spec.SObj T)}

/-- The call `x` makes at most `k` events of kind `kd`: if the first `k` succeed, it does not throw, no more of them happen, and it does
what it does when nothing is to throw. -/
def AtMost (c : Cfg) (K : Kit T) (E : Env Dat T) (er et : Nat) (w : World T) (x : Cmd T K.Op) (kd : Kind) (k : Nat) : Prop :=
  ∀ n, k ≤ n → ∃ w' n', call c K E er et (some (kd, n)) x w = .ok w' () ∧ w'.st.fault = some (kd, n') ∧ n ≤ n' + k ∧ call c K E er et none x w = .ok w'.calm ()

/-- it is enough that the call, when nothing is to throw, is defined -/
theorem within_ok (hA : Laws c E K S Good Tm) (h : Rel c E Good er et w M) {x : Cmd T K.Op} (ha : Spec.Allowed S M x) {kd : Kind} {k : Nat}
    (hok : Tm.On E.gc w none x) (hw : ∀ n, k ≤ n → Within kd k n (call c K E er et (some (kd, n)) x w) (call c K E er et none x w)) : AtMost c K E er et w x kd k := by
  intro n hn
  have h1 := call_out hA h none x ha hok
  have h2 := hw n hn
  cases hx : call c K E er et (some (kd, n)) x w with
  | ub => rw [hx] at h2; rw [show call c K E er et none x w = .ub from h2] at h1; exact h1.elim
  | thrown _ => rw [hx] at h2; exact h2.elim
  | ok w' u =>
    rw [hx] at h2
    obtain ⟨n', h3, h4, h5⟩ := h2
    exact ⟨w', n', rfl, h3, h4, h5⟩

/-- the tree of an object -/
theorem Rel.tree (h : Rel c E Good er et w M) {i : Nat} {s : Spec.SObj T} (hi : M[i]? = some s) : ∃ o t, w.objs[i]? = some o ∧ Good t s.val ∧ Is o.v t := by
  obtain ⟨G, h⟩ := h
  obtain ⟨g, hg, hl⟩ : ∃ g, G[i]? = some g ∧ Local E.gc g s := by
    have h1 := (List.forall₂_iff_get.mp h.loc)
    obtain ⟨hlt, rfl⟩ := List.getElem?_eq_some_iff.mp hi
    exact ⟨G[i]'(by rw [h1.1]; exact hlt), List.getElem?_eq_getElem _, h1.2 i (by rw [h1.1]; exact hlt) hlt⟩
  obtain ⟨h2, h3⟩ := h.sound.tree g (List.mem_of_getElem? hg)
  exact ⟨g.obj, g.N, by rw [h.objs, List.getElem?_map, hg]; rfl, hl.2.2 ▸ h2, h3⟩

/-- the calls that make an object from another, or end one -/
def Handles {T Op : Type} : Cmd T Op → Prop
  | .ofRange _ | .apply _ _ | .applyMove _ _ | .applyMut _ _ => False
  | _ => True

/-- with operations that do nothing -/
def quiet (K : Kit T) : Kit T := { K with apply := fun _ _ _ v _ => Mm.M.ret v, applyMut := fun _ _ _ _ v _ => Mm.M.ret (v, none) }

theorem handles_uses (hA : Laws c E K S Good Tm) (hr : Rel c E Good er et w M) (hd : ∀ {kd} v, Uses kd 0 (K.drop E v)) {x : Cmd T K.Op} (hx : Handles x) (ha : Spec.Allowed S M x) :
    AtMost c K E er et w x .alloc (if E.gc then 2 else 0) ∧ AtMost c K E er et w x .copy 0 ∧ AtMost c K E er et w x .user 0 ∧ AtMost c K E er et w x .table 0 := by
  have key : ∀ {kd : Kind}, AtMost c K E er et w x kd (amt (if E.gc then 2 else 0) 0 0 0 kd) := by
    intro kd
    have hK : KitUses (quiet K) E er et (fun _ _ _ _ => 0) kd := ⟨fun _ _ => uses_ret _, fun _ _ _ => uses_ret _, fun v => hd v⟩
    have hu : callUses (K := quiet K) E (fun _ _ _ _ => 0) w x kd = amt (if E.gc then 2 else 0) 0 0 0 kd := by
      cases x <;> first | exact hx.elim | rfl
    refine within_ok hA hr ha (by cases x <;> first | exact hx.elim | trivial) fun n hn => ?_
    have hc : call c K E er et (some (kd, n)) x w = call c (quiet K) E er et (some (kd, n)) x w := by cases x <;> first | exact hx.elim | rfl
    have hc' : call c K E er et none x w = call c (quiet K) E er et none x w := by cases x <;> first | exact hx.elim | rfl
    rw [← hu] at hn
    rw [hc, hc', ← hu]
    exact call_uses c E er et hK x (by rintro xs rfl; exact hx) w n hn
  exact ⟨key, key, key, key⟩

end generic

section
variable {T : Type} {c : Cfg} {E : Env Dat T} {er et : Nat} {w w' : World T} {M : List (Spec.SObj T)}

/-- bounds for the operations of `vector` -/
def vecUses (c : Cfg) : Bool → Vc → VecOp T → Kind → Nat
  | false, v, _ => amt (levels c v.shift + 2) (2 ^ c.BL) 1 0
  | true, v, _ => amt (levels c v.shift + 2) (2 ^ c.BL) 0 0

theorem vector_uses {kd : Kind} : KitUses (vectorKit T c) E er et (vecUses c) kd where
  apply v o := by
    cases o with
    | push x => exact uses_mono (uses_pushBack c E v x) (by unfold vecUses; uses_arith)
    | set i x => exact uses_mono (uses_update c E false _ v i) (by unfold vecUses; uses_arith)
    | update i f => exact uses_mono (uses_update c E f.user f.f v i) (by unfold vecUses; uses_arith)
    | take n => exact uses_mono (uses_take c E er et v n) (by unfold vecUses; uses_arith)
  applyMut e v o := by
    cases o with
    | push x => exact uses_mono (uses_bind (uses_pushBackMut c E e v x) (Nat.le_refl _) fun _ => uses_ret _) (by unfold vecUses; uses_arith)
    | set i x => exact uses_mono (uses_bind (uses_getMut c E e v i) (Nat.le_refl _) fun _ => uses_ret _) (by unfold vecUses; uses_arith)
    | update i f => exact uses_mono (uses_bind (uses_getMut c E e v i) (Nat.le_refl _) fun _ => uses_ret _) (by unfold vecUses; uses_arith)
    | take n => exact uses_mono (uses_bind (uses_takeMut c E e er et v n) (Nat.le_refl _) fun _ => uses_ret _) (by unfold vecUses; uses_arith)
  drop v := uses_drop c E v

/-- a vector is no deeper than its size requires -/
theorem vec_levels (hB : 0 < c.B) {t : Tree T} {l : List T} (h : Vec.Inv c t l) {D : Nat} (hD : 0 < D) (hl : l.length ≤ 2 ^ (c.BL + c.B * D)) : levels c t.shift ≤ D := by
  obtain ⟨pre, tl, rfl, hsz, ht, hpre, hroot⟩ := h
  rcases hroot with ⟨-, -, hs⟩ | ⟨L, hs, -, -, hL⟩
  · rw [hs, show c.BL = c.BL + c.B * 0 by simp, levels_shift hB]; omega
  · rw [hs, levels_shift hB]
    rcases hL with rfl | hL
    · omega
    · by_contra hc
      have : cap c D ≤ cap c L := Nat.pow_le_pow_right (by omega) (by have := Nat.mul_le_mul_left c.B (show D ≤ L by omega); omega)
      simp only [cap] at this hL
      simp only [List.length_append] at hl
      omega

/-- operations on object `i`, persistent, on an rvalue, or in place -/
def OpOn {T Op : Type} (i : Nat) (o : Op) (x : Cmd T Op) : Prop := x = .apply i o ∨ x = .applyMove i o ∨ x = .applyMut i o

/-- **C49**, vectors.  An operation on a vector or transient of up to `2^(BL + B·D)` elements allocates at most `D + 2` nodes, copies
at most as many elements as fit into a leaf, and calls the function given to it at most once, whatever is shared with other
objects. -/
theorem C49_vector_ops (hB : 0 < c.B) (hE : E.Fresh) (hne : er ≠ et) (h : VReached c E er et w M) {i : Nat} {s : Spec.SObj T} (hi : M[i]? = some s) {D : Nat} (hD : 0 < D)
    (hl : s.val.length ≤ 2 ^ (c.BL + c.B * D)) {o : VecOp T} {x : Cmd T (VecOp T)} (hx : OpOn i o x) (ha : Spec.Allowed (Spec.vecOps T) M x) :
    AtMost c (vectorKit T c) E er et w x .alloc (D + 2) ∧ AtMost c (vectorKit T c) E er et w x .copy (2 ^ c.BL) ∧ AtMost c (vectorKit T c) E er et w x .user 1 := by
  have hA := vector_laws (T := T) hB hE
  have hr := h.rel hA hne
  obtain ⟨ob, t, h1, h2, h3⟩ := hr.tree hi
  have h4 := vec_levels hB h2 hD hl
  rw [← h3.shift] at h4
  have key : ∀ {kd : Kind}, AtMost c (vectorKit T c) E er et w x kd (amt (D + 2) (2 ^ c.BL) 1 0 kd) := by
    intro kd
    have hu : callUses (K := vectorKit T c) E (vecUses c) w x kd ≤ amt (D + 2) (2 ^ c.BL) 1 0 kd := by
      rcases hx with rfl | rfl | rfl
      · simp only [callUses, h1, Option.map_some, Option.getD_some, vecUses]; uses_arith
      · simp only [callUses, h1, Option.map_some, Option.getD_some, vecUses]
        by_cases hg : E.gc = true
        · rw [if_pos hg]; uses_arith
        · rw [if_neg hg]; uses_arith
      · simp only [callUses, h1, Option.map_some, Option.getD_some, vecUses]; uses_arith
    refine within_ok hA hr ha (Spec.Terms.free_on _) fun n hn => ?_
    exact within_mono (call_uses c E er et vector_uses x (by rcases hx with rfl | rfl | rfl <;> exact fun _ h => by cases h) w n (Nat.le_trans hu hn)) hu
  exact ⟨key, key, key⟩

/-- **C49**, vectors.  Construction, copies, moves, assignments, destruction, `transient()` and `persistent()` allocate no node and
copy no element, however many there are.  (Under the collector up to two tokens are allocated.) -/
theorem C49_vector_handles (hB : 0 < c.B) (hE : E.Fresh) (hne : er ≠ et) (h : VReached c E er et w M) {x : Cmd T (VecOp T)} (hx : Handles x) (ha : Spec.Allowed (Spec.vecOps T) M x) :
    AtMost c (vectorKit T c) E er et w x .alloc (if E.gc then 2 else 0) ∧ AtMost c (vectorKit T c) E er et w x .copy 0 ∧ AtMost c (vectorKit T c) E er et w x .user 0 :=
  have hA := vector_laws (T := T) hB hE
  have h := handles_uses hA (h.rel hA hne) (uses_drop c E) hx ha
  ⟨h.1, h.2.1, h.2.2.1⟩

end

/-- six elements, in leaves of two, below one inner node: one level -/
theorem sixReached (gc : Bool) : ∃ w M, VReached c2 (exEnv Nat gc) 1 2 w M ∧ run c2 (vectorKit Nat c2) (exEnv Nat gc) 1 2 sixProg (start c2 (exEnv Nat gc) 1 2) = some (w, [false]) ∧
    M = [⟨.value, [1, 2, 3, 4, 5, 6]⟩] := by
  have hal : Spec.AllAllowed (Spec.vecOps Nat) (exEnv Nat gc).gc [] sixProg := ⟨trivial, trivial, fun h => absurd rfl h⟩
  obtain ⟨w, fl, M, h1, h0, hf, hr, h2, h3⟩ := C25_programs (c := c2) (er := 1) (et := 2) (by decide) (exEnv_fresh Nat gc) (by decide) sixProg hal
  match fl, h0 with
  | [a], _ =>
    have ha : a = false := by
      cases a with
      | false => rfl
      | true => exact absurd rfl (hf ((none, .ofRange [1, 2, 3, 4, 5, 6]), true) (by simp [sixProg]) rfl)
    subst ha
    exact ⟨w, M, h2, h1, hr⟩

/-- the hypotheses of `C49_vector_ops`; with `D = 2`, a `push_back` makes at most four allocations -/
example (gc : Bool) : ∃ w M, VReached c2 (exEnv Nat gc) 1 2 w M ∧ AtMost c2 (vectorKit Nat c2) (exEnv Nat gc) 1 2 w (.apply 0 (.push 7)) .alloc 4 := by
  obtain ⟨w, M, h, -, rfl⟩ := sixReached gc
  exact ⟨w, _, h, (C49_vector_ops (D := 2) (by decide) (exEnv_fresh _ _) (by decide) h (i := 0) rfl (by decide) (by decide) (.inl rfl) (fun s _ h => by cases h)).1⟩

/-- and it does make three: the third can be made to fail, but not a fourth -/
example : (run c2 (vectorKit Nat c2) (exEnv Nat false) 1 2 sixProg (start c2 (exEnv Nat false) 1 2)).map
    (fun x => (List.range 6).map fun n => match vcall c2 (exEnv Nat false) 1 2 (some (.alloc, n)) (.apply 0 (.push 7)) x.1 with | .ok w _ => w.st.fault.map Prod.snd | _ => none) =
    some [none, none, none, some 0, some 1, some 2] := by decide +kernel

end VecHeap
