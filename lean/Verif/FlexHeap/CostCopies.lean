import Verif.FlexHeap.Keep
import Verif.FlexHeap.Props
import Verif.VecHeap.CostProps

/-!
# What the operations of flexible vectors copy (helper lemmas for C49)

If no leaf in memory has more than `2^BL` elements: how many elements a leaf is taken to have is read from tables in memory.
-/

namespace FlexHeap
open Mm Rrb VecHeap

variable {T : Type} (c : Cfg) (E : Env Dat T) {N : Nat}

section
variable {β δ γ : Type} {kd : Kind} {n : Nat}
theorem few_ret (b : β) : FewUses N kd n (M.ret b : HM T β) := few_of (uses_ret b)
theorem few_undef : FewUses N kd n (undef : HM T β) := few_of uses_undef
theorem few_ret_bind {b : β} {f : β → HM T δ} (h : FewUses N kd n (f b)) : FewUses N kd n ((M.ret b).bind f) := h
theorem few_undef_bind {f : β → HM T δ} : FewUses N kd n ((undef : HM T β).bind f) := few_of uses_undef_bind
end

/-- bounds that are known -/
syntax "few0" : tactic
macro_rules | `(tactic| few0) => `(tactic| with_reducible exact few_uninitCopy (Nat.zero_le _))

/-- one step through a computation -/
syntax "few1" : tactic
macro_rules | `(tactic| few1) => `(tactic| first
  | with_reducible exact few_ret _
  | with_reducible exact few_undef
  | with_reducible exact few_undef_bind
  | with_reducible refine few_ret_bind ?_
  | with_reducible refine few_assoc ?_
  | with_reducible refine few_guard_bind ?_
  | with_reducible refine few_guard ?_
  | ((with_reducible eapply few_bind); (focus first | few0 | ((with_reducible apply few_of); uses0)); (focus (keep; done)); (focus uses_arith); (intro _))
  | ((with_reducible eapply few_mono); (focus first | few0 | ((with_reducible apply few_of); uses0)); (focus uses_arith))
  | split)

macro "few" : tactic => `(tactic| repeat' few1)

theorem few_copyLeafN (own : Option Nat) (a src n : Nat) : FewUses N .copy N (copyLeafN c E own a src n) := by unfold copyLeafN; few
theorem few_copyLeaf (own : Option Nat) (src n : Nat) : FewUses N .copy N (copyLeaf c E own src n) := few_copyLeafN c E own n src n
theorem few_copyLeafI (own : Option Nat) (src i n : Nat) : FewUses N .copy N (copyLeafI c E own src i n) := by unfold copyLeafI; few
macro_rules | `(tactic| few0) => `(tactic| with_reducible first | exact few_copyLeaf _ _ _ _ _ | exact few_copyLeafN _ _ _ _ _ _ | exact few_copyLeafI _ _ _ _ _ _)
theorem few_mutableTail (e : Nat) (v : Vc) (n : Nat) : FewUses N .copy N (v.mutableTail c E e n) := by unfold Vc.mutableTail; few
macro_rules | `(tactic| few0) => `(tactic| with_reducible exact few_mutableTail _ _ _ _ _)

theorem few_updateV (user : Bool) (f : T → T) : ∀ L p sh idx, FewUses N .copy N (VecHeap.updateV c E user f L p sh idx)
  | 0, p, sh, idx => by unfold VecHeap.updateV; few
  | L + 1, p, sh, idx => by
    have ih := few_updateV user f L
    unfold VecHeap.updateV
    few
    refine few_bind (ih _ _ _) (keep_updateV c E _ _ _ _ _ _) (by uses_arith) fun q => ?_
    few
theorem few_getMutV (e : Nat) : ∀ L p sh idx, FewUses N .copy N (VecHeap.getMut c E e L p sh idx)
  | 0, p, sh, idx => by unfold VecHeap.getMut; few
  | L + 1, p, sh, idx => by
    have ih := few_getMutV e L
    unfold VecHeap.getMut
    few
    all_goals
      refine few_bind (ih _ _ _) (keep_getMutV c E _ _ _ _ _) (by uses_arith) fun q => ?_
      few
theorem few_updateR (user : Bool) (f : T → T) : ∀ L p sh idx, FewUses N .copy N (updateR c E user f L p sh idx)
  | 0, p, .reg sh, idx => by unfold updateR; exact few_updateV c E user f _ _ _ _
  | L + 1, p, .reg sh, idx => by unfold updateR; exact few_updateV c E user f _ _ _ _
  | 0, p, .rel _ _, idx => by unfold updateR; few
  | L + 1, p, .rel s sz, idx => by
    have ih := few_updateR user f L
    unfold updateR
    few
    refine few_bind (ih _ _ _) (keep_updateR c E _ _ _ _ _ _) (by uses_arith) fun q => ?_
    few
theorem few_getMutR (e : Nat) : ∀ L p sh idx, FewUses N .copy N (getMutR c E e L p sh idx)
  | 0, p, .reg sh, idx => by unfold getMutR; exact few_getMutV c E e _ _ _ _
  | L + 1, p, .reg sh, idx => by unfold getMutR; exact few_getMutV c E e _ _ _ _
  | 0, p, .rel _ _, idx => by unfold getMutR; few
  | L + 1, p, .rel s sz, idx => by
    have ih := few_getMutR e L
    unfold getMutR
    few
    all_goals
      refine few_bind (ih _ _ _) (keep_getMutR c E _ _ _ _ _) (by uses_arith) fun q => ?_
      few
theorem few_sliceLeafLeft (X : Elem T) (own : Option Nat) (mu : Bool) (p : Nat) (sh : Shp) (first : Nat) : FewUses N .copy N (sliceLeafLeft c E X own mu p sh first) := by
  unfold sliceLeafLeft; few
theorem few_sliceLeftR (X : Elem T) (own : Option Nat) : ∀ (L : Nat) (mu co : Bool) p sh first, FewUses N .copy N (sliceLeftR c E X own mu co L p sh first)
  | 0, mu, co, p, .reg sh, first => by
    have := few_sliceLeafLeft (N := N) c E X own mu p sh first
    unfold sliceLeftR; split
    · exact this
    · few
  | 0, mu, co, p, .rel _ _, first => by unfold sliceLeftR; few
  | L + 1, mu, co, p, sh, first => by
    have ih := few_sliceLeftR X own L
    unfold sliceLeftR
    few
    all_goals
      refine few_bind (ih _ _ _ _ _) (keep_sliceLeftR c E _ _ _ _ _ _ _ _) (by uses_arith) fun q => ?_
      few
macro_rules | `(tactic| few0) => `(tactic| with_reducible first | exact few_updateV _ _ _ _ _ _ _ _ | exact few_updateR _ _ _ _ _ _ _ _ | exact few_getMutR _ _ _ _ _ _ _ | exact few_sliceLeftR _ _ _ _ _ _ _ _ _ _)

theorem few_fgetMut (e : Nat) (v : Vc) (i : Nat) : FewUses N .copy N (Fc.getMut c E e v i) := by unfold Fc.getMut; few
theorem few_fupdate (user : Bool) (f : T → T) (v : Vc) (i : Nat) : FewUses N .copy N (Fc.update c E user f v i) := by unfold Fc.update; few
theorem few_ftake (er et : Nat) (v : Vc) (n : Nat) : FewUses (2 ^ c.BL) .copy (2 ^ c.BL) (Fc.take c E er et v n) := by unfold Fc.take; few
theorem few_ftakeMut (e er et : Nat) (v : Vc) (n : Nat) : FewUses (2 ^ c.BL) .copy (2 ^ c.BL) (Fc.takeMut c E e er et v n) := by unfold Fc.takeMut; few
theorem few_fdropN (X : Elem T) (er et : Nat) (v : Vc) (n : Nat) : FewUses N .copy N (Fc.dropN c E X er et v n) := by unfold Fc.dropN; few
theorem few_fdropMut (X : Elem T) (e er et : Nat) (v : Vc) (n : Nat) : FewUses N .copy N (Fc.dropMut c E X e er et v n) := by unfold Fc.dropMut; few

/-! ### Calls -/

section
variable {β : Type} {kd : Kind} {k n : Nat}

theorem within_few {x : HM T β} {f : β → WM T Unit} (hx : FewUses N kd k x) (hf : ∀ b, WUses kd 0 (f b)) {w : World T} (hw : AllFew N w.st.mem) (hq : w.st.fault = some (kd, n)) (hn : k ≤ n) :
    Within kd k n ((lift x).bind f w) ((lift x).bind f w.calm) := by
  have h1 := hx w.st n hw hq hn
  unfold WM.bind lift
  rw [show w.calm.st = w.st.calm from rfl]
  cases h : x w.st with
  | ok s' b =>
    rw [h] at h1
    obtain ⟨n', h2, h3, h4⟩ := h1
    rw [h4]
    exact within_mono (k := k) (by
      have h5 := hf b { w with st := s' } n' h2 (Nat.zero_le _)
      dsimp only
      cases h6 : f b { w with st := s' } with
      | ok w' u =>
        rw [h6] at h5
        obtain ⟨n'', h7, h8, h9⟩ := h5
        exact ⟨n'', h7, by simp only at h3; omega, h9⟩
      | thrown _ => rw [h6] at h5; exact h5.elim
      | ub => rw [h6] at h5; exact h5) (Nat.le_refl _)
  | thrown _ => rw [h] at h1; exact h1.elim
  | ub =>
    rw [h] at h1
    simp only [Spent] at h1
    rw [h1]
    rfl

theorem within_withObj {i : Nat} {q : Option Kd} {f : Obj → WM T Unit} {w : World T} (hw : w.st.fault = some (kd, n)) (h : ∀ o, w.objs[i]? = some o → Within kd k n (f o w) (f o w.calm)) :
    Within kd k n (withObj i q f w) (withObj i q f w.calm) := by
  unfold withObj
  rw [show w.calm.objs = w.objs from rfl]
  cases ho : w.objs[i]? with
  | none => exact ⟨n, hw, by omega, rfl⟩
  | some o =>
    by_cases hq : q = none ∨ q = some o.kd
    · simp only [if_pos hq]
      exact h o ho
    · simp only [if_neg hq]
      exact ⟨n, hw, by omega, rfl⟩

end

theorem few_apply (X : Elem T) (er et : Nat) (v : Vc) (o : FlexOp T) : FewUses (2 ^ c.BL) .copy (2 ^ c.BL) ((flexKit T c X).apply E er et v o) := by
  cases o with
  | push x => exact few_of (uses_fpushBack c E v x)
  | set i x => exact few_fupdate c E _ _ v i
  | update i f => exact few_fupdate c E _ _ v i
  | take n => exact few_ftake c E er et v n
  | drop n => exact few_fdropN c E X er et v n

theorem few_applyMut (X : Elem T) (er et e : Nat) (v : Vc) (o : FlexOp T) : FewUses (2 ^ c.BL) .copy (2 ^ c.BL) ((flexKit T c X).applyMut E er et e v o) := by
  cases o with
  | push x => exact few_bind (few_of (uses_fpushBackMut c E e v x)) (keep_fpushBackMut c E e v x) (Nat.le_refl _) fun _ => few_ret _
  | set i x => exact few_bind (few_fgetMut c E e v i) (keep_fgetMut c E e v i) (Nat.le_refl _) fun _ => few_ret _
  | update i f => exact few_bind (few_fgetMut c E e v i) (keep_fgetMut c E e v i) (Nat.le_refl _) fun _ => few_ret _
  | take n => exact few_bind (few_ftakeMut c E e er et v n) (keep_ftakeMut c E e er et v n) (Nat.le_refl _) fun _ => few_ret _
  | drop n => exact few_bind (few_fdropMut c E X e er et v n) (keep_dropMut c E X e er et v n) (Nat.le_refl _) fun _ => few_ret _

variable {c E}

/-- no leaf ever has more than `2^BL` elements -/
theorem FReached.few {X : Elem T} {er et : Nat} {w : World T} {M : List (VecHeap.Spec.SObj T)} (h : FReached c E X er et w M) : AllFew (2 ^ c.BL) w.st.mem := by
  induction h with
  | start =>
    refine allFew_upd (allFew_upd (fun _ _ h => by cases h) ?_) ?_
    · intro i y hy _
      simp at hy
    · exact few_raw
  | @call w w' M f x hr ha hon hc ih =>
    have := wkeep_step c E X er et x { w with st := { w.st with fault := f } } ih
    unfold VecHeap.call at hc
    rw [hc] at this
    exact this
  | @threw w w' M M' f x hr ha hon hc _ _ ih =>
    have := wkeep_step c E X er et x { w with st := { w.st with fault := f } } ih
    unfold VecHeap.call at hc
    rw [hc] at this
    exact this

theorem within_copies {X : Elem T} {er et : Nat} {w : World T} (h : AllFew (2 ^ c.BL) w.st.mem) {i : Nat} {o : FlexOp T} {x : Cmd T (FlexOp T)} (hx : OpOn i o x) {n : Nat} (hn : 2 ^ c.BL ≤ n) :
    Within .copy (2 ^ c.BL) n (fcall c E X er et (some (.copy, n)) x w) (fcall c E X er et none x w) := by
  have hin : ∀ ob e, Within .copy (2 ^ c.BL) n (inPlace (flexKit T c X) E er et i e ob o { w with st := { w.st with fault := some (.copy, n) } }) (inPlace (flexKit T c X) E er et i e ob o { w with st := { w.st with fault := none } }) := by
    intro ob e
    refine within_few (few_applyMut c E X er et e ob.v o) (fun r => wuses_bind (wuses_setVc _ _) (Nat.le_refl _) fun _ => ?_) h rfl hn
    split
    · exact wuses_ret _
    · exact wuses_lift (uses_applyFn _ _ _)
  have hap : ∀ ob : Obj, Within .copy (2 ^ c.BL) n (((lift ((flexKit T c X).apply E er et ob.v o)).bind fun v => push ⟨.value, v, 0⟩) { w with st := { w.st with fault := some (.copy, n) } })
      (((lift ((flexKit T c X).apply E er et ob.v o)).bind fun v => push ⟨.value, v, 0⟩) { w with st := { w.st with fault := none } }) :=
    fun ob => within_few (few_apply c E X er et ob.v o) (fun _ => wuses_push _) h rfl hn
  rcases hx with rfl | rfl | rfl
  · exact within_withObj rfl fun ob _ => hap ob
  · refine within_withObj rfl fun ob _ => ?_
    by_cases hg : E.gc = true
    · simp only [if_pos hg]
      exact hap ob
    · simp only [if_neg hg]
      exact hin ob 0
  · exact within_withObj rfl fun ob _ => hin ob ob.tok

end FlexHeap
