import Verif.FlexHeap.CostCopies
import Verif.FlexHeap.Examples
import Verif.VecHeap.CostProps

/-!
# What operations of flexible vectors cost (C49)

As for vectors.  A relaxed node takes two allocations, one for its table of sizes.
-/

namespace FlexHeap
open Mm Rrb VecHeap

section
variable {T : Type} {c : Cfg} {E : Env Dat T} {X : Elem T} {er et : Nat} {w w' : World T} {M : List (VecHeap.Spec.SObj T)}

/-- bounds for the operations of `flex_vector`, but for copies -/
def flexUses (c : Cfg) : Bool → Vc → FlexOp T → Kind → Nat
  | false, v, _ => amt (2 * levels c v.shift + 3) (2 ^ c.BL) 1 (levels c v.shift)
  | true, v, _ => amt (2 * levels c v.shift + 3) (2 ^ c.BL) 0 (levels c v.shift)

theorem flex_uses {kd : Kind} (hk : kd ≠ .copy) : KitUses (flexKit T c X) E er et (flexUses c) kd where
  apply v o := by
    cases o with
    | push x => exact uses_mono (uses_fpushBack c E v x) (by unfold flexUses; uses_arith)
    | set i x => exact uses_mono (uses_fupdate c E hk false _ v i) (by unfold flexUses; uses_arith)
    | update i f => exact uses_mono (uses_fupdate c E hk f.user f.f v i) (by unfold flexUses; uses_arith)
    | take n => exact uses_mono (uses_ftake c E hk er et v n) (by unfold flexUses; uses_arith)
    | drop n => exact uses_mono (uses_fdropN c E hk X er et v n) (by unfold flexUses; uses_arith)
  applyMut e v o := by
    cases o with
    | push x => exact uses_mono (uses_bind (uses_fpushBackMut c E e v x) (Nat.le_refl _) fun _ => uses_ret _) (by unfold flexUses; uses_arith)
    | set i x => exact uses_mono (uses_bind (uses_fgetMut c E hk e v i) (Nat.le_refl _) fun _ => uses_ret _) (by unfold flexUses; uses_arith)
    | update i f => exact uses_mono (uses_bind (uses_fgetMut c E hk e v i) (Nat.le_refl _) fun _ => uses_ret _) (by unfold flexUses; uses_arith)
    | take n => exact uses_mono (uses_bind (uses_ftakeMut c E hk e er et v n) (Nat.le_refl _) fun _ => uses_ret _) (by unfold flexUses; uses_arith)
    | drop n => exact uses_mono (uses_bind (uses_fdropMut c E hk X e er et v n) (Nat.le_refl _) fun _ => uses_ret _) (by unfold flexUses; uses_arith)
  drop v := uses_fdrop c E v

/-- **C49**, flexible vectors: an operation on a flexible vector or transient with at most `D` levels of inner nodes makes at most
`2·D + 3` allocations, copies at most the `2^BL` elements of a leaf and calls the function given to it at most once, whatever is
shared with other objects.  In place it may make up to `D` size tables more.  (For `drop`, as in C43: elements that may be moved to
themselves, and up to `2^32` of them.) -/
theorem C49_flex_ops (hB : 0 < c.B) (hE : E.Fresh) (hne : er ≠ et) (h : FReached c E X er et w M) {i : Nat} {ob : Obj} (hi : w.objs[i]? = some ob) {D : Nat} (hD : levels c ob.v.shift ≤ D)
    {o : FlexOp T} {x : Cmd T (FlexOp T)} (hx : OpOn i o x) (ha : VecHeap.Spec.Allowed (Spec.flexOps T) M x) (hd : ∀ n, o = .drop n → ob.v.size ≤ 2 ^ 32 ∧ ob.v.shift < 32 ∧ X.Ok) :
    AtMost c (flexKit T c X) E er et w x .alloc (2 * D + 3) ∧ AtMost c (flexKit T c X) E er et w x .copy (2 ^ c.BL) ∧ AtMost c (flexKit T c X) E er et w x .user 1 ∧
      AtMost c (flexKit T c X) E er et w x .table D := by
  have hA := flex_laws (T := T) (X := X) hB hE
  have hr := h.rel hA hne
  have key : ∀ {kd : Kind}, kd ≠ .copy → ∀ n, amt (2 * D + 3) 0 1 D kd ≤ n → Within kd (amt (2 * D + 3) 0 1 D kd) n (fcall c E X er et (some (kd, n)) x w) (fcall c E X er et none x w) := by
    intro kd hk n hn
    have hu : callUses (K := flexKit T c X) E (flexUses c) w x kd ≤ amt (2 * D + 3) 0 1 D kd := by
      rcases hx with rfl | rfl | rfl
      · simp only [callUses, hi, Option.map_some, Option.getD_some, flexUses]; uses_arith
      · simp only [callUses, hi, Option.map_some, Option.getD_some, flexUses]
        by_cases hg : E.gc = true
        · rw [if_pos hg]; uses_arith
        · rw [if_neg hg]; uses_arith
      · simp only [callUses, hi, Option.map_some, Option.getD_some, flexUses]; uses_arith
    exact within_mono (call_uses c E er et (flex_uses hk) x (by rcases hx with rfl | rfl | rfl <;> exact fun _ h => by cases h) w n (Nat.le_trans hu hn)) hu
  have hon : (flexTerms T c X).On E.gc w none x := by
    have hok : ∀ b, (flexTerms T c X).ok b none ob.v o := by
      intro b
      cases o with
      | drop n => exact ⟨(hd n rfl).1, (hd n rfl).2.1, fun _ => (hd n rfl).2.2⟩
      | push _ => exact fun _ j h => nomatch h
      | take _ => exact fun _ j h => nomatch h
      | set _ _ => trivial
      | update _ _ => trivial
    rcases hx with rfl | rfl | rfl <;> intro ob' hob' <;> rw [hi, Option.some.injEq] at hob' <;> subst hob' <;> exact hok _
  exact ⟨within_ok hA hr ha hon (key (kd := .alloc) (by decide)), within_ok hA hr ha hon fun n hn => within_copies h.few hx hn, within_ok hA hr ha hon (key (kd := .user) (by decide)), within_ok hA hr ha hon (key (kd := .table) (by decide))⟩

/-- **C49**, flexible vectors: construction, copies, moves, assignments, destruction, `transient()` and `persistent()` allocate no
node, copy no element and call no function, however many elements there are.  (Under the collector up to two tokens are
allocated.) -/
theorem C49_flex_handles (hB : 0 < c.B) (hE : E.Fresh) (hne : er ≠ et) (h : FReached c E X er et w M) {x : Cmd T (FlexOp T)} (hx : Handles x) (ha : VecHeap.Spec.Allowed (Spec.flexOps T) M x) :
    AtMost c (flexKit T c X) E er et w x .alloc (if E.gc then 2 else 0) ∧ AtMost c (flexKit T c X) E er et w x .copy 0 ∧ AtMost c (flexKit T c X) E er et w x .user 0 ∧
      AtMost c (flexKit T c X) E er et w x .table 0 :=
  have hA := flex_laws (T := T) (X := X) hB hE
  handles_uses hA (h.rel hA hne) (uses_fdrop c E) hx ha

end

theorem nineReached : ∃ w M ob, FReached c2 (exEnv Nat false) Ex.exElem 1 2 w M ∧ w.objs[1]? = some ob ∧ levels c2 ob.v.shift = 2 ∧ ob.v.size = 6 ∧ ob.v.shift < 32 := by
  have hal : VecHeap.Spec.AllAllowed (Spec.flexOps Nat) false [] Ex.nineProg := by decide +kernel
  have hon : AllOn c2 (flexKit Nat c2 Ex.exElem) (flexTerms Nat c2 Ex.exElem) (exEnv Nat false) 1 2 (start c2 (exEnv Nat false) 1 2) Ex.nineProg := by
    apply Ex.onAll_on Ex.exElem_ok
    decide +kernel
  obtain ⟨w, fl, M, h1, _, _, _, h2, h3⟩ := C43_programs_partial (c := c2) (X := Ex.exElem) (er := 1) (et := 2) (by decide) (exEnv_fresh Nat false) (by decide) Ex.nineProg hal hon
  have h4 : (run c2 (flexKit Nat c2 Ex.exElem) (exEnv Nat false) 1 2 Ex.nineProg (start c2 (exEnv Nat false) 1 2)).map
      (fun x => (x.1.objs[1]?).map fun o => (levels c2 o.v.shift, o.v.size, decide (o.v.shift < 32))) = some (some (2, 6, true)) := by decide +kernel
  rw [h1] at h4
  simp only [Option.map_some, Option.some.injEq] at h4
  cases h5 : w.objs[1]? with
  | none => rw [h5] at h4; cases h4
  | some ob =>
    rw [h5] at h4
    simp only [Option.map_some, Option.some.injEq, Prod.mk.injEq] at h4
    exact ⟨w, M, ob, h2, h5, h4.1, h4.2.1, of_decide_eq_true h4.2.2⟩

/-- the hypotheses of `C49_flex_ops`: a `drop` in a tree of two levels with relaxed nodes makes at most seven allocations -/
example : ∃ w M, FReached c2 (exEnv Nat false) Ex.exElem 1 2 w M ∧ AtMost c2 (flexKit Nat c2 Ex.exElem) (exEnv Nat false) 1 2 w (.apply 1 (.drop 1)) .alloc 7 := by
  obtain ⟨w, M, ob, h, hi, hl, hs, hs'⟩ := nineReached
  exact ⟨w, M, h, (C49_flex_ops (D := 2) (by decide) (exEnv_fresh _ _) (by decide) h hi (by omega) (.inl rfl) (fun s _ h => by cases h) (fun _ _ => ⟨by rw [hs]; decide, hs', Ex.exElem_ok⟩)).1⟩

/-- it does make three -/
example : (run c2 (flexKit Nat c2 Ex.exElem) (exEnv Nat false) 1 2 Ex.nineProg (start c2 (exEnv Nat false) 1 2)).map
    (fun x => (List.range 6).map fun n => match fcall c2 (exEnv Nat false) Ex.exElem 1 2 (some (.alloc, n)) (.apply 1 (.drop 1)) x.1 with | .ok w _ => w.st.fault.map Prod.snd | _ => none) =
    some [none, none, none, some 0, some 1, some 2] := by decide +kernel

/-- it copies at most the two elements of a leaf, and does copy both -/
example : ∃ w M, FReached c2 (exEnv Nat false) Ex.exElem 1 2 w M ∧ AtMost c2 (flexKit Nat c2 Ex.exElem) (exEnv Nat false) 1 2 w (.apply 1 (.drop 1)) .copy 2 := by
  obtain ⟨w, M, ob, h, hi, hl, hs, hs'⟩ := nineReached
  exact ⟨w, M, h, (C49_flex_ops (D := 2) (by decide) (exEnv_fresh _ _) (by decide) h hi (by omega) (.inl rfl) (fun s _ h => by cases h) (fun _ _ => ⟨by rw [hs]; decide, hs', Ex.exElem_ok⟩)).2.1⟩

example : (run c2 (flexKit Nat c2 Ex.exElem) (exEnv Nat false) 1 2 Ex.nineProg (start c2 (exEnv Nat false) 1 2)).map
    (fun x => (List.range 4).map fun n => match fcall c2 (exEnv Nat false) Ex.exElem 1 2 (some (.copy, n)) (.apply 1 (.drop 1)) x.1 with | .ok w _ => w.st.fault.map Prod.snd | _ => none) =
    some [none, none, some 0, some 1] := by decide +kernel

end FlexHeap
