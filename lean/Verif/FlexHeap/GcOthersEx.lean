import Verif.FlexHeap.GcOthers
import Verif.FlexHeap.InsertEx

/-!
# C54 in a concrete case
-/

namespace FlexHeap
open Mm Rrb VecHeap

namespace Ex

/-- two transients that own some of their nodes, the values they were made from, and a value made from the first of them -/
def gcProg : List (FCmd Nat) :=
  [.one (.ofRange [1, 2, 3, 4, 5, 6, 7, 8, 9]), .one (.ofRange [10, 11, 12, 13, 14]), .one (.apply 1 (.drop 1)), .one (.transient 0), .one (.transient 2),
    .one (.applyMut 3 (.push 20)), .one (.applyMut 3 (.push 21)), .one (.persistent 3), .one (.applyMut 3 (.set 8 22)), .one (.applyMut 4 (.push 23)), .one (.applyMut 4 (.set 0 24))]

noncomputable def gcW : World Nat :=
  match frun c4 (exEnv Nat true) exElem 1 2 (gcProg.map fun x => (none, x)) (start c4 (exEnv Nat true) 1 2) with
  | some (w, _) => w
  | none => start c4 (exEnv Nat true) 1 2

def gcM : List (VecHeap.Spec.SObj Nat) := gcProg.foldl (Spec.fstep true) []

theorem gcM_eq : gcM = [⟨.value, [1, 2, 3, 4, 5, 6, 7, 8, 9]⟩, ⟨.value, [10, 11, 12, 13, 14]⟩, ⟨.value, [11, 12, 13, 14]⟩, ⟨.transient, [1, 2, 3, 4, 5, 6, 7, 8, 22, 20, 21]⟩,
    ⟨.transient, [24, 12, 13, 14, 23]⟩, ⟨.value, [1, 2, 3, 4, 5, 6, 7, 8, 9, 20, 21]⟩] := rfl

theorem gc_reached : CReached c4 (exEnv Nat true) exElem 1 2 gcW gcM := by
  obtain ⟨w', fl, h1, h2⟩ := quiet_reached (c := c4) (X := exElem) (er := 1) (et := 2) (by decide) (exEnv_fresh Nat true) (by decide) gcProg _ _ .start
    (by decide +kernel) (onAllC_on exElem_ok _ _ (by decide +kernel))
  unfold gcW
  rw [h1]
  exact h2

noncomputable def gcShow (f : Option (Kind × Nat)) (b : Bin) (i j : Nat) : Option (List (List (Option Nat))) :=
  match Gc.call c4 (exEnv Nat true) f b i j gcW with
  | .ok w _ => some (w.objs.mapIdx fun i (o : Obj) => (List.range o.v.size).map fun k => look (flexKit Nat c4 exElem) i k w)
  | .thrown w => some (w.objs.mapIdx fun i (o : Obj) => (List.range o.v.size).map fun k => look (flexKit Nat c4 exElem) i k w)
  | .ub => none

/-- the nodes the call changes: those of the transients that are theirs alone -/
noncomputable def gcChanged (f : Option (Kind × Nat)) (b : Bin) (i j : Nat) : List Nat :=
  match Gc.call c4 (exEnv Nat true) f b i j gcW with
  | .ok w _ | .thrown w => (List.range 60).filter fun p => match gcW.st.mem p, w.st.mem p with
    | some x, some y => decide (x.tok ≠ y.tok) || decide (x.els.length ≠ y.els.length) || decide (outsD x.data ≠ outsD y.data) || decide (lives x.els ≠ lives y.els)
    | none, _ => false
    | _, _ => true
  | .ub => []

/-- `3.append(std::move(4))` -/
example : gcShow none .appendMove 3 4 = some (([[1, 2, 3, 4, 5, 6, 7, 8, 9], [10, 11, 12, 13, 14], [11, 12, 13, 14], [1, 2, 3, 4, 5, 6, 7, 8, 22, 20, 21, 24, 12, 13, 14, 23],
    [1, 2, 3, 4, 5, 6, 7, 8, 9, 20, 21]] : List (List Nat)).map (·.map some)) := by decide +kernel

/-- it works in place -/
example : gcChanged none .appendMove 3 4 ≠ [] ∧ gcChanged none .prependMove 3 4 ≠ [] ∧ gcChanged none .appendTo 3 4 ≠ [] := by decide +kernel

/-- the hypotheses of `C54_gc_others_unchanged_partial`: the value made from the first transient -/
example : ∃ w' o, Gc.call c4 (exEnv Nat true) none .appendMove 3 4 gcW = .ok w' () ∧ gcW.objs[5]? = some o ∧ contents c4 w'.st.mem o.v = contents c4 gcW.st.mem o.v := by
  obtain ⟨o, ho⟩ : ∃ o, gcW.objs[5]? = some o := ⟨_, List.getElem?_eq_getElem (by decide +kernel : 5 < gcW.objs.length)⟩
  have hc : (match Gc.call c4 (exEnv Nat true) none .appendMove 3 4 gcW with | .ok _ _ => true | _ => false) = true := by decide +kernel
  cases hw : Gc.call c4 (exEnv Nat true) none .appendMove 3 4 gcW with
  | ok w' u =>
    exact ⟨w', o, rfl, ho, (C54_gc_others_unchanged_partial (c := c4) (X := exElem) (er := 1) (et := 2) (by decide) (exEnv_fresh Nat true) (by decide) rfl gc_reached
      (si := ⟨.transient, [1, 2, 3, 4, 5, 6, 7, 8, 22, 20, 21]⟩) (sj := ⟨.transient, [24, 12, 13, 14, 23]⟩) rfl rfl rfl rfl (by decide) (.inl hw) ho (by decide)).2⟩
  | thrown w' => rw [hw] at hc; cases hc
  | ub => rw [hw] at hc; cases hc

/-- an allocation that fails -/
example : ∃ w' o, Gc.call c4 (exEnv Nat true) (some (.alloc, 1)) .appendTo 3 4 gcW = .thrown w' ∧ gcW.objs[4]? = some o ∧ contents c4 w'.st.mem o.v = contents c4 gcW.st.mem o.v := by
  obtain ⟨o, ho⟩ : ∃ o, gcW.objs[4]? = some o := ⟨_, List.getElem?_eq_getElem (by decide +kernel : 4 < gcW.objs.length)⟩
  have hc : (match Gc.call c4 (exEnv Nat true) (some (.alloc, 1)) .appendTo 3 4 gcW with | .thrown _ => true | _ => false) = true := by decide +kernel
  cases hw : Gc.call c4 (exEnv Nat true) (some (.alloc, 1)) .appendTo 3 4 gcW with
  | thrown w' =>
    exact ⟨w', o, rfl, ho, (C54_gc_others_unchanged_partial (c := c4) (X := exElem) (er := 1) (et := 2) (by decide) (exEnv_fresh Nat true) (by decide) rfl gc_reached
      (si := ⟨.transient, [1, 2, 3, 4, 5, 6, 7, 8, 22, 20, 21]⟩) (sj := ⟨.transient, [24, 12, 13, 14, 23]⟩) rfl rfl rfl rfl (by decide) (.inr hw) ho (by decide)).2⟩
  | ok w' u => rw [hw] at hc; cases hc
  | ub => rw [hw] at hc; cases hc

end Ex
end FlexHeap
