import Verif.FlexHeap.GcSequencesEx

/-!
# C54 for concatenations of values after joins, in a concrete case
-/

namespace FlexHeap
open Mm Rrb VecHeap
open VecHeap.Spec (SKd)

namespace Ex

/-- `+` of the two values that were made from transients -/
noncomputable def plusCall (f : Option (Kind × Nat)) (w : World Nat) : Ans Nat Unit := ccall c4 (exEnv Nat true) exElem 1 2 f (.two .plus 6 5) w

def worldOf : Ans Nat Unit → Option (Bool × World Nat)
  | .ok w _ => some (false, w)
  | .thrown w => some (true, w)
  | .ub => none

/-- it runs out of memory at its second allocation -/
noncomputable def plusW0 : World Nat := ((worldOf (plusCall (some (.alloc, 1)) seqW)).getD (false, seqW)).2

/-- it is called again, and returns -/
noncomputable def plusW : World Nat := ((worldOf (plusCall none plusW0)).getD (false, seqW)).2

theorem plus_runs : (worldOf (plusCall (some (.alloc, 1)) seqW)).map (·.1) = some true ∧ (worldOf (plusCall none plusW0)).map (·.1) = some false := by decide +kernel

theorem thrown_of {x : Ans Nat Unit} (h : (worldOf x).map (·.1) = some true) (w : World Nat) : x = .thrown ((worldOf x).getD (false, w)).2 := by
  cases x with
  | ok => cases h
  | thrown => rfl
  | ub => cases h

theorem ok_of {x : Ans Nat Unit} (h : (worldOf x).map (·.1) = some false) (w : World Nat) : x = .ok ((worldOf x).getD (false, w)).2 () := by
  cases x with
  | ok => rfl
  | thrown => cases h
  | ub => cases h

theorem plus_first : ccall c4 (exEnv Nat true) exElem 1 2 (some (.alloc, 1)) (.two .plus 6 5) seqW = .thrown plusW0 := thrown_of plus_runs.1 seqW

theorem plus_second : ccall c4 (exEnv Nat true) exElem 1 2 none (.two .plus 6 5) plusW0 = .ok plusW () := ok_of plus_runs.2 seqW

theorem plus_reached : GReached c4 (exEnv Nat true) exElem 1 2 plusW (seqK ++ [.value]) :=
  .plus (b := .plus) (i := 6) (j := 5) (.plusThrew (b := .plus) (i := 6) (j := 5) seq_reached rfl rfl (by decide) plus_first) rfl rfl (by decide) plus_second

/-- the concatenation -/
example : (List.range 28).map (fun k => look (flexKit Nat c4 exElem) 8 k plusW) = [1, 2, 3, 4, 5, 6, 7, 8, 22, 20, 21, 24, 12, 13, 14, 23, 30, 1, 2, 3, 4, 5, 6, 7, 8, 9, 20, 21].map some := by decide +kernel

/-- the hypotheses of `C54_gc_plus_partial`: the first transient -/
example : ∃ o, seqW.objs[3]? = some o ∧ contents c4 plusW0.st.mem o.v = contents c4 seqW.st.mem o.v := by
  obtain ⟨o, ho⟩ : ∃ o, seqW.objs[3]? = some o := ⟨_, List.getElem?_eq_getElem (by decide +kernel : 3 < seqW.objs.length)⟩
  exact ⟨o, ho, (C54_gc_plus_partial (c := c4) (X := exElem) (er := 1) (et := 2) (b := .plus) (i := 6) (j := 5) (by decide) (exEnv_fresh Nat true) (by decide) rfl (w := seqW) (K := seqK) seq_reached rfl rfl (by decide) (w' := plusW0) (f := some (.alloc, 1)) (.inr plus_first) ho).2⟩

/-- the concatenation is as it was when a transient that it shares nodes with is changed -/
example : ∃ w' o, VecHeap.call c4 (flexKit Nat c4 exElem) (exEnv Nat true) 1 2 none (.applyMut 3 (.set 1 40)) plusW = .ok w' () ∧ plusW.objs[8]? = some o ∧ contents c4 w'.st.mem o.v = contents c4 plusW.st.mem o.v := by
  obtain ⟨o, ho⟩ : ∃ o, plusW.objs[8]? = some o := ⟨_, List.getElem?_eq_getElem (by decide +kernel : 8 < plusW.objs.length)⟩
  have hc : (worldOf (VecHeap.call c4 (flexKit Nat c4 exElem) (exEnv Nat true) 1 2 none (.applyMut 3 (.set 1 40)) plusW)).map (·.1) = some false := by decide +kernel
  generalize hx : VecHeap.call c4 (flexKit Nat c4 exElem) (exEnv Nat true) 1 2 none (.applyMut 3 (.set 1 40)) plusW = x at hc
  have hw := hx.trans (ok_of hc seqW)
  generalize ((worldOf x).getD (false, seqW)).2 = w' at hw
  exact ⟨w', o, hx.symm.trans hw, ho, (C54_gc_calls_partial (c := c4) (X := exElem) (er := 1) (et := 2) (by decide) (exEnv_fresh Nat true) (by decide) rfl plus_reached (x := .applyMut 3 (.set 1 40)) (k := 8)
    (show (seqK ++ [SKd.value])[3]? ≠ some .shell by decide) (.inl hw) ho (by decide)).2⟩

end Ex
end FlexHeap
