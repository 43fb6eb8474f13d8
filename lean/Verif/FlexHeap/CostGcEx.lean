import Verif.FlexHeap.CostTables
import Verif.FlexHeap.GcSequencesEx

/-!
# What joining transients under the collector allocates, in a concrete case
-/

namespace FlexHeap
open Mm Rrb VecHeap

namespace Ex

/-- whether a join returns, and what is left of the allocations it was given -/
noncomputable def left (b : Bin) (i j n : Nat) : Option Nat :=
  match Gc.call c4 (exEnv Nat true) (some (.alloc, n)) b i j seqW with
  | .ok w _ => w.st.fault.map Prod.snd
  | _ => none

/-- the hypotheses of `C50_bound`: two transients that have been joined before; it returns -/
example : ∃ w' n', joinCall c4 (exEnv Nat true) exElem 1 2 (some (.alloc, 200)) .appendTo 3 4 seqW = .ok w' () ∧ w'.st.fault = some (.alloc, n') ∧ 200 ≤ n' + 123 ∧
    joinCall c4 (exEnv Nat true) exElem 1 2 none .appendTo 3 4 seqW = .ok w'.calm () := by
  have hl : ∀ i, i = 3 ∨ i = 4 → ((seqW).objs[i]?).map (fun o => decide (levels c4 o.v.shift ≤ 2)) = some true := by rintro i (rfl | rfl) <;> decide +kernel
  obtain ⟨o, ho, h2⟩ := Option.map_eq_some_iff.mp (hl 3 (.inl rfl))
  obtain ⟨o', ho', h2'⟩ := Option.map_eq_some_iff.mp (hl 4 (.inr rfl))
  have hk : (seqW.objs[3]?).map (·.kd) = some .transient := by decide +kernel
  rcases C50_bound (c := c4) (E := exEnv Nat true) (X := exElem) (er := 1) (et := 2) (b := .appendTo) ho ho' (of_decide_eq_true h2) (of_decide_eq_true h2') (n := 200) (by decide) with h | h
  · exact h
  · have : (left .appendTo 3 4 200).isSome = true := by decide +kernel
    unfold left at this
    have h := h.1
    unfold joinCall at h
    rw [if_pos ⟨rfl, by decide, hk⟩] at h
    rw [h] at this
    cases this

/-- it makes three -/
example : left .appendTo 3 4 2 = none ∧ left .appendTo 3 4 3 = some 0 := by decide +kernel

/-- the hypotheses of `C50_tables`; with two tables it either returns, or is undefined whether or not there are any -/
example : (∃ w' n', joinCall c4 (exEnv Nat true) exElem 1 2 (some (.table, 2)) .appendTo 3 4 seqW = .ok w' () ∧ w'.st.fault = some (.table, n') ∧ 2 ≤ n' + 2 ∧
    joinCall c4 (exEnv Nat true) exElem 1 2 none .appendTo 3 4 seqW = .ok w'.calm ()) ∨
    (joinCall c4 (exEnv Nat true) exElem 1 2 (some (.table, 2)) .appendTo 3 4 seqW = .ub ∧ joinCall c4 (exEnv Nat true) exElem 1 2 none .appendTo 3 4 seqW = .ub) := by
  have hl : ((seqW).objs[3]?).map (fun o => decide (levels c4 o.v.shift ≤ 2)) = some true := by decide +kernel
  have hl' : ((seqW).objs[4]?).isSome = true := by decide +kernel
  obtain ⟨o, ho, h2⟩ := Option.map_eq_some_iff.mp hl
  obtain ⟨o', ho'⟩ := Option.isSome_iff_exists.mp hl'
  exact C50_tables (c := c4) (E := exEnv Nat true) (X := exElem) (er := 1) (et := 2) (b := .appendTo) ho ho' (of_decide_eq_true h2) (by decide)

end Ex
end FlexHeap
