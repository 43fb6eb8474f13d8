import Verif.FlexHeap.InsertEx
import Verif.FlexHeap.CostInsert
import Verif.FlexHeap.DepthConcat

/-!
# What `insert` and `erase` cost, on a vector with a size table
-/

namespace FlexHeap.Ex
open Mm Rrb VecHeap

theorem parts_deep (gc : Bool) (k : Nat) (o : Obj) (h : (partsW gc).objs[k]? = some o) : levels c4 o.v.shift ≤ 2 := by
  have : ∀ o ∈ (partsW gc).objs, levels c4 o.v.shift ≤ 2 := by cases gc <;> decide +kernel
  exact this o (List.mem_of_getElem? h)

/-- an insertion in the middle -/
example (gc : Bool) : ∃ w' n', ecall c4 (exEnv Nat gc) exElem 1 2 (some (.alloc, 1000)) (.insert 1 4 99) (partsW gc) = .ok w' () ∧ w'.st.fault = some (.alloc, n') ∧ 1000 ≤ n' + 384 ∧
    FShows c4 exElem w'.calm [⟨.value, [11, 12, 13, 14]⟩, ⟨.value, [1, 2, 3, 4, 5, 6, 7, 8, 9, 11, 12, 13, 14]⟩, ⟨.value, [1, 2, 3, 4, 99, 5, 6, 7, 8, 9, 11, 12, 13, 14]⟩] := by
  obtain ⟨w', n', M', h1, h2, h3, h4, h5⟩ := C55_cheap (c := c4) (X := exElem) (er := 1) (et := 2) (by decide) (by decide) (exEnv_fresh Nat gc) (by decide) (parts_reached gc) (e := .insert 1 4 99)
    (by rw [partsM_eq]; rfl) (by rw [partsM_eq]; rfl) (fun k _ o ho => parts_small gc k o ho) (fun _ _ _ h => by cases h) (fun k _ o ho => parts_deep gc k o ho) (n := 1000) (by decide)
  rw [partsM_eq] at h4
  exact ⟨w', n', h1, h2, h3, by subst h4; exact h5⟩

/-- The bound is an upper bound: this `erase` makes more than five allocations (it throws at the sixth, see `InsertEx`). -/
example : (match ecall c4 (exEnv Nat false) exElem 1 2 (some (.alloc, 5)) (.erase 1 4) (partsW false) with | .thrown _ => true | _ => false) = true := by decide +kernel

/-- a concatenation of the vectors with at most two levels has at most three -/
example (gc : Bool) : ∃ w', ccall c4 (exEnv Nat gc) exElem 1 2 none (.two .plus 1 0) (partsW gc) = .ok w' () ∧ ∀ o ∈ w'.objs, (∃ o' ∈ (partsW gc).objs, o.v = o'.v) ∨ levels c4 o.v.shift ≤ 3 := by
  have h1 : (match ccall c4 (exEnv Nat gc) exElem 1 2 none (.two .plus 1 0) (partsW gc) with | .ok _ _ => true | _ => false) = true := by cases gc <;> decide +kernel
  cases h2 : ccall c4 (exEnv Nat gc) exElem 1 2 none (.two .plus 1 0) (partsW gc) with
  | ok w' u => exact ⟨w', rfl, C55_concat_depth (by decide) (exEnv_fresh Nat gc) (by decide) (parts_reached gc) (fun k _ o ho => parts_deep gc k o ho) h2⟩
  | thrown w' => rw [h2] at h1; cases h1
  | ub => rw [h2] at h1; cases h1

/-- `take` of a vector with two levels -/
example (gc : Bool) (n : Nat) (o : Obj) (ho : (partsW gc).objs[1]? = some o) : Ends (Fc.take c4 (exEnv Nat gc) 1 2 o.v n) (LevelsLe c4 2) := depth_take (parts_deep gc 1 o ho) n

end FlexHeap.Ex
