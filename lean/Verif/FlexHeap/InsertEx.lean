import Verif.FlexHeap.ProgramsEx
import Verif.FlexHeap.InsertOk

/-!
# Concrete calls of `push_front`, `insert` and `erase`
-/

namespace FlexHeap.Ex
open Mm Rrb VecHeap

section
variable {T : Type} {c : Cfg} {E : Env Dat T} {X : Elem T} {er et : Nat}

variable (c E X er et) in
/-- `TurnOn`, computed -/
def turnNow : World T → List (FCmd T) → Bool
  | _, [] => true
  | w, x :: xs =>
    (match x with
      | .one x => onNow w w.st.fault x
      | .two b i j => match w.objs[i]?, w.objs[j]? with
        | some h, some h' => binNow c E.gc w w.st.fault b h h'
        | _, _ => true) &&
    match fstep c E X er et x w with
    | .ok w' _ => turnNow w' xs
    | _ => true

theorem turnNow_on (hX : X.Ok) : ∀ (xs : List (FCmd T)) (w : World T), turnNow c E X er et w xs = true → TurnOn c E X er et w xs
  | [], _, _ => trivial
  | x :: xs, w, h => by
    unfold turnNow at h
    obtain ⟨h1, h2⟩ := Bool.and_eq_true_iff.mp h
    refine ⟨?_, fun w' hw => ?_⟩
    · cases x with
      | one x => exact onNow_on hX h1
      | two b i j =>
        intro o o' hi hj
        simp only [hi, hj] at h1
        exact binNow_on h1
    · rw [hw] at h2
      exact turnNow_on hX xs w' h2

/-- programs in which nothing throws -/
theorem quiet_reached (hB : 2 ≤ c.B) (hE : E.Fresh) (hne : er ≠ et) : ∀ (xs : List (FCmd T)) (w : World T) (M : List (VecHeap.Spec.SObj T)), CReached c E X er et w M →
    Spec.FAllAllowed E.gc M (xs.map fun x => (none, x)) → FAllOn c E X er et w (xs.map fun x => (none, x)) →
    ∃ w' fl, frun c E X er et (xs.map fun x => (none, x)) w = some (w', fl) ∧ CReached c E X er et w' (xs.foldl (Spec.fstep E.gc) M)
  | [], w, M, h, _, _ => ⟨w, [], rfl, h⟩
  | x :: xs, w, M, h, ha, ho => by
    have hc := ccall_out hB hE (h.rel hB hE hne) none x ha.1 ho.1
    rw [List.map_cons, frun]
    have e : ccall c E X er et none x w = fstep c E X er et x { w with st := { w.st with fault := none } } := rfl
    rw [← e]
    cases hr : ccall c E X er et none x w with
    | ok w1 u =>
      obtain ⟨w', fl, h1, h2⟩ := quiet_reached hB hE hne xs w1 _ (h.call ha.1 ho.1 hr) ha.2.1 (ho.2 w1 (.inl hr))
      exact ⟨w', false :: fl, by simp only [h1]; rfl, h2⟩
    | thrown w1 => rw [hr] at hc; exact absurd rfl hc.2
    | ub => rw [hr] at hc; exact hc.elim

end

/-- a vector with a size table and three levels, and a short one -/
def partsProg : List (FCmd Nat) :=
  [.one (.ofRange [1, 2, 3, 4, 5, 6, 7, 8, 9]), .one (.ofRange [10, 11, 12, 13, 14]), .one (.apply 1 (.drop 1)), .two .plus 0 2, .one (.destroy 0), .one (.destroy 0)]

noncomputable def partsW (gc : Bool) : World Nat :=
  match frun c4 (exEnv Nat gc) exElem 1 2 (partsProg.map fun x => (none, x)) (start c4 (exEnv Nat gc) 1 2) with
  | some (w, _) => w
  | none => start c4 (exEnv Nat gc) 1 2

def partsM (gc : Bool) : List (VecHeap.Spec.SObj Nat) := partsProg.foldl (Spec.fstep gc) []

theorem partsM_eq (gc : Bool) : partsM gc = [⟨.value, [11, 12, 13, 14]⟩, ⟨.value, [1, 2, 3, 4, 5, 6, 7, 8, 9, 11, 12, 13, 14]⟩] := by cases gc <;> rfl

theorem parts_reached (gc : Bool) : CReached c4 (exEnv Nat gc) exElem 1 2 (partsW gc) (partsM gc) := by
  obtain ⟨w', fl, h1, h2⟩ := quiet_reached (c := c4) (X := exElem) (er := 1) (et := 2) (by decide) (exEnv_fresh Nat gc) (by decide) partsProg _ _ .start
    (by cases gc <;> decide +kernel) (onAllC_on exElem_ok _ _ (by cases gc <;> decide +kernel))
  unfold partsW
  rw [h1]
  exact h2

theorem parts_small (gc : Bool) (k : Nat) (o : Obj) (h : (partsW gc).objs[k]? = some o) : Small o.v := by
  have : ∀ o ∈ (partsW gc).objs, o.v.size ≤ 2 ^ 32 ∧ o.v.shift < 32 := by cases gc <;> decide +kernel
  exact this o (List.mem_of_getElem? h)

/-- an insertion in the middle, with either kind of memory: a new vector -/
example (gc : Bool) : ∃ w', ecall c4 (exEnv Nat gc) exElem 1 2 none (.insert 1 4 99) (partsW gc) = .ok w' () ∧
    FShows c4 exElem w' [⟨.value, [11, 12, 13, 14]⟩, ⟨.value, [1, 2, 3, 4, 5, 6, 7, 8, 9, 11, 12, 13, 14]⟩, ⟨.value, [1, 2, 3, 4, 99, 5, 6, 7, 8, 9, 11, 12, 13, 14]⟩] := by
  obtain ⟨w', M', h1, h2, _, h3, _⟩ := C47_no_fault (c := c4) (X := exElem) (er := 1) (et := 2) (by decide) (by decide) (exEnv_fresh Nat gc) (by decide) (parts_reached gc) (e := .insert 1 4 99)
    (by rw [partsM_eq]; rfl) (by rw [partsM_eq]; rfl) (fun k _ o ho => parts_small gc k o ho) (fun _ _ _ h => by cases h)
  rw [partsM_eq] at h2
  exact ⟨w', h1, by subst h2; exact h3⟩

/-- a vector inserted in an rvalue, in place when references are counted -/
example : ∃ w', ecall c4 (exEnv Nat false) exElem 1 2 none (.insertAllRv 1 3 0) (partsW false) = .ok w' () ∧
    FShows c4 exElem w' [⟨.value, [11, 12, 13, 14]⟩, ⟨.value, [1, 2, 3, 11, 12, 13, 14, 4, 5, 6, 7, 8, 9, 11, 12, 13, 14]⟩] := by
  obtain ⟨w', M', h1, h2, _, h3, _⟩ := C47_no_fault (c := c4) (X := exElem) (er := 1) (et := 2) (by decide) (by decide) (exEnv_fresh Nat false) (by decide) (parts_reached false) (e := .insertAllRv 1 3 0)
    (by rw [partsM_eq]; rfl) (by rw [partsM_eq]; rfl) (fun k _ o ho => parts_small false k o ho) (fun _ _ _ h => by cases h)
  rw [partsM_eq] at h2
  exact ⟨w', h1, by subst h2; exact h3⟩

/-- An allocation in the second part of `erase` throws; what the first part made is gone again. -/
example (gc : Bool) : ∃ w', ecall c4 (exEnv Nat gc) exElem 1 2 (some (.alloc, 5)) (.erase 1 4) (partsW gc) = .thrown w' ∧ FShows c4 exElem w' (partsM gc) := by
  have on : EditOn c4 (exEnv Nat gc) exElem 1 2 (partsW gc) (some (.alloc, 5)) (.erase 1 4) :=
    ⟨turnNow_on exElem_ok _ _ (by cases gc <;> decide +kernel), fun _ _ _ h => by cases h⟩
  have ht : (match ecall c4 (exEnv Nat gc) exElem 1 2 (some (.alloc, 5)) (.erase 1 4) (partsW gc) with | .thrown _ => true | _ => false) = true := by cases gc <;> decide +kernel
  cases he : ecall c4 (exEnv Nat gc) exElem 1 2 (some (.alloc, 5)) (.erase 1 4) (partsW gc) with
  | ok w' u => rw [he] at ht; cases ht
  | ub => rw [he] at ht; cases ht
  | thrown w' => exact ⟨w', rfl, (C47_strong_partial (c := c4) (E := exEnv Nat gc) (X := exElem) (er := 1) (et := 2) (M := partsM gc) (e := .erase 1 4) (by decide) (exEnv_fresh Nat gc) (by decide) (parts_reached gc) on rfl he).2.2.1⟩

theorem insertRv_on : EditOn c4 (exEnv Nat false) exElem 1 2 (partsW false) (some (.alloc, 6)) (.insertRv 1 4 99) :=
  ⟨turnNow_on exElem_ok _ _ (by decide +kernel), fun _ _ _ h => by cases h⟩

theorem insertRv_throws : (match ecall c4 (exEnv Nat false) exElem 1 2 (some (.alloc, 6)) (.insertRv 1 4 99) (partsW false) with | .thrown _ => true | _ => false) = true := by decide +kernel

/-- An allocation in `insert` of an rvalue throws; some of the first elements are left. -/
example : ∃ w', ecall c4 (exEnv Nat false) exElem 1 2 (some (.alloc, 6)) (.insertRv 1 4 99) (partsW false) = .thrown w' ∧
    ∃ M ∈ Spec.editFailed (exEnv Nat false).gc (partsM false) (.insertRv 1 4 99), CReached c4 (exEnv Nat false) exElem 1 2 w' M := by
  have ht := insertRv_throws
  cases hr : ecall c4 (exEnv Nat false) exElem 1 2 (some (.alloc, 6)) (.insertRv 1 4 99) (partsW false) with
  | ok w' u => rw [hr] at ht; cases ht
  | ub => rw [hr] at ht; cases ht
  | thrown w' =>
    obtain ⟨_, M, h1, h2, _⟩ := C47_basic_partial (by decide) (exEnv_fresh Nat false) (by decide) (parts_reached false) insertRv_on hr
    exact ⟨w', rfl, M, h1, h2⟩

end FlexHeap.Ex
