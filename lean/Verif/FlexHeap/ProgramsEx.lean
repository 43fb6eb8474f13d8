import Verif.FlexHeap.Examples
import Verif.FlexHeap.ConcatFails
import Verif.FlexHeap.Programs

/-!
# Concrete programs with concatenations
-/

namespace FlexHeap.Ex
open Mm Rrb VecHeap

section
variable {T : Type} {c : Cfg} {E : Env Dat T} {X : Elem T} {er et : Nat}

variable (c) in
/-- `FOn` for two operands, computed -/
def binNow (gc : Bool) (w : World T) (f : Option (Kind × Nat)) (b : Bin) (h h' : Obj) : Bool :=
  decide (h'.v.size ≤ 2 ^ 32) && decide (h'.v.shift < 32) &&
    if b = .plus ∨ (gc = true ∧ h.kd = .value) then !gc || decide (f.map Prod.fst ≠ some .copy)
    else !gc && match b with
      | .appendTo | .appendMove => decide (f.map Prod.fst ≠ some .table) &&
          (decide (inTail c w.st.mem h'.v ≠ h'.v.size) || decide (inTail c w.st.mem h.v + h'.v.size ≤ 2 ^ c.BL) || decide (f = none))
      | .prependMove => decide (inTail c w.st.mem h.v ≠ 2 ^ c.BL)
      | _ => true

theorem binNow_on {gc : Bool} {w : World T} {f : Option (Kind × Nat)} {b : Bin} {h h' : Obj} (hb : binNow c gc w f b h h' = true) : binOn c gc w f b h h' := by
  unfold binNow at hb
  unfold binOn
  obtain ⟨h1, h2⟩ := Bool.and_eq_true_iff.mp hb
  obtain ⟨h3, h4⟩ := Bool.and_eq_true_iff.mp h1
  refine ⟨of_decide_eq_true h3, of_decide_eq_true h4, ?_⟩
  by_cases hp : b = .plus ∨ (gc = true ∧ h.kd = .value)
  · rw [if_pos hp] at h2 ⊢
    rintro rfl n rfl
    simp at h2
  · rw [if_neg hp] at h2 ⊢
    obtain ⟨h5, h6⟩ := Bool.and_eq_true_iff.mp h2
    refine ⟨by simpa using h5, ?_⟩
    have happ : (decide (f.map Prod.fst ≠ some .table) &&
          (decide (inTail c w.st.mem h'.v ≠ h'.v.size) || decide (inTail c w.st.mem h.v + h'.v.size ≤ 2 ^ c.BL) || decide (f = none))) = true →
        NoTab f ∧ (inTail c w.st.mem h'.v = h'.v.size → inTail c w.st.mem h.v ≠ 2 ^ c.BL → 2 ^ c.BL < inTail c w.st.mem h.v + h'.v.size → f = none) := by
      intro h
      obtain ⟨k1, k2⟩ := Bool.and_eq_true_iff.mp h
      refine ⟨?_, fun e1 _ e3 => ?_⟩
      · rintro j rfl
        exact of_decide_eq_true k1 rfl
      · simp only [Bool.or_eq_true, decide_eq_true_eq] at k2
        rcases k2 with (k | k) | k
        · exact absurd e1 k
        · omega
        · exact k
    cases b with
    | plus => exact absurd (.inl rfl) hp
    | appendTo => exact happ h6
    | appendMove => exact happ h6
    | prependTo => trivial
    | prependMove => exact of_decide_eq_true h6

variable (c E X er et) in
def onAllC : World T → List (Option (Kind × Nat) × FCmd T) → Bool
  | _, [] => true
  | w, (f, x) :: xs =>
    (match x with
      | .one x => onNow w f x
      | .two b i j => match w.objs[i]?, w.objs[j]? with
        | some h, some h' => binNow c E.gc w f b h h'
        | _, _ => true) &&
    match ccall c E X er et f x w with
    | .ok w' _ => onAllC w' xs
    | .thrown w' => onAllC w' xs
    | .ub => true

theorem onAllC_on (hX : X.Ok) : ∀ (xs : List (Option (Kind × Nat) × FCmd T)) (w : World T), onAllC c E X er et w xs = true → FAllOn c E X er et w xs
  | [], _, _ => trivial
  | (f, x) :: xs, w, h => by
    unfold onAllC at h
    obtain ⟨h1, h2⟩ := Bool.and_eq_true_iff.mp h
    refine ⟨?_, ?_⟩
    · cases x with
      | one x => exact onNow_on hX h1
      | two b i j =>
        intro o o' hi hj
        simp only [hi, hj] at h1
        exact binNow_on h1
    · rintro w' (hw | hw)
      · rw [show ccall c E X er et f x w = _ from hw] at h2
        exact onAllC_on hX xs w' h2
      · rw [show ccall c E X er et f x w = _ from hw] at h2
        exact onAllC_on hX xs w' h2

end

/-- Vectors of three levels are joined: as a new one, twice, with itself; then with rvalues on either side, in which calls throw;
then transients are appended to, prepended to, and appended with a move; at the end some are destroyed. -/
def joinProg : CProg :=
  [(none, .one (.ofRange [1, 2, 3, 4, 5, 6, 7, 8, 9])), (none, .one (.ofRange [10, 11, 12, 13, 14])), (none, .one (.apply 1 (.drop 1))), (none, .two .plus 0 2), (none, .two .plus 3 3),
    (some (.alloc, 2), .two .plus 4 3), (none, .two .appendTo 1 2), (none, .two .prependTo 2 0), (some (.alloc, 0), .two .plus 0 3), (none, .two .prependTo 0 2),
    (none, .one (.transient 3)), (none, .one (.transient 1)), (none, .one (.destroy 4)), (none, .one (.apply 0 (.push 20)))]

/-- the same for transients, with reference counting -/
def joinMut : CProg :=
  joinProg ++ [(none, .two .appendTo 4 5), (some (.alloc, 0), .two .appendTo 4 5), (none, .two .prependMove 4 5), (none, .one (.applyMut 4 (.push 21))), (none, .two .prependTo 4 5), (none, .two .appendMove 4 5),
    (none, .one (.destroy 1)), (none, .one (.applyMut 3 (.push 22)))]

instance {T : Type} (M : List (VecHeap.Spec.SObj T)) : (x : FCmd T) → Decidable (Spec.FAllowed M x)
  | .one x => inferInstanceAs (Decidable (VecHeap.Spec.Allowed (Spec.flexOps T) M x))
  | .two _ _ _ => .isTrue trivial

instance fallAllowedDec {T : Type} (gc : Bool) : (M : List (VecHeap.Spec.SObj T)) → (xs : List (Option (Kind × Nat) × FCmd T)) → Decidable (Spec.FAllAllowed gc M xs)
  | _, [] => .isTrue trivial
  | M, (f, x) :: xs =>
    have := fallAllowedDec gc (Spec.fstep gc M x) xs
    have : ∀ M', Decidable (Spec.FAllAllowed gc M' xs) := fun M' => fallAllowedDec gc M' xs
    have : Decidable (f ≠ none → ∀ M' ∈ Spec.ffailed gc M f x, Spec.FAllAllowed gc M' xs) :=
      match f with
      | none => .isTrue fun h => absurd rfl h
      | some f =>
        match List.decidableBAll (p := fun M' => Spec.FAllAllowed gc M' xs) (Spec.ffailed gc M (some f) x) with
        | .isTrue h => .isTrue fun _ => h
        | .isFalse h => .isFalse fun h' => h (h' fun h => by cases h)
    inferInstanceAs (Decidable (_ ∧ _ ∧ _))

theorem joinProg_allowed (gc : Bool) : Spec.FAllAllowed gc [] joinProg := by
  cases gc <;> decide +kernel

theorem joinMut_allowed : Spec.FAllAllowed false [] joinMut := by decide +kernel

theorem joinProg_on (gc : Bool) : FAllOn c4 (exEnv Nat gc) exElem 1 2 (start c4 (exEnv Nat gc) 1 2) joinProg := by
  apply onAllC_on exElem_ok
  cases gc <;> decide +kernel

theorem joinMut_on : FAllOn c4 (exEnv Nat false) exElem 1 2 (start c4 (exEnv Nat false) 1 2) joinMut := by
  apply onAllC_on exElem_ok
  decide +kernel

/-- worlds the theorems of `Programs.lean` are about -/
example (gc : Bool) : ∃ w M, CReached c4 (exEnv Nat gc) exElem 1 2 w M ∧ FShows c4 exElem w M := by
  obtain ⟨w, fl, M, h1, _, _, _, h2, h3⟩ := C45_programs_partial (c := c4) (X := exElem) (er := 1) (et := 2) (by decide) (exEnv_fresh Nat gc) (by decide) joinProg (joinProg_allowed gc) (joinProg_on gc)
  exact ⟨w, M, h2, h3⟩

example : ∃ w M, CReached c4 (exEnv Nat false) exElem 1 2 w M ∧ ∃ B, Exact 1 2 w B := by
  obtain ⟨w, fl, M, h1, _, _, _, h2, h3⟩ := C45_programs_partial (c := c4) (X := exElem) (er := 1) (et := 2) (by decide) (exEnv_fresh Nat false) (by decide) joinMut joinMut_allowed joinMut_on
  exact ⟨w, M, h2, C26_exact_partial (by decide) (exEnv_fresh Nat false) (by decide) rfl h2⟩

example : (cShow false joinMut).map (fun x => (x.1.map fun l => l.filterMap id, x.2)) = some (
    [[11, 12, 13, 14, 1, 2, 3, 4, 5, 6, 7, 8, 9], [11, 12, 13, 14, 1, 2, 3, 4, 5, 6, 7, 8, 9, 11, 12, 13, 14], [1, 2, 3, 4, 5, 6, 7, 8, 9, 11, 12, 13, 14],
      [1, 2, 3, 4, 5, 6, 7, 8, 9, 11, 12, 13, 14, 10, 11, 12, 13, 14, 11, 12, 13, 14, 21, 1, 2, 3, 4, 5, 6, 7, 8, 9, 11, 12, 13, 14, 10, 11, 12, 13, 14, 11, 12, 13, 14, 21, 1, 2, 3, 4, 5, 6, 7, 8, 9, 11, 12, 13, 14, 10, 11, 12, 13, 14, 11, 12, 13, 14, 10, 11, 12, 13, 14, 11, 12, 13, 14, 22],
      [11, 12, 13, 14, 1, 2, 3, 4, 5, 6, 7, 8, 9, 20]],
    [false, false, false, false, false, true, false, false, true, false, false, false, false, false, false, true, false, false, false, false, false, false]) := by decide +kernel

end FlexHeap.Ex
