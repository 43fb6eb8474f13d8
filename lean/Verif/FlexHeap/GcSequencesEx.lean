import Verif.FlexHeap.GcSequences
import Verif.FlexHeap.GcOthersEx

/-!
# C54 for calls that follow each other, in a concrete case
-/

namespace FlexHeap
open Mm Rrb VecHeap
open VecHeap.Spec (SKd)

namespace Ex

/-- a call of one object, or a join -/
inductive GCmd where
  | one (x : Cmd Nat (FlexOp Nat))
  | join (b : Bin) (i j : Nat)

noncomputable def gcall (f : Option (Kind × Nat)) : GCmd → World Nat → Ans Nat Unit
  | .one x => VecHeap.call c4 (flexKit Nat c4 exElem) (exEnv Nat true) 1 2 f x
  | .join b i j => Gc.call c4 (exEnv Nat true) f b i j

def gkinds (K : List SKd) : GCmd → List SKd
  | .one x => kstep K x
  | .join b i j => Gc.kinds b i j K

def gallowed (K : List SKd) : GCmd → Bool
  | .one (.copy i) | .one (.move i) | .one (.assign _ i) | .one (.moveAssign _ i) | .one (.persistent i) | .one (.persistentMove i) | .one (.applyMut i _) => K[i]? ≠ some .shell
  | .one _ => true
  | .join _ i j => K[i]? = some .transient && K[j]? = some .transient && i ≠ j

noncomputable def grun : List GCmd → World Nat → Option (World Nat)
  | [], w => some w
  | x :: xs, w => match gcall none x w with
    | .ok w' _ => grun xs w'
    | _ => none

def gallAllowed : List SKd → List GCmd → Bool
  | _, [] => true
  | K, x :: xs => gallowed K x && gallAllowed (gkinds K x) xs

theorem grun_reached : ∀ (xs : List GCmd) {w w' : World Nat} {K : List SKd}, GReached c4 (exEnv Nat true) exElem 1 2 w K → gallAllowed K xs = true → grun xs w = some w' →
    GReached c4 (exEnv Nat true) exElem 1 2 w' (xs.foldl gkinds K)
  | [], _, _, _, h, _, hw => by cases hw; exact h
  | x :: xs, w, w', K, h, ha, hw => by
    unfold gallAllowed at ha
    obtain ⟨h1, h2⟩ := Bool.and_eq_true_iff.mp ha
    unfold grun at hw
    cases hc : gcall none x w with
    | thrown => rw [hc] at hw; cases hw
    | ub => rw [hc] at hw; cases hw
    | ok w1 u =>
      rw [hc] at hw
      refine grun_reached xs (K := gkinds K x) ?_ h2 hw
      cases x with
      | one x =>
        refine .one h ?_ hc
        cases x <;> first | trivial | (simp only [gallowed, decide_eq_true_eq] at h1; exact h1)
      | join b i j =>
        unfold gallowed at h1
        simp only [Bool.and_eq_true, decide_eq_true_eq] at h1
        exact .join h h1.1.1 h1.1.2 h1.2 hc

/-- the first transient is joined with the second, which stays; then both are changed, and a value and a copy are made -/
def seqProg : List GCmd := [.join .appendTo 3 4, .one (.applyMut 3 (.push 30)), .one (.applyMut 4 (.set 1 31)), .one (.persistent 3), .one (.applyMut 3 (.set 2 32)), .one (.copy 4), .one (.applyMut 3 (.drop 1)), .join .prependTo 4 3]

noncomputable def seqW : World Nat := (grun seqProg gcW).getD gcW

def seqK : List SKd := seqProg.foldl gkinds (gcM.map (·.kd))

theorem seqK_eq : seqK = [.value, .value, .value, .transient, .transient, .value, .value, .transient] := rfl

theorem seq_some : (grun seqProg gcW).isSome = true := by decide +kernel

theorem seq_reached : GReached c4 (exEnv Nat true) exElem 1 2 seqW seqK := by
  obtain ⟨w, hw⟩ := Option.isSome_iff_exists.mp seq_some
  have h := grun_reached seqProg (.prog gc_reached) (by decide +kernel) hw
  have : seqW = w := by unfold seqW; rw [hw, Option.getD_some]
  rw [this]
  exact h

noncomputable def seqShow (x : GCmd) : Option (List (List (Option Nat))) :=
  match gcall none x seqW with
  | .ok w _ | .thrown w => some (w.objs.mapIdx fun i (o : Obj) => (List.range o.v.size).map fun k => look (flexKit Nat c4 exElem) i k w)
  | .ub => none

def seqVals (l3 l4 : List Nat) : List (List Nat) :=
  [[1, 2, 3, 4, 5, 6, 7, 8, 9], [10, 11, 12, 13, 14], [11, 12, 13, 14], l3, l4, [1, 2, 3, 4, 5, 6, 7, 8, 9, 20, 21], [1, 2, 3, 4, 5, 6, 7, 8, 22, 20, 21, 24, 12, 13, 14, 23, 30], [24, 31, 13, 14, 23]]

/-- the contents (`destroy` of an object that is not there does nothing) -/
example : seqShow (.one (.destroy 9)) = some ((seqVals [24, 31, 13, 14, 23, 2, 32, 4, 5, 6, 7, 8, 22, 20, 21, 24, 12, 13, 14, 23, 30] [24, 31, 13, 14, 23]).map (·.map some)) := by decide +kernel

/-- another join of the same transients -/
example : seqShow (.join .appendTo 4 3) = some ((seqVals [24, 31, 13, 14, 23, 2, 32, 4, 5, 6, 7, 8, 22, 20, 21, 24, 12, 13, 14, 23, 30]
    [24, 31, 13, 14, 23, 24, 31, 13, 14, 23, 2, 32, 4, 5, 6, 7, 8, 22, 20, 21, 24, 12, 13, 14, 23, 30]).map (·.map some)) := by decide +kernel

/-- the nodes a call changes -/
noncomputable def seqChanged (f : Option (Kind × Nat)) (x : GCmd) : List Nat :=
  match gcall f x seqW with
  | .ok w _ | .thrown w => (List.range 120).filter fun p => match seqW.st.mem p, w.st.mem p with
    | some x, some y => decide (x.tok ≠ y.tok) || decide (x.els.length ≠ y.els.length) || decide (outsD x.data ≠ outsD y.data) || decide (lives x.els ≠ lives y.els)
    | none, _ => false
    | _, _ => true
  | .ub => []

/-- joins and operations in place change nodes -/
example : seqChanged none (.join .appendMove 3 4) ≠ [] ∧ seqChanged none (.join .prependTo 4 3) ≠ [] ∧ seqChanged none (.one (.applyMut 3 (.set 0 40))) ≠ [] ∧ seqChanged none (.one (.apply 6 (.set 0 40))) = [] := by decide +kernel

/-- the hypotheses of `C54_gc_joins_partial`: the value made from the first transient after the first join -/
example : ∃ w' o, Gc.call c4 (exEnv Nat true) none .appendMove 3 4 seqW = .ok w' () ∧ seqW.objs[6]? = some o ∧ contents c4 w'.st.mem o.v = contents c4 seqW.st.mem o.v := by
  obtain ⟨o, ho⟩ : ∃ o, seqW.objs[6]? = some o := ⟨_, List.getElem?_eq_getElem (by decide +kernel : 6 < seqW.objs.length)⟩
  have hc : (match Gc.call c4 (exEnv Nat true) none .appendMove 3 4 seqW with | .ok _ _ => true | _ => false) = true := by decide +kernel
  cases hw : Gc.call c4 (exEnv Nat true) none .appendMove 3 4 seqW with
  | ok w' u =>
    exact ⟨w', o, rfl, ho, (C54_gc_joins_partial (c := c4) (X := exElem) (er := 1) (et := 2) (by decide) (exEnv_fresh Nat true) (by decide) rfl seq_reached (i := 3) (j := 4) rfl rfl (by decide) (.inl hw) ho (by decide)).2⟩
  | thrown w' => rw [hw] at hc; cases hc
  | ub => rw [hw] at hc; cases hc

/-- the hypotheses of `C54_gc_calls_partial`: the second transient keeps what it has when the first is changed, though it has joined it -/
example : ∃ w' o, VecHeap.call c4 (flexKit Nat c4 exElem) (exEnv Nat true) 1 2 none (.applyMut 3 (.set 1 40)) seqW = .ok w' () ∧ seqW.objs[4]? = some o ∧ contents c4 w'.st.mem o.v = contents c4 seqW.st.mem o.v := by
  obtain ⟨o, ho⟩ : ∃ o, seqW.objs[4]? = some o := ⟨_, List.getElem?_eq_getElem (by decide +kernel : 4 < seqW.objs.length)⟩
  have hc : (match VecHeap.call c4 (flexKit Nat c4 exElem) (exEnv Nat true) 1 2 none (.applyMut 3 (.set 1 40)) seqW with | .ok _ _ => true | _ => false) = true := by decide +kernel
  cases hw : VecHeap.call c4 (flexKit Nat c4 exElem) (exEnv Nat true) 1 2 none (.applyMut 3 (.set 1 40)) seqW with
  | ok w' u =>
    exact ⟨w', o, rfl, ho, (C54_gc_calls_partial (c := c4) (X := exElem) (er := 1) (et := 2) (by decide) (exEnv_fresh Nat true) (by decide) rfl seq_reached (x := .applyMut 3 (.set 1 40)) (k := 4) (show seqK[3]? ≠ some .shell by decide) (.inl hw) ho (by decide)).2⟩
  | thrown w' => rw [hw] at hc; cases hc
  | ub => rw [hw] at hc; cases hc

end Ex
end FlexHeap
