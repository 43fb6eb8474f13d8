import Verif.VecHeap.Examples
import Verif.FlexHeap.Props

/-!
# Concrete programs with flexible vectors
-/

namespace FlexHeap.Ex
open Mm Rrb VecHeap

/-! Whether a program is on the terms can be computed, too. -/

section
variable {T : Type} {c : Cfg} {E : Env Dat T} {X : Elem T} {er et : Nat}

/-- no size table fails, except in persistent operations, and no object is too large -/
def onNow (w : World T) (f : Option (Kind × Nat)) (x : Cmd T (FlexOp T)) : Bool :=
  (match x with | .apply _ _ => true | _ => decide (f.map Prod.fst ≠ some .table)) && w.objs.all fun h => decide (h.v.size ≤ 2 ^ 32) && decide (h.v.shift < 32)

variable (c E X er et) in
def onAll : World T → List (Option (Kind × Nat) × Cmd T (FlexOp T)) → Bool
  | _, [] => true
  | w, (f, x) :: xs => onNow w f x && match fcall c E X er et f x w with
    | .ok w' _ => onAll w' xs
    | .thrown w' => onAll w' xs
    | .ub => true

theorem onNow_on (hX : X.Ok) {w : World T} {f : Option (Kind × Nat)} {x : Cmd T (FlexOp T)} (h : onNow w f x = true) : (flexTerms T c X).On E.gc w f x := by
  unfold onNow at h
  obtain ⟨h1, h2⟩ := Bool.and_eq_true_iff.mp h
  have hf : (∀ i o, x ≠ .apply i o) → NoTab f := by
    rintro hx j rfl
    split at h1
    · exact hx _ _ rfl
    · exact of_decide_eq_true h1 rfl
  have key : ∀ {b : Bool} {i : Nat} {h : Obj} {o : FlexOp T}, w.objs[i]? = some h → (b = true → NoTab f) → (flexTerms T c X).ok b f h.v o := by
    intro b i h o hi hb
    obtain ⟨h3, h4⟩ := Bool.and_eq_true_iff.mp (List.all_eq_true.mp h2 h (List.mem_of_getElem? hi))
    cases o with
    | drop n => exact ⟨of_decide_eq_true h3, of_decide_eq_true h4, fun _ => hX⟩
    | push _ => exact hb
    | take _ => exact hb
    | set _ _ => trivial
    | update _ _ => trivial
  cases x with
  | ofRange _ => exact hf (fun _ _ h => by cases h)
  | apply i o => exact fun h hi => key hi (fun h => by cases h)
  | applyMove i o => exact fun h hi => key hi (fun _ => hf (fun _ _ h => by cases h))
  | applyMut i o => exact fun h hi => key hi (fun _ => hf (fun _ _ h => by cases h))
  | new | copy | move | assign | moveAssign | destroy | transient | transientMove | persistent | persistentMove => trivial

theorem onAll_on (hX : X.Ok) : ∀ (xs : List (Option (Kind × Nat) × Cmd T (FlexOp T))) (w : World T), onAll c E X er et w xs = true → AllOn c (flexKit T c X) (flexTerms T c X) E er et w xs
  | [], _, _ => trivial
  | (f, x) :: xs, w, h => by
    rw [onAll] at h
    obtain ⟨h1, h2⟩ := Bool.and_eq_true_iff.mp h
    refine ⟨onNow_on hX h1, ?_⟩
    rintro w' (hw | hw)
    · rw [show fcall c E X er et f x w = _ from hw] at h2
      exact onAll_on hX xs w' h2
    · rw [show fcall c E X er et f x w = _ from hw] at h2
      exact onAll_on hX xs w' h2

end

/-- numbers: a move to itself does not change one -/
def exElem : Elem Nat := ⟨true, id⟩

theorem exElem_ok : exElem.Ok := fun _ _ => rfl

abbrev FProg := List (Option (Kind × Nat) × Cmd Nat (FlexOp Nat))

/-- A vector of three levels; one element dropped, so that it has relaxed nodes; a transient from it, changed, grown and cut at
both ends; a vector from that, which shares nodes and size tables with the transient; the transient is changed again; calls that
throw; `drop` and `push_back` on an rvalue; a copy, and objects are destroyed. -/
def exProg : FProg :=
  [(none, .ofRange [1, 2, 3, 4, 5, 6, 7, 8, 9]), (none, .apply 0 (.drop 3)), (none, .transient 1), (none, .applyMut 2 (.push 10)), (none, .applyMut 2 (.set 2 33)),
    (none, .persistent 2), (none, .applyMut 2 (.push 11)), (none, .applyMut 2 (.drop 1)), (none, .applyMut 2 (.take 6)), (some (.user, 0), .applyMut 2 (.update 0 add100)),
    (none, .applyMut 2 (.update 1 add100)), (some (.alloc, 1), .applyMut 2 (.push 12)), (some (.alloc, 1), .apply 3 (.drop 1)), (none, .apply 3 (.drop 5)),
    (none, .applyMove 0 (.drop 2)), (none, .applyMove 1 (.push 12)), (none, .copy 1), (none, .destroy 3), (none, .applyMut 2 (.push 13))]

theorem exProg_allowed (gc : Bool) : VecHeap.Spec.AllAllowed (Spec.flexOps Nat) gc [] exProg := by
  cases gc <;> decide +kernel

noncomputable def exShow (gc : Bool) : Option (List Row × List Bool) :=
  (run c2 (flexKit Nat c2 exElem) (exEnv Nat gc) 1 2 exProg (start c2 (exEnv Nat gc) 1 2)).map fun (w, fl) =>
    (w.objs.mapIdx fun i (o : Obj) => (o.kd, o.v.size, (List.range o.v.size).map fun k => look (flexKit Nat c2 exElem) i k w), fl)

example : exShow false = some ([(.value, 7, [some 3, some 4, some 5, some 6, some 7, some 8, some 9]),
    (.value, 7, [some 4, some 5, some 6, some 7, some 8, some 9, some 12]),
    (.transient, 7, [some 0, some 133, some 7, some 8, some 9, some 10, some 13]),
    (.value, 2, [some 9, some 10]),
    (.value, 7, [some 4, some 5, some 6, some 7, some 8, some 9, some 12])],
    [false, false, false, false, false, false, false, false, false, true, false, true, true, false, false, false, false, false, false]) := by decide +kernel

example : exShow true = some ([(.value, 9, [some 1, some 2, some 3, some 4, some 5, some 6, some 7, some 8, some 9]),
    (.value, 6, [some 4, some 5, some 6, some 7, some 8, some 9]),
    (.transient, 7, [some 0, some 133, some 7, some 8, some 9, some 10, some 13]),
    (.value, 2, [some 9, some 10]),
    (.value, 7, [some 3, some 4, some 5, some 6, some 7, some 8, some 9]),
    (.value, 7, [some 4, some 5, some 6, some 7, some 8, some 9, some 12]),
    (.value, 6, [some 4, some 5, some 6, some 7, some 8, some 9])],
    [false, false, false, false, false, false, false, false, false, true, false, true, true, false, false, false, false, false, false]) := by decide +kernel

theorem exProg_on (gc : Bool) : AllOn c2 (flexKit Nat c2 exElem) (flexTerms Nat c2 exElem) (exEnv Nat gc) 1 2 (start c2 (exEnv Nat gc) 1 2) exProg := by
  apply onAll_on exElem_ok
  cases gc <;> decide +kernel

/-- a world the theorems of `Props.lean` are about -/
theorem exReached (gc : Bool) : ∃ w M, FReached c2 (exEnv Nat gc) exElem 1 2 w M ∧ w.objs.length = M.length ∧ w.objs ≠ [] := by
  obtain ⟨w, fl, M, h1, _, _, _, h2, h3⟩ := C43_programs_partial (c := c2) (X := exElem) (er := 1) (et := 2) (by decide) (exEnv_fresh Nat gc) (by decide) exProg (exProg_allowed gc) (exProg_on gc)
  refine ⟨w, M, h2, h3.1, ?_⟩
  intro h0
  have : (run c2 (flexKit Nat c2 exElem) (exEnv Nat gc) 1 2 exProg (start c2 (exEnv Nat gc) 1 2)).map (fun x => x.1.objs.length) = some (if gc then 7 else 5) := by
    cases gc <;> decide +kernel
  rw [h1] at this
  simp [h0] at this
  split at this <;> cases this

example : ∃ w M, FReached c2 (exEnv Nat false) exElem 1 2 w M ∧ ∃ B, Exact 1 2 w B := by
  obtain ⟨w, M, h, _⟩ := exReached false
  exact ⟨w, M, h, C43_exact_partial (by decide) (exEnv_fresh _ _) (by decide) rfl h⟩

def nineProg : FProg := [(none, .ofRange [1, 2, 3, 4, 5, 6, 7, 8, 9]), (none, .apply 0 (.drop 3))]

/-- a call that throws (`C44_strong_partial`, `C44_persistent_partial`): an allocation of `drop` fails in a tree with relaxed nodes -/
example : ∃ w M w', FReached c2 (exEnv Nat false) exElem 1 2 w M ∧ VecHeap.Spec.Allowed (Spec.flexOps Nat) M (.apply 1 (.drop 1)) ∧
    fcall c2 (exEnv Nat false) exElem 1 2 (some (.alloc, 1)) (.apply 1 (.drop 1)) w = .thrown w' := by
  have hal : VecHeap.Spec.AllAllowed (Spec.flexOps Nat) false [] nineProg := by decide +kernel
  have hon : AllOn c2 (flexKit Nat c2 exElem) (flexTerms Nat c2 exElem) (exEnv Nat false) 1 2 (start c2 (exEnv Nat false) 1 2) nineProg := by
    apply onAll_on exElem_ok
    decide +kernel
  obtain ⟨w, fl, M, h1, _, _, _, h2, h3⟩ := C43_programs_partial (c := c2) (X := exElem) (er := 1) (et := 2) (by decide) (exEnv_fresh Nat false) (by decide) nineProg hal hon
  have : (run c2 (flexKit Nat c2 exElem) (exEnv Nat false) 1 2 nineProg (start c2 (exEnv Nat false) 1 2)).map
      (fun x => match fcall c2 (exEnv Nat false) exElem 1 2 (some (.alloc, 1)) (.apply 1 (.drop 1)) x.1 with | .thrown _ => true | _ => false) = some true := by decide +kernel
  rw [h1] at this
  simp only [Option.map_some, Option.some.injEq] at this
  cases hx : fcall c2 (exEnv Nat false) exElem 1 2 (some (.alloc, 1)) (.apply 1 (.drop 1)) w with
  | ok _ _ => rw [hx] at this; cases this
  | ub => rw [hx] at this; cases this
  | thrown w' => exact ⟨w, M, w', h2, (fun s _ h => by cases h), hx⟩

def threeProg : FProg := [(none, .ofRange [1, 2, 3]), (none, .transient 0)]

/-- the calls that `C43_same_result_partial` compares, in one world -/
example (gc : Bool) : ∃ w M, FReached c2 (exEnv Nat gc) exElem 1 2 w M ∧ M[0]? = some ⟨.value, [1, 2, 3]⟩ ∧ M[1]? = some ⟨.transient, [1, 2, 3]⟩ ∧
    (Spec.flexOps Nat).run (.drop 1) [1, 2, 3] = some [2, 3] ∧ ∀ b o, o ∈ w.objs → (flexTerms Nat c2 exElem).ok b none o.v (.drop 1) := by
  have hal : VecHeap.Spec.AllAllowed (Spec.flexOps Nat) (exEnv Nat gc).gc [] threeProg := by cases gc <;> decide +kernel
  have hon : AllOn c2 (flexKit Nat c2 exElem) (flexTerms Nat c2 exElem) (exEnv Nat gc) 1 2 (start c2 (exEnv Nat gc) 1 2) threeProg := by
    apply onAll_on exElem_ok
    cases gc <;> decide +kernel
  obtain ⟨w, fl, M, h1, h0, hf, hr, h2, h3⟩ := C43_programs_partial (c := c2) (X := exElem) (er := 1) (et := 2) (by decide) (exEnv_fresh Nat gc) (by decide) threeProg hal hon
  have hM : M = [⟨.value, [1, 2, 3]⟩, ⟨.transient, [1, 2, 3]⟩] := by
    match fl, h0 with
    | [a, b], _ =>
      have ha : a = false := by
        cases a with
        | false => rfl
        | true => exact absurd rfl (hf ((none, .ofRange [1, 2, 3]), true) (by simp [threeProg]) rfl)
      have hb : b = false := by
        cases b with
        | false => rfl
        | true => exact absurd rfl (hf ((none, .transient 0), true) (by simp [threeProg]) rfl)
      subst ha; subst hb
      exact hr
  subst hM
  refine ⟨w, _, h2, rfl, rfl, rfl, ?_⟩
  intro b o ho
  have : (run c2 (flexKit Nat c2 exElem) (exEnv Nat gc) 1 2 threeProg (start c2 (exEnv Nat gc) 1 2)).map (fun x => x.1.objs.all fun h => decide (h.v.size ≤ 2 ^ 32) && decide (h.v.shift < 32)) = some true := by
    cases gc <;> decide +kernel
  rw [h1] at this
  simp only [Option.map_some, Option.some.injEq] at this
  obtain ⟨h3, h4⟩ := Bool.and_eq_true_iff.mp (List.all_eq_true.mp this o ho)
  exact ⟨of_decide_eq_true h3, of_decide_eq_true h4, fun _ => exElem_ok⟩

end FlexHeap.Ex
