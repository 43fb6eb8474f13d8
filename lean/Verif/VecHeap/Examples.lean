import Verif.VecHeap.Props

/-!
# Concrete programs with vectors
-/

namespace VecHeap
open Mm Rrb

/-- an allocator: memory is used in order, as long as it is free -/
noncomputable def exEnv (T : Type) (gc : Bool) : Env Dat T where
  gc
  alloc t m := match m (t + 3) with
    | none => t + 3
    | some _ => Classical.epsilon fun p => m p = none ∧ p ≠ 0

theorem exEnv_fresh (T : Type) (gc : Bool) : (exEnv T gc).Fresh := by
  intro t m ⟨l, hl⟩
  show m (match m (t + 3) with | none => t + 3 | some _ => Classical.epsilon fun p => m p = none ∧ p ≠ 0) = none ∧ _
  unfold exEnv
  simp only
  cases h : m (t + 3) with
  | none => exact ⟨h, by simp⟩
  | some c =>
    refine Classical.epsilon_spec (p := fun p => m p = none ∧ p ≠ 0) ⟨l.foldl max 0 + 1, ?_, by omega⟩
    by_contra hne
    have hmem := hl _ hne
    have hle : ∀ (l : List Nat) (a x : Nat), (x ∈ l ∨ x ≤ a) → x ≤ l.foldl max a := by
      intro l
      induction l with
      | nil => intro a x hx; simpa using hx
      | cons y l ih =>
        intro a x hx
        rw [List.foldl_cons]
        refine ih _ _ ?_
        rcases hx with hx | hx
        · rcases List.mem_cons.mp hx with rfl | hx
          · exact .inr (Nat.le_max_right _ _)
          · exact .inl hx
        · exact .inr (Nat.le_trans hx (Nat.le_max_left _ _))
    have := hle l 0 _ (.inl hmem)
    omega

/-- two elements in a leaf, two children in an inner node -/
abbrev c2 : Cfg := ⟨1, 1, false⟩

abbrev Prog := List (Option (Kind × Nat) × Cmd Nat (VecOp Nat))

/-- the user's function: it may throw, and then leaves `0` -/
def add100 : Fn Nat := ⟨true, (· + 100), fun _ => 0⟩

/-- A vector of three levels; a transient from it, changed twice; a vector from that, which shares nodes with the transient;
the transient is changed again; an update in place whose function throws; a `push_back` that throws when it allocates; `take` on an
rvalue; a copy, and an object is destroyed. -/
def exProg : Prog :=
  [(none, .ofRange [1, 2, 3, 4, 5, 6, 7]), (none, .transient 0), (none, .applyMut 1 (.push 8)), (none, .applyMut 1 (.set 2 33)), (none, .persistent 1),
    (none, .applyMut 1 (.take 5)), (some (.user, 0), .applyMut 1 (.update 0 add100)), (none, .applyMut 1 (.update 1 add100)),
    (some (.alloc, 0), .apply 2 (.push 9)), (none, .apply 2 (.push 9)), (none, .applyMove 0 (.take 3)), (none, .copy 1), (none, .destroy 1)]

/-! Whether a program is allowed can be computed. -/

instance {T : Type} (M : List (Spec.SObj T)) (i : Nat) : Decidable (Spec.Whole M i) :=
  match h : M[i]? with
  | none => .isTrue fun s hs => by rw [h] at hs; cases hs
  | some s =>
    if hk : s.kd = .shell then .isFalse fun hw => hw s h hk
    else .isTrue fun s' hs => by rw [h] at hs; cases hs; exact hk

instance {T Op : Type} (S : Spec.Ops Op T) (M : List (Spec.SObj T)) (i : Nat) (o : Op) : Decidable (Spec.Legal S M i o) :=
  match h : M[i]? with
  | none => .isTrue fun s hs => by rw [h] at hs; cases hs
  | some s =>
    match hr : S.run o s.val with
    | none => .isFalse fun hw => hw s h hr
    | some l => .isTrue fun s' hs => by rw [h] at hs; cases hs; rw [hr]; exact fun h => by cases h

instance {T Op : Type} (S : Spec.Ops Op T) (M : List (Spec.SObj T)) : (x : Cmd T Op) → Decidable (Spec.Allowed S M x)
  | .new _ | .ofRange _ | .destroy _ | .transient _ | .transientMove _ => .isTrue trivial
  | .copy i | .move i | .assign _ i | .moveAssign _ i | .persistent i | .persistentMove i => inferInstanceAs (Decidable (Spec.Whole M i))
  | .apply i o | .applyMove i o => inferInstanceAs (Decidable (Spec.Legal S M i o))
  | .applyMut i o => inferInstanceAs (Decidable (Spec.Legal S M i o ∧ Spec.Whole M i))

instance allAllowedDec {T Op : Type} (S : Spec.Ops Op T) (gc : Bool) : (M : List (Spec.SObj T)) → (xs : List (Option (Kind × Nat) × Cmd T Op)) → Decidable (Spec.AllAllowed S gc M xs)
  | _, [] => .isTrue trivial
  | M, (f, x) :: xs =>
    have := allAllowedDec S gc (Spec.step S gc M x) xs
    have : ∀ M', Decidable (Spec.AllAllowed S gc M' xs) := fun M' => allAllowedDec S gc M' xs
    have : Decidable (f ≠ none → ∀ M' ∈ Spec.failed S gc M f x, Spec.AllAllowed S gc M' xs) :=
      match f with
      | none => .isTrue fun h => absurd rfl h
      | some f =>
        match List.decidableBAll (p := fun M' => Spec.AllAllowed S gc M' xs) (Spec.failed S gc M (some f) x) with
        | .isTrue h => .isTrue fun _ => h
        | .isFalse h => .isFalse fun h' => h (h' fun h => by cases h)
    inferInstanceAs (Decidable (_ ∧ _ ∧ _))

theorem exProg_allowed (gc : Bool) : Spec.AllAllowed (Spec.vecOps Nat) gc [] exProg := by
  cases gc <;> decide +kernel

abbrev Row := Kd × Nat × List (Option Nat)

instance : DecidableEq Row := inferInstance

noncomputable def exShow (gc : Bool) : Option (List Row × List Bool) :=
  (run c2 (vectorKit Nat c2) (exEnv Nat gc) 1 2 exProg (start c2 (exEnv Nat gc) 1 2)).map fun (w, fl) =>
    (w.objs.mapIdx fun i (o : Obj) => (o.kd, o.v.size, (List.range o.v.size).map fun k => look (vectorKit Nat c2) i k w), fl)

example : exShow false = some ([(.value, 3, [some 1, some 2, some 3]), (.value, 8, [some 1, some 2, some 33, some 4, some 5, some 6, some 7, some 8]),
    (.value, 9, [some 1, some 2, some 33, some 4, some 5, some 6, some 7, some 8, some 9]), (.transient, 5, [some 0, some 102, some 33, some 4, some 5])],
    [false, false, false, false, false, false, true, false, true, false, false, false, false]) := by decide +kernel

example : exShow true = some ([(.value, 7, [some 1, some 2, some 3, some 4, some 5, some 6, some 7]), (.value, 8, [some 1, some 2, some 33, some 4, some 5, some 6, some 7, some 8]),
    (.value, 9, [some 1, some 2, some 33, some 4, some 5, some 6, some 7, some 8, some 9]), (.value, 3, [some 1, some 2, some 3]), (.transient, 5, [some 0, some 102, some 33, some 4, some 5])],
    [false, false, false, false, false, false, true, false, true, false, false, false, false]) := by decide +kernel

/-- a world the theorems of `Props.lean` are about -/
theorem exReached (gc : Bool) : ∃ w M, VReached c2 (exEnv Nat gc) 1 2 w M ∧ w.objs.length = M.length ∧ w.objs ≠ [] := by
  obtain ⟨w, fl, M, h1, _, _, _, h2, h3⟩ := C25_programs (c := c2) (er := 1) (et := 2) (by decide) (exEnv_fresh Nat gc) (by decide) exProg (exProg_allowed gc)
  refine ⟨w, M, h2, h3.1, ?_⟩
  intro h0
  have : (run c2 (vectorKit Nat c2) (exEnv Nat gc) 1 2 exProg (start c2 (exEnv Nat gc) 1 2)).map (fun x => x.1.objs.length) = some (if gc then 5 else 4) := by
    cases gc <;> decide +kernel
  rw [h1] at this
  simp [h0] at this
  split at this <;> cases this

example : ∃ w M, VReached c2 (exEnv Nat false) 1 2 w M ∧ ∃ B, Exact 1 2 w B := by
  obtain ⟨w, M, h, _⟩ := exReached false
  exact ⟨w, M, h, C25_exact (by decide) (exEnv_fresh _ _) (by decide) rfl h⟩

/-- all the kinds of calls that `C25_same_result` compares, in one world -/
example (gc : Bool) : ∃ w M, VReached c2 (exEnv Nat gc) 1 2 w M ∧ M[0]? = some ⟨.value, [1, 2, 3]⟩ ∧ M[1]? = some ⟨.transient, [1, 2, 3]⟩ ∧
    (Spec.vecOps Nat).run (.update 1 add100) [1, 2, 3] = some [1, 102, 3] := by
  have h0 : VReached c2 (exEnv Nat gc) 1 2 (start c2 (exEnv Nat gc) 1 2) [] := .start
  have go : ∀ {w M} {x : Cmd Nat (VecOp Nat)}, VReached c2 (exEnv Nat gc) 1 2 w M → Spec.Allowed (Spec.vecOps Nat) M x → ∃ w', VReached c2 (exEnv Nat gc) 1 2 w' (Spec.step (Spec.vecOps Nat) gc M x) := by
    intro w M x h ha
    have hA := vector_laws (T := Nat) (c := c2) (by decide) (exEnv_fresh Nat gc)
    have hc := call_out hA (h.rel hA (by decide)) none x ha (Spec.Terms.free_on _)
    cases hx : call c2 (vectorKit Nat c2) (exEnv Nat gc) 1 2 none x w with
    | ub => rw [hx] at hc; exact hc.elim
    | thrown _ => rw [hx] at hc; exact absurd rfl hc.2
    | ok w' u => exact ⟨w', .call h ha (Spec.Terms.free_on _) hx⟩
  obtain ⟨w1, h1⟩ := go (x := .ofRange [1, 2, 3]) h0 trivial
  obtain ⟨w2, h2⟩ := go (x := .transient 0) h1 trivial
  exact ⟨w2, _, h2, rfl, rfl, rfl⟩

def sixProg : Prog := [(none, .ofRange [1, 2, 3, 4, 5, 6])]

/-- a call that throws (`C42_strong`): there are two levels, and the last allocation of `push_back` fails -/
example : ∃ w M w', VReached c2 (exEnv Nat false) 1 2 w M ∧ Spec.Allowed (Spec.vecOps Nat) M (.apply 0 (.push 7)) ∧
    vcall c2 (exEnv Nat false) 1 2 (some (.alloc, 2)) (.apply 0 (.push 7)) w = .thrown w' := by
  have hal : Spec.AllAllowed (Spec.vecOps Nat) false [] sixProg := by decide +kernel
  obtain ⟨w, fl, M, h1, _, _, _, h2, h3⟩ := C25_programs (c := c2) (er := 1) (et := 2) (by decide) (exEnv_fresh Nat false) (by decide) sixProg hal
  have : (run c2 (vectorKit Nat c2) (exEnv Nat false) 1 2 sixProg (start c2 (exEnv Nat false) 1 2)).map
      (fun x => match vcall c2 (exEnv Nat false) 1 2 (some (.alloc, 2)) (.apply 0 (.push 7)) x.1 with | .thrown _ => true | _ => false) = some true := by decide +kernel
  rw [h1] at this
  simp only [Option.map_some, Option.some.injEq] at this
  cases hx : vcall c2 (exEnv Nat false) 1 2 (some (.alloc, 2)) (.apply 0 (.push 7)) w with
  | ok _ _ => rw [hx] at this; cases this
  | ub => rw [hx] at this; cases this
  | thrown w' => exact ⟨w, M, w', h2, (fun s _ h => by cases h), hx⟩

end VecHeap
