import Verif.ChampHeap.Props
import Verif.Champ.Props

/-!
# Concrete programs, and programs that go wrong (C36, C37, C41)
-/

namespace ChampHeap
open Mm Champ

/-- an allocator: memory is used in order, as long as it is free -/
noncomputable def exEnv (W : Nat) (T : Type) (gc : Bool) : Env (Dat W) T where
  gc
  alloc t m := match m (t + 2) with
    | none => t + 2
    | some _ => Classical.epsilon fun p => m p = none ∧ p ≠ 0

theorem exEnv_fresh (W : Nat) (T : Type) (gc : Bool) : (exEnv W T gc).Fresh := by
  intro t m ⟨l, hl⟩
  show m (match m (t + 2) with | none => t + 2 | some _ => Classical.epsilon fun p => m p = none ∧ p ≠ 0) = none ∧ _
  unfold exEnv
  simp only
  cases h : m (t + 2) with
  | none => exact ⟨h, by simp⟩
  | some c =>
    refine Classical.epsilon_spec (p := fun p => m p = none ∧ p ≠ 0) ⟨l.foldl max 0 + 1, ?_, by omega⟩
    by_contra hne
    have hmem := hl _ hne
    have hle : ∀ (l : List Nat) (a x : Nat), (x ∈ l ∨ x ≤ a) → x ≤ l.foldl max a := by
      intro l
      induction l with
      | nil => intro a x hx; simpa using hx
      | cons y l ih =>
        intro a x hx
        rw [List.foldl_cons]
        refine ih _ _ ?_
        rcases hx with hx | hx
        · rcases List.mem_cons.mp hx with rfl | hx
          · exact .inr (Nat.le_max_right _ _)
          · exact .inl hx
        · exact .inr (Nat.le_trans hx (Nat.le_max_left _ _))
    have := hle l 0 _ (.inl hmem)
    omega

abbrev Prog := List (Option (Kind × Nat) × Cmd Nat (Nat × Nat) Nat)

noncomputable abbrev rcEnv := exEnv exApi.cfg.W (Nat × Nat) false
noncomputable abbrev gcEnv := exEnv exApi.cfg.W (Nat × Nat) true

/-- A map; a transient from it, changed; a value from that, which shares nodes with the transient; the transient is changed
again, twice; then an insertion into the value that throws, one on an rvalue, and a copy that is destroyed. -/
def exProg : Prog :=
  [(none, .ofRange [(1, 10), (2, 20), (5, 50)]), (none, .transient 0), (none, .applyMut 1 (.insert (4, 40))), (none, .persistent 1),
    (none, .applyMut 1 (.erase 1)), (none, .applyMut 1 (.update 14 (· + 1))), (some (.alloc, 3), .apply 2 (.insert (8, 80))),
    (none, .applyMove 0 (.insert (2, 21))), (none, .copy 1), (none, .destroy 1)]

theorem exProg_allowed (gc : Bool) : Spec.AllAllowed exApi gc [] exProg := by
  cases gc <;>
  · simp only [exProg, Spec.AllAllowed, Spec.Allowed, Spec.Whole, Spec.step, Spec.failed, Spec.on, ne_eq, not_true_eq_false, false_imp_iff, and_true, true_and]
    simp [Spec.SKd.kd, Spec.SKd.of, Spec.Allowed.Bad]

abbrev Row := Kd × Nat × List (Option (Option (Nat × Nat)))

instance : DecidableEq (Option (Option (Nat × Nat))) := inferInstance
instance : DecidableEq Row := inferInstance

/-- contents of the objects at the keys 1, 2, 4, 5 -/
noncomputable def exShow (gc : Bool) : Option (List Row × List Bool) :=
  (run exApi (exEnv _ _ gc) 1 exProg (start exApi 1)).map fun (w, fl) =>
    (w.objs.mapIdx fun i (o : Obj) => (o.kd, o.ch.size, [1, 2, 4, 5].map fun k => find exApi i k w), fl)

example : exShow false = some ([(.value, 3, [some (some (1, 10)), some (some (2, 21)), some none, some (some (5, 50))]),
    (.value, 4, [some (some (1, 10)), some (some (2, 20)), some (some (4, 40)), some (some (5, 50))]),
    (.transient, 3, [some none, some (some (2, 20)), some (some (14, 41)), some (some (5, 50))])],
    [false, false, false, false, false, false, true, false, false, false]) := by decide +kernel

example : exShow true = some ([(.value, 3, [some (some (1, 10)), some (some (2, 20)), some none, some (some (5, 50))]),
    (.value, 4, [some (some (1, 10)), some (some (2, 20)), some (some (4, 40)), some (some (5, 50))]),
    (.value, 3, [some (some (1, 10)), some (some (2, 21)), some none, some (some (5, 50))]),
    (.transient, 3, [some none, some (some (2, 20)), some (some (14, 41)), some (some (5, 50))])],
    [false, false, false, false, false, false, true, false, false, false]) := by decide +kernel

/-- a world the theorems of `Props.lean` are about -/
theorem exReached (gc : Bool) : ∃ w M, Reached exApi (exEnv _ _ gc) 1 w M ∧ w.objs.length = M.length ∧ w.objs ≠ [] := by
  obtain ⟨w, fl, h1, _, _, h2⟩ := C22_programs (em := 1) exApi_lawful (exEnv_fresh _ _ gc) exProg (exProg_allowed gc)
  refine ⟨w, _, ⟨exProg, fl, exProg_allowed gc, h1, rfl⟩, h2.1, ?_⟩
  intro h0
  have : (run exApi (exEnv _ _ gc) 1 exProg (start exApi 1)).map (fun x => x.1.objs.length) = some (if gc then 4 else 3) := by
    cases gc <;> decide +kernel
  rw [h1] at this
  simp [h0] at this
  split at this <;> cases this

example : ∃ w M, Reached exApi rcEnv 1 w M ∧ ∃ B, Exact exApi 1 w B := by
  obtain ⟨w, M, h, _⟩ := exReached false
  exact ⟨w, M, h, C24_exact exApi_lawful (exEnv_fresh _ _ _) rfl h⟩

/-! ### Programs that go wrong -/

/-- two keys with the same hash -/
def clashProg : Prog := [(none, .ofRange [(1, 10), (4, 40)])]

theorem clashProg_allowed : Spec.AllAllowed exApi false [] clashProg := by
  simp [clashProg, Spec.AllAllowed, Spec.Allowed]

/-- **C36**, **C37**: false.  Replacing one of two elements with the same hash, when the copy of the other throws, destroys an
element that is not there (`copy_collision_replace`, hamts/node.hpp 490-519; defect F7). -/
theorem C37_fails : ∃ w M, Reached exApi rcEnv 1 w M ∧ call exApi rcEnv 1 (some (.copy, 0)) (.apply 0 (.insert (4, 41))) w = .ub := by
  obtain ⟨w, fl, h1, _⟩ := C22_programs (em := 1) exApi_lawful (exEnv_fresh _ _ false) clashProg clashProg_allowed
  refine ⟨w, _, ⟨clashProg, fl, clashProg_allowed, h1, rfl⟩, ?_⟩
  have : (run exApi rcEnv 1 clashProg (start exApi 1)).map (fun x => match call exApi rcEnv 1 (some (.copy, 0)) (.apply 0 (.insert (4, 41))) x.1 with | .ub => true | _ => false) = some true := by
    decide +kernel
  rw [h1] at this
  simp only [Option.map_some, Option.some.injEq] at this
  split at this
  · assumption
  · cases this

/-- The same, of the helper: a node in memory with two elements, of which the first is replaced. -/
theorem C36_fails : ∃ (s : St (Dat 4) Nat), s.mem 1 = some ⟨1, 0, [.live 10, .live 40], .coll 2⟩ ∧ s.fault = some (.copy, 0) ∧
    copyCollisionReplace (exEnv 4 Nat false) 1 0 41 s = .ub := by
  refine ⟨⟨upd (fun _ => none) 1 (some ⟨1, 0, [.live 10, .live 40], .coll 2⟩), 0, some (.copy, 0)⟩, rfl, rfl, ?_⟩
  have : (match copyCollisionReplace (exEnv 4 Nat false) 1 0 41 ⟨upd (fun _ => none) 1 (some ⟨1, 0, [.live 10, .live 40], .coll 2⟩), 0, some (.copy, 0)⟩ with
    | .ub => true | _ => false) = true := by decide +kernel
  split at this
  · assumption
  · cases this

/-- keys are their own hash -/
def idApi : Api Nat (Nat × Nat) Nat := mapApi 2 (fun n => BitVec.ofNat 64 n) (· == ·) 0

theorem idApi_lawful : idApi.Lawful := by
  apply mapApi_lawful (by decide)
  · simp
  · intro a b h; simpa using (by simpa using h : a = b).symm
  · intro a b d h1 h2; simp at h1 h2 ⊢; omega
  · intro a b h; simp at h; simp [h]

noncomputable abbrev idEnv := exEnv idApi.cfg.W (Nat × Nat) false

/-- a transient with two elements, in a node below the root -/
def erProg : Prog := [(none, .new .transient), (none, .applyMut 0 (.insert (0, 1))), (none, .applyMut 0 (.insert (4, 1)))]

theorem erProg_allowed : Spec.AllAllowed idApi false [] erProg := by
  simp [erProg, Spec.AllAllowed, Spec.Allowed, Spec.Whole, Spec.step, Spec.on, Spec.SKd.of, Spec.SKd.kd]

/-- **C41**: false.  Erasing through a transient: the node below the root is deleted; when the allocation of the new root throws,
the root still points to it, and the destructor of the transient follows that pointer (`do_sub_mut`, champ.hpp 1361-1463; defect
F22). -/
theorem C41_fails : ∃ w M w', Reached idApi idEnv 1 w M ∧ call idApi idEnv 1 (some (.alloc, 0)) (.applyMut 0 (.erase 4)) w = .thrown w' ∧
    call idApi idEnv 1 none (.destroy 0) w' = .ub := by
  obtain ⟨w, fl, h1, _⟩ := C22_programs (em := 1) idApi_lawful (exEnv_fresh _ _ false) erProg erProg_allowed
  have : (run idApi idEnv 1 erProg (start idApi 1)).map (fun x => match call idApi idEnv 1 (some (.alloc, 0)) (.applyMut 0 (.erase 4)) x.1 with
      | .thrown w' => (match call idApi idEnv 1 none (.destroy 0) w' with | .ub => true | _ => false)
      | _ => false) = some true := by
    decide +kernel
  rw [h1] at this
  simp only [Option.map_some, Option.some.injEq] at this
  cases hx : call idApi idEnv 1 (some (.alloc, 0)) (.applyMut 0 (.erase 4)) w with
  | ok _ _ => rw [hx] at this; cases this
  | ub => rw [hx] at this; cases this
  | thrown w' =>
    rw [hx] at this
    refine ⟨w, _, w', ⟨erProg, fl, erProg_allowed, h1, rfl⟩, hx, ?_⟩
    simp only at this
    split at this
    · assumption
    · cases this

end ChampHeap
