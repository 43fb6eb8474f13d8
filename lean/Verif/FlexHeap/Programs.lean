import Verif.FlexHeap.Bin
import Verif.FlexHeap.Props

/-!
# Programs with flexible vectors and their concatenations (C26, C45, C46)

As `Props.lean`, with calls that take two objects.  The full claims fail: F2, F5, F8, F23, F24, F25.  What is proved is for calls
on `FOn`, which excludes these, and in addition concatenation of transients under the collector, which is not modelled.
-/

namespace FlexHeap
open Mm Rrb VecHeap

section spec
variable {T : Type} (gc : Bool)

/-- what a call does -/
def Spec.fstep (M : List (VecHeap.Spec.SObj T)) : FCmd T → List (VecHeap.Spec.SObj T)
  | .one x => VecHeap.Spec.step (Spec.flexOps T) gc M x
  | .two b i j => Spec.stepBin gc M b i j

/-- what a call that throws may leave -/
def Spec.ffailed (M : List (VecHeap.Spec.SObj T)) (f : Option (Kind × Nat)) : FCmd T → List (List (VecHeap.Spec.SObj T))
  | .one x => VecHeap.Spec.failed (Spec.flexOps T) gc M f x
  | .two _ _ _ => [M]

/-- what may be called -/
def Spec.FAllowed (M : List (VecHeap.Spec.SObj T)) : FCmd T → Prop
  | .one x => VecHeap.Spec.Allowed (Spec.flexOps T) M x
  | .two _ _ _ => True

/-- the calls of a program are allowed, whichever of them throw -/
def Spec.FAllAllowed : List (VecHeap.Spec.SObj T) → List (Option (Kind × Nat) × FCmd T) → Prop
  | _, [] => True
  | M, (f, x) :: xs => FAllowed M x ∧ FAllAllowed (fstep gc M x) xs ∧ (f ≠ none → ∀ M' ∈ ffailed gc M f x, FAllAllowed M' xs)

/-- what a program may do, given which calls throw -/
def Spec.FRuns : List (VecHeap.Spec.SObj T) → List ((Option (Kind × Nat) × FCmd T) × Bool) → List (VecHeap.Spec.SObj T) → Prop
  | M, [], M' => M' = M
  | M, ((_, x), false) :: xs, M' => FRuns (fstep gc M x) xs M'
  | M, ((f, x), true) :: xs, M' => ∃ M₁ ∈ ffailed gc M f x, FRuns M₁ xs M'

/-- the objects that a call may change -/
def Spec.fhurt : FCmd T → List Nat
  | .one x => (VecHeap.Spec.hurt gc x).toList
  | .two b i j => Spec.hurtBin gc b i j

end spec

section
variable {T : Type} {c : Cfg} {E : Env Dat T} {X : Elem T} {er et : Nat} {w w' : World T} {M : List (VecHeap.Spec.SObj T)}

/-- a call, which may throw at a point of its own -/
def ccall (c : Cfg) (E : Env Dat T) (X : Elem T) (er et : Nat) (f : Option (Kind × Nat)) (x : FCmd T) (w : World T) : Ans T Unit :=
  fstep c E X er et x { w with st := { w.st with fault := f } }

/-- when a call can be relied on -/
def FOn (c : Cfg) (X : Elem T) (gc : Bool) (w : World T) (f : Option (Kind × Nat)) : FCmd T → Prop
  | .one x => (flexTerms T c X).On gc w f x
  | .two b i j => ∀ h h', w.objs[i]? = some h → w.objs[j]? = some h' → binOn c gc w f b h h'

/-- the calls of a program can be relied on -/
def FAllOn (c : Cfg) (E : Env Dat T) (X : Elem T) (er et : Nat) : World T → List (Option (Kind × Nat) × FCmd T) → Prop
  | _, [] => True
  | w, (f, x) :: xs => FOn c X E.gc w f x ∧ ∀ w', ccall c E X er et f x w = .ok w' () ∨ ccall c E X er et f x w = .thrown w' → FAllOn c E X er et w' xs

/-- the objects are `M` -/
abbrev FShows (c : Cfg) (X : Elem T) (w : World T) (M : List (VecHeap.Spec.SObj T)) : Prop := ShowsAll c (flexKit T c X) (flexTerms T c X) w M

/-- worlds that programs with flexible vectors and concatenations lead to -/
inductive CReached (c : Cfg) (E : Env Dat T) (X : Elem T) (er et : Nat) : World T → List (VecHeap.Spec.SObj T) → Prop
  | start : CReached c E X er et (start c E er et) []
  | call {w w' : World T} {M : List (VecHeap.Spec.SObj T)} {f : Option (Kind × Nat)} {x : FCmd T} : CReached c E X er et w M → Spec.FAllowed M x → FOn c X E.gc w f x → ccall c E X er et f x w = .ok w' () →
      CReached c E X er et w' (Spec.fstep E.gc M x)
  | threw {w w' : World T} {M M' : List (VecHeap.Spec.SObj T)} {f : Option (Kind × Nat)} {x : FCmd T} : CReached c E X er et w M → Spec.FAllowed M x → FOn c X E.gc w f x → ccall c E X er et f x w = .thrown w' →
      M' ∈ Spec.ffailed E.gc M f x → FShows c X w' M' → CReached c E X er et w' M'

theorem post_fpost {o : Option Nat} (h : Post c E (Flex.Inv c) er et w o M w') : FPost c E er et w o.toList M w' := by
  refine ⟨h.1, fun k ob hk hn => h.2.mono fun r hr => ?_⟩
  unfold rootsBut
  cases o with
  | none => exact List.mem_flatMap.mpr ⟨ob, List.mem_of_getElem? hk, hr⟩
  | some i => exact List.mem_flatMap.mpr ⟨ob, List.mem_eraseIdx_iff_getElem?.mpr ⟨k, fun h => hn (by simp [h]), hk⟩, hr⟩

/-- what a call does -/
theorem ccall_out (hB : 2 ≤ c.B) (hE : E.Fresh) (h : Rel c E (Flex.Inv c) er et w M) (f : Option (Kind × Nat)) (x : FCmd T) (ha : Spec.FAllowed M x) (hok : FOn c X E.gc w f x) :
    AOut (ccall c E X er et f x w) (fun w' _ => FPost c E er et w (Spec.fhurt E.gc x) (Spec.fstep E.gc M x) w')
      (fun w' => (∃ M' ∈ Spec.ffailed E.gc M f x, FPost c E er et w (Spec.fhurt E.gc x) M' w') ∧ f ≠ none) := by
  have hA := flex_laws (T := T) (X := X) (c := c) (by omega) hE
  cases x with
  | one x =>
    exact aout_mono (call_out hA h f x ha hok) (fun _ _ h => post_fpost h) fun _ ⟨⟨M', h1, h2⟩, h3⟩ => ⟨⟨M', h1, post_fpost h2⟩, h3⟩
  | two b i j =>
    obtain ⟨G, h⟩ := h
    exact aout_mono (bin_out (w := { w with st := { w.st with fault := f } }) hB hE (h.eq rfl rfl rfl) b hok) (fun _ _ h => h) fun _ ⟨h1, h2⟩ => ⟨⟨M, List.mem_cons_self, h1⟩, h2⟩

theorem ffailed_kinds (c : Cfg) (X : Elem T) {gc : Bool} {f : Option (Kind × Nat)} {x : FCmd T} {M' : List (VecHeap.Spec.SObj T)} (ha : Spec.FAllowed M x) (h : M' ∈ Spec.ffailed gc M f x) :
    M'.map VecHeap.Spec.SObj.kd = M.map VecHeap.Spec.SObj.kd := by
  cases x with
  | one x => exact failed_kinds (K := flexKit T c X) (S := Spec.flexOps T) ha h
  | two b i j => rw [List.mem_singleton.mp h]

theorem CReached.rel (hB : 2 ≤ c.B) (hE : E.Fresh) (hne : er ≠ et) (h : CReached c E X er et w M) : Rel c E (Flex.Inv c) er et w M := by
  have hA := flex_laws (T := T) (X := X) (c := c) (by omega) hE
  induction h with
  | start => exact start_rel hne
  | @call w w' M f x _ ha ho hc ih =>
    have := ccall_out hB hE ih f x ha ho
    rw [hc] at this
    exact this.1
  | @threw w w' M M' f x _ ha ho hc hM hsh ih =>
    have := ccall_out hB hE ih f x ha ho
    rw [hc] at this
    obtain ⟨⟨M1, h1, h2⟩, _⟩ := this
    rw [shows_eq hsh (h2.1.shows hA) ((ffailed_kinds c X ha hM).trans (ffailed_kinds c X ha h1).symm)]
    exact h2.1

theorem CReached.thrown (hB : 2 ≤ c.B) (hE : E.Fresh) (hne : er ≠ et) (h : CReached c E X er et w M) {f : Option (Kind × Nat)} {x : FCmd T} (ha : Spec.FAllowed M x) (ho : FOn c X E.gc w f x)
    (hw : ccall c E X er et f x w = .thrown w') : ∃ M' ∈ Spec.ffailed E.gc M f x, CReached c E X er et w' M' := by
  have := ccall_out hB hE (h.rel hB hE hne) f x ha ho
  rw [hw] at this
  obtain ⟨⟨M', h1, h2⟩, _⟩ := this
  exact ⟨M', h1, .threw h ha ho hw h1 (h2.1.shows (flex_laws (by omega) hE))⟩

theorem frun_reached (hB : 2 ≤ c.B) (hE : E.Fresh) (hne : er ≠ et) : ∀ (xs : List (Option (Kind × Nat) × FCmd T)) (w : World T) (M : List (VecHeap.Spec.SObj T)), CReached c E X er et w M → Spec.FAllAllowed E.gc M xs → FAllOn c E X er et w xs →
    ∃ w' fl M', frun c E X er et xs w = some (w', fl) ∧ fl.length = xs.length ∧ (∀ p ∈ xs.zip fl, p.2 = true → p.1.1 ≠ none) ∧ Spec.FRuns E.gc M (xs.zip fl) M' ∧ CReached c E X er et w' M'
  | [], w, M, h, _, _ => ⟨w, [], M, rfl, rfl, (fun p hp => by cases hp), rfl, h⟩
  | (f, x) :: xs, w, M, h, ha, ho => by
    obtain ⟨h1, h2, h3⟩ := ha
    have hc := ccall_out hB hE (h.rel hB hE hne) f x h1 ho.1
    rw [frun]
    cases hx : ccall c E X er et f x w with
    | ok w1 u =>
      obtain ⟨w', fl, M', k1, k2, k3, k4, k5⟩ := frun_reached hB hE hne xs w1 _ (.call h h1 ho.1 hx) h2 (ho.2 w1 (.inl hx))
      unfold ccall at hx
      refine ⟨w', false :: fl, M', by rw [hx]; show Option.map _ (frun c E X er et xs w1) = _; rw [k1]; rfl, by simp [k2], ?_, k4, k5⟩
      intro p hp
      rw [List.zip_cons_cons] at hp
      rcases List.mem_cons.mp hp with rfl | hp
      · exact fun h => by cases h
      · exact k3 p hp
    | thrown w1 =>
      rw [hx] at hc
      obtain ⟨M1, hM1, hR⟩ := h.thrown hB hE hne h1 ho.1 hx
      obtain ⟨w', fl, M', k1, k2, k3, k4, k5⟩ := frun_reached hB hE hne xs w1 _ hR (h3 hc.2 M1 hM1) (ho.2 w1 (.inr hx))
      unfold ccall at hx
      refine ⟨w', true :: fl, M', by rw [hx]; show Option.map _ (frun c E X er et xs w1) = _; rw [k1]; rfl, by simp [k2], ?_, ⟨M1, hM1, k4⟩, k5⟩
      intro p hp
      rw [List.zip_cons_cons] at hp
      rcases List.mem_cons.mp hp with rfl | hp
      · exact fun _ => hc.2
      · exact k3 p hp
    | ub => rw [hx] at hc; exact hc.elim

/-- **C45**, partial: on `FOn`.  A program with operations on flexible vectors and transients, and
concatenations of two of them, each of which may throw, never does anything undefined.  At the end every object has the size and
the elements it should have; a concatenation, whether new or in place, has those of the first and then those of the second. -/
theorem C45_programs_partial (hB : 2 ≤ c.B) (hE : E.Fresh) (hne : er ≠ et) (prog : List (Option (Kind × Nat) × FCmd T)) (h : Spec.FAllAllowed E.gc [] prog)
    (ho : FAllOn c E X er et (start c E er et) prog) :
    ∃ w fl M, frun c E X er et prog (start c E er et) = some (w, fl) ∧ fl.length = prog.length ∧ (∀ p ∈ prog.zip fl, p.2 = true → p.1.1 ≠ none) ∧
      Spec.FRuns E.gc [] (prog.zip fl) M ∧ CReached c E X er et w M ∧ FShows c X w M := by
  obtain ⟨w, fl, M, h1, h2, h3, h4, h5⟩ := frun_reached hB hE hne prog (start c E er et) [] .start h ho
  exact ⟨w, fl, M, h1, h2, h3, h4, h5, (h5.rel hB hE hne).shows (flex_laws (by omega) hE)⟩

/-- **C39**, partial: on `FOn`.  Also with concatenations, two objects with the same root and tail have the same size and the same
elements. -/
theorem C39_concat_identity_partial (hB : 2 ≤ c.B) (hE : E.Fresh) (hne : er ≠ et) (h : CReached c E X er et w M) {i j : Nat} {oi oj : Obj} (hi : w.objs[i]? = some oi) (hj : w.objs[j]? = some oj)
    (hr : oi.v.root = oj.v.root) (ht : oi.v.tail = oj.v.tail) : oi.v.size = oj.v.size ∧ contents c w.st.mem oi.v = contents c w.st.mem oj.v :=
  identity_same (flex_laws (T := T) (X := X) (by omega) hE) (h.rel hB hE hne) hi hj hr ht

/-- **C45**, partial: on `FOn`.  The nodes of every object that a call does not work on stay as they are. -/
theorem C45_others_unchanged_partial (hB : 2 ≤ c.B) (hE : E.Fresh) (hne : er ≠ et) (h : CReached c E X er et w M) {f : Option (Kind × Nat)} {x : FCmd T} (ha : Spec.FAllowed M x) (ho : FOn c X E.gc w f x)
    (hw : ccall c E X er et f x w = .ok w' () ∨ ccall c E X er et f x w = .thrown w') {j : Nat} {o : Obj} (hj : w.objs[j]? = some o) (hn : j ∉ Spec.fhurt E.gc x) :
    (∀ p, NodeOf w.st.mem o.v p → ∃ cl cl', w.st.mem p = some cl ∧ w'.st.mem p = some cl' ∧ cl'.data = cl.data ∧ cl'.els = cl.els ∧ cl'.tok = cl.tok) ∧
      contents c w'.st.mem o.v = contents c w.st.mem o.v := by
  have hc := ccall_out hB hE (h.rel hB hE hne) f x ha ho
  have hk : Keeps w.st.mem w'.st.mem [o.v.root, o.v.tail] := by
    rcases hw with hw | hw <;> rw [hw] at hc
    · exact hc.2 j o hj hn
    · obtain ⟨⟨_, _, hc⟩, _⟩ := hc
      exact hc.2 j o hj hn
  have h1 := hk o.v.root (by simp)
  have h2 := hk o.v.tail (by simp)
  refine ⟨fun p hp => ?_, ?_⟩
  · rcases hp with hp | hp
    · obtain ⟨c, c', k1, k2, k3⟩ := h1 p hp
      exact ⟨c, c', k1, k2, k3⟩
    · obtain ⟨c, c', k1, k2, k3⟩ := h2 p hp
      exact ⟨c, c', k1, k2, k3⟩
  · unfold contents
    rw [flat_congr _ _ h1, flat_congr _ _ h2]

/-- **C26**, partial: on `FOn`, so for `prepend(&&)` only if the tail of the first operand is not full.  When references are
counted, after any program with operations and concatenations, in place or not, throwing or not, each node and each size table
counts exactly the references to it, and belongs to an object or is one of the two static nodes. -/
theorem C26_exact_partial (hB : 2 ≤ c.B) (hE : E.Fresh) (hne : er ≠ et) (hgc : E.gc = false) (h : CReached c E X er et w M) : ∃ B, Exact er et w B :=
  (h.rel hB hE hne).exact hgc

/-- **C26**, partial: on `FOn`.  When all objects are destroyed, everything but the static nodes is released. -/
theorem C26_all_released_partial (hB : 2 ≤ c.B) (hE : E.Fresh) (hne : er ≠ et) (hgc : E.gc = false) (h : CReached c E X er et w M) (h0 : w.objs = []) :
    (∀ p, w.st.mem p ≠ none ↔ p = er ∨ p = et) ∧ ∀ p, p = er ∨ p = et → ∃ cl, w.st.mem p = some cl ∧ cl.rc = 1 :=
  (h.rel hB hE hne).released hgc hne h0

/-- **C46**, partial: on `FOn`.  When a concatenation throws, all objects are as they were, and there are no
nodes too many and no counts that are wrong. -/
theorem C46_strong_partial (hB : 2 ≤ c.B) (hE : E.Fresh) (hne : er ≠ et) (h : CReached c E X er et w M) {f : Option (Kind × Nat)} {b : Bin} {i j : Nat} (ho : FOn c X E.gc w f (.two b i j))
    (hw : ccall c E X er et f (.two b i j) w = .thrown w') : f ≠ none ∧ CReached c E X er et w' M ∧ FShows c X w' M ∧ (E.gc = false → ∃ B, Exact er et w' B) := by
  obtain ⟨M', h1, h2⟩ := h.thrown hB hE hne (x := .two b i j) trivial ho hw
  have hf := ccall_out (X := X) hB hE (h.rel hB hE hne) f (.two b i j) trivial ho
  rw [hw] at hf
  have h1 : M' = M := List.mem_singleton.mp h1
  subst h1
  exact ⟨hf.2, h2, (h2.rel hB hE hne).shows (flex_laws (by omega) hE), fun hg => (h2.rel hB hE hne).exact hg⟩

end
end FlexHeap
