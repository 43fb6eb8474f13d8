import Verif.VecHeap.Progs
import Verif.FlexHeap.Flex

/-!
# Flexible vectors on memory (C39, C43, C44)

Programs are those of `VecHeap/Api.lean`, with the operations of `FlexHeap/Api.lean`.  The full claims fail: F5, F23 and F24
(`drop_self_move_fails`, `take_table_throws_fails`, `push_table_throws_fails` in `Fails.lean`).  What is proved is for calls on
`flexTerms`, which exclude these and nothing else.
-/

namespace FlexHeap
open Mm Rrb VecHeap

section
variable {T : Type} {c : Cfg} {E : Env Dat T} {X : Elem T} {er et : Nat} {w w' : World T} {M : List (VecHeap.Spec.SObj T)}

/-- worlds that programs with flexible vectors lead to -/
abbrev FReached (c : Cfg) (E : Env Dat T) (X : Elem T) (er et : Nat) : World T → List (VecHeap.Spec.SObj T) → Prop :=
  Reached c (flexKit T c X) (Spec.flexOps T) (flexTerms T c X) E er et

/-- a call on flexible vectors -/
abbrev fcall (c : Cfg) (E : Env Dat T) (X : Elem T) (er et : Nat) := call c (flexKit T c X) E er et

/-- Programs without `drop` in which no allocation of a size table fails are on the terms. -/
theorem allOn_flex : ∀ (prog : List (Option (Kind × Nat) × Cmd T (FlexOp T))) (w : World T), (∀ p ∈ prog, NoTab p.1) →
    (∀ p ∈ prog, ∀ i n, p.2 ≠ .apply i (.drop n) ∧ p.2 ≠ .applyMove i (.drop n) ∧ p.2 ≠ .applyMut i (.drop n)) → AllOn c (flexKit T c X) (flexTerms T c X) E er et w prog
  | [], _, _, _ => trivial
  | (f, x) :: xs, w, h1, h2 => by
    refine ⟨?_, fun w' _ => allOn_flex xs w' (fun p hp => h1 p (List.mem_cons_of_mem _ hp)) (fun p hp => h2 p (List.mem_cons_of_mem _ hp))⟩
    have hf : NoTab f := h1 _ List.mem_cons_self
    have hx := h2 (f, x) List.mem_cons_self
    have key : ∀ {b : Bool} {v : Vc} {o : FlexOp T}, (∀ n, o ≠ .drop n) → (flexTerms T c X).ok b f v o := by
      intro b v o ho
      cases o with
      | drop n => exact absurd rfl (ho n)
      | push _ => exact fun _ => hf
      | take _ => exact fun _ => hf
      | set _ _ => trivial
      | update _ _ => trivial
    cases x with
    | ofRange _ => exact hf
    | apply i o => exact fun h _ => key (by rintro n rfl; exact (hx i n).1 rfl)
    | applyMove i o => exact fun h _ => key (by rintro n rfl; exact (hx i n).2.1 rfl)
    | applyMut i o => exact fun h _ => key (by rintro n rfl; exact (hx i n).2.2 rfl)
    | new | copy | move | assign | moveAssign | destroy | transient | transientMove | persistent | persistentMove => trivial

/-- **C43**, partial: on `flexTerms`.  A program of allowed calls, each of which may throw, never does anything undefined.  At the
end every flexible vector and transient has the size and the elements it should have, whether they were made by persistent
operations, in place through a transient, or in place on an rvalue.  This holds with reference counting and under the collector. -/
theorem C43_programs_partial (hB : 0 < c.B) (hE : E.Fresh) (hne : er ≠ et) (prog : List (Option (Kind × Nat) × Cmd T (FlexOp T))) (h : VecHeap.Spec.AllAllowed (Spec.flexOps T) E.gc [] prog)
    (ho : AllOn c (flexKit T c X) (flexTerms T c X) E er et (start c E er et) prog) :
    ∃ w fl M, run c (flexKit T c X) E er et prog (start c E er et) = some (w, fl) ∧ fl.length = prog.length ∧ (∀ p ∈ prog.zip fl, p.2 = true → p.1.1 ≠ none) ∧
      VecHeap.Spec.Runs (Spec.flexOps T) E.gc [] (prog.zip fl) M ∧ FReached c E X er et w M ∧ ShowsAll c (flexKit T c X) (flexTerms T c X) w M := by
  have hA := flex_laws (T := T) (X := X) hB hE
  obtain ⟨w, fl, M, h1, h2, h3, h4, h5⟩ := run_reached hA hne prog (start c E er et) [] .start h ho
  exact ⟨w, fl, M, h1, h2, h3, h4, h5, (h5.rel hA hne).shows hA⟩

/-- **C43**, partial: on `flexTerms`.  An operation on a transient or an rvalue leaves what it gives as a new vector. -/
theorem C43_same_result_partial (hB : 0 < c.B) (hE : E.Fresh) (hne : er ≠ et) (h : FReached c E X er et w M) {i j k : Nat} {l l' : List T} {o : FlexOp T} (hi : M[i]? = some ⟨.value, l⟩)
    (hj : M[j]? = some ⟨.transient, l⟩) (hk : M[k]? = some ⟨.value, l⟩) (hr : (Spec.flexOps T).run o l = some l')
    (ho : ∀ b oi, w.objs[i]? = some oi ∨ w.objs[j]? = some oi ∨ w.objs[k]? = some oi → (flexTerms T c X).ok b none oi.v o) :
    ∃ w₁ w₂ w₃, fcall c E X er et none (.apply i o) w = .ok w₁ () ∧ fcall c E X er et none (.applyMut j o) w = .ok w₂ () ∧ fcall c E X er et none (.applyMove k o) w = .ok w₃ () ∧
      Shows c (flexKit T c X) (flexTerms T c X) w₁ M.length ⟨.value, l'⟩ ∧ Shows c (flexKit T c X) (flexTerms T c X) w₂ j ⟨.transient, l'⟩ ∧
      Shows c (flexKit T c X) (flexTerms T c X) w₃ (if E.gc then M.length else k) ⟨.value, l'⟩ :=
  have hA := flex_laws (T := T) (X := X) hB hE
  same_result hA (h.rel hA hne) hi hj hk hr ho

/-- **C43**, partial: on `flexTerms`.  Whatever is done to one object, in place or not, and even if it throws, the nodes of every
other object stay as they are, and so it has the same elements. -/
theorem C43_others_unchanged_partial (hB : 0 < c.B) (hE : E.Fresh) (hne : er ≠ et) (h : FReached c E X er et w M) {f : Option (Kind × Nat)} {x : Cmd T (FlexOp T)}
    (ha : VecHeap.Spec.Allowed (Spec.flexOps T) M x) (ho : (flexTerms T c X).On E.gc w f x) (hw : fcall c E X er et f x w = .ok w' () ∨ fcall c E X er et f x w = .thrown w')
    {j : Nat} {o : Obj} (hj : w.objs[j]? = some o) (hn : VecHeap.Spec.hurt E.gc x ≠ some j) :
    (∀ p, NodeOf w.st.mem o.v p → ∃ cl cl', w.st.mem p = some cl ∧ w'.st.mem p = some cl' ∧ cl'.data = cl.data ∧ cl'.els = cl.els ∧ cl'.tok = cl.tok) ∧
      contents c w'.st.mem o.v = contents c w.st.mem o.v :=
  have hA := flex_laws (T := T) (X := X) hB hE
  call_keeps hA (h.rel hA hne) ha ho hw hj hn

/-- **C43**, partial: on `flexTerms`.  With reference counting, after any program of allowed calls, throwing or not: each node and
each size table counts exactly the references to it, and each belongs to an object or is one of the two static nodes. -/
theorem C43_exact_partial (hB : 0 < c.B) (hE : E.Fresh) (hne : er ≠ et) (hgc : E.gc = false) (h : FReached c E X er et w M) : ∃ B, Exact er et w B :=
  (h.rel (flex_laws (T := T) (X := X) hB hE) hne).exact hgc

/-- **C43**, partial: on `flexTerms`.  When all objects are destroyed, everything but the static nodes is released. -/
theorem C43_all_released_partial (hB : 0 < c.B) (hE : E.Fresh) (hne : er ≠ et) (hgc : E.gc = false) (h : FReached c E X er et w M) (h0 : w.objs = []) :
    (∀ p, w.st.mem p ≠ none ↔ p = er ∨ p = et) ∧ ∀ p, p = er ∨ p = et → ∃ cl, w.st.mem p = some cl ∧ cl.rc = 1 :=
  (h.rel (flex_laws (T := T) (X := X) hB hE) hne).released hgc hne h0

/-- **C43**, partial: on `flexTerms`.  Under the collector, a node of any object that an operation on transient `i` changes, even
one that throws, has the token of the transient. -/
theorem C43_only_owner_partial (hB : 0 < c.B) (hE : E.Fresh) (hne : er ≠ et) (hgc : E.gc = true) (h : FReached c E X er et w M) {f : Option (Kind × Nat)} {i : Nat} {o : FlexOp T}
    (ha : VecHeap.Spec.Allowed (Spec.flexOps T) M (.applyMut i o)) (ho : (flexTerms T c X).On E.gc w f (.applyMut i o))
    (hw : fcall c E X er et f (.applyMut i o) w = .ok w' () ∨ fcall c E X er et f (.applyMut i o) w = .thrown w')
    {oi : Obj} (hi : w.objs[i]? = some oi) {j : Nat} {oj : Obj} (hj : w.objs[j]? = some oj) {p : Nat} (hp : NodeOf w.st.mem oj.v p) {cl : Cell Dat T} (hc : w.st.mem p = some cl) (ht : cl.tok ≠ oi.tok) :
    ∃ cl', w'.st.mem p = some cl' ∧ cl'.data = cl.data ∧ cl'.els = cl.els ∧ cl'.tok = cl.tok :=
  have hA := flex_laws (T := T) (X := X) hB hE
  only_owner hA hgc (h.rel hA hne) ha ho hw hi hj hp hc ht

/-- **C43**, partial: on `flexTerms`.  After `persistent()` on transient `i` no node of any object has the token of the transient. -/
theorem C43_persistent_gives_up_partial (hB : 0 < c.B) (hE : E.Fresh) (hne : er ≠ et) (hgc : E.gc = true) (h : FReached c E X er et w M) {f : Option (Kind × Nat)} {i : Nat}
    (ha : VecHeap.Spec.Allowed (Spec.flexOps T) M (.persistent i : Cmd T (FlexOp T))) (hw : fcall c E X er et f (.persistent i : Cmd T (FlexOp T)) w = .ok w' ())
    {oi : Obj} (hi : w'.objs[i]? = some oi) (hkd : oi.kd = .transient) {o : Obj} (ho : o ∈ w'.objs) {p : Nat} (hp : NodeOf w'.st.mem o.v p) {cl : Cell Dat T} (hc : w'.st.mem p = some cl) : cl.tok ≠ oi.tok :=
  have hA := flex_laws (T := T) (X := X) hB hE
  persistent_gives_up hA hgc (h.rel hA hne) ha hw hi hkd ho hp hc

/-- **C39**, flexible vectors (flex_vector.hpp `identity`): two objects with the same root and tail have the same size and the same
elements. -/
theorem C39_flex_identity (hB : 0 < c.B) (hE : E.Fresh) (hne : er ≠ et) (h : FReached c E X er et w M) {i j : Nat} {oi oj : Obj} (hi : w.objs[i]? = some oi) (hj : w.objs[j]? = some oj)
    (hr : oi.v.root = oj.v.root) (ht : oi.v.tail = oj.v.tail) : oi.v.size = oj.v.size ∧ contents c w.st.mem oi.v = contents c w.st.mem oj.v :=
  have hA := flex_laws (T := T) (X := X) hB hE
  identity_same hA (h.rel hA hne) hi hj hr ht

/-- **C44**, partial: on `flexTerms`, so not for size tables that cannot be allocated in place.  When a call throws, all objects
are as they were, and there are no nodes too many and no counts that are wrong.  The exceptions are those of `C42_strong`. -/
theorem C44_strong_partial (hB : 0 < c.B) (hE : E.Fresh) (hne : er ≠ et) (h : FReached c E X er et w M) {f : Option (Kind × Nat)} {x : Cmd T (FlexOp T)}
    (ha : VecHeap.Spec.Allowed (Spec.flexOps T) M x) (ho : (flexTerms T c X).On E.gc w f x) (hw : fcall c E X er et f x w = .thrown w') :
    f ≠ none ∧ ∃ M', FReached c E X er et w' M' ∧ ShowsAll c (flexKit T c X) (flexTerms T c X) w' M' ∧ (E.gc = false → ∃ B, Exact er et w' B) ∧
      M' ∈ VecHeap.Spec.failed (Spec.flexOps T) E.gc M f x ∧ ((∀ n, f ≠ some (.user, n)) → (∀ i, x ≠ .transientMove i) → M' = M) :=
  strong (flex_laws (T := T) (X := X) hB hE) hne h ha ho hw

/-- **C44**, persistent operations but `drop`: when one throws, whatever it is that throws, nothing has changed. -/
theorem C44_persistent_partial (hB : 0 < c.B) (hE : E.Fresh) (hne : er ≠ et) (h : FReached c E X er et w M) {f : Option (Kind × Nat)} {i : Nat} {o : FlexOp T}
    (ha : VecHeap.Spec.Allowed (Spec.flexOps T) M (.apply i o)) (hd : ∀ n oi, o = .drop n → w.objs[i]? = some oi → oi.v.size ≤ 2 ^ 32 ∧ oi.v.shift < 32) (hw : fcall c E X er et f (.apply i o) w = .thrown w') :
    FReached c E X er et w' M ∧ ShowsAll c (flexKit T c X) (flexTerms T c X) w' M ∧ (E.gc = false → ∃ B, Exact er et w' B) := by
  have hA := flex_laws (T := T) (X := X) hB hE
  have ho : (flexTerms T c X).On E.gc w f (.apply i o) := by
    intro oi hoi
    cases o with
    | drop n => exact ⟨(hd n oi rfl hoi).1, (hd n oi rfl hoi).2, fun h => by cases h⟩
    | push _ => exact fun h => by cases h
    | take _ => exact fun h => by cases h
    | set _ _ => trivial
    | update _ _ => trivial
  obtain ⟨M', h1, h2⟩ := h.thrown hA hne ha ho hw
  have h1 : M' = M := List.mem_singleton.mp h1
  subst h1
  exact ⟨h2, (h2.rel hA hne).shows hA, fun hg => (h2.rel hA hne).exact hg⟩

end
end FlexHeap
