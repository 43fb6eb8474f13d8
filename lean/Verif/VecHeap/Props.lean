import Verif.VecHeap.Progs
import Verif.VecHeap.Vector

/-!
# Vectors on memory (C25, C27, C39, C42)

Programs are lists of calls (`Cmd`, see `Api.lean`), each of which may throw at any point; the calls that are allowed are
described in `Spec.lean`.  What they should do is also described there, without nodes.
-/

namespace VecHeap
open Mm Rrb

section
variable {T : Type} {c : Cfg} {E : Env Dat T} {er et : Nat} {w w' : World T} {M : List (Spec.SObj T)}

/-- worlds that programs with vectors lead to -/
abbrev VReached (c : Cfg) (E : Env Dat T) (er et : Nat) : World T → List (Spec.SObj T) → Prop :=
  Reached c (vectorKit T c) (Spec.vecOps T) (vecTerms T c) E er et

/-- a call on vectors -/
abbrev vcall (c : Cfg) (E : Env Dat T) (er et : Nat) := call c (vectorKit T c) E er et

/-- **C25.**  A program of allowed calls, each of which may throw, never does anything undefined.  At the end every vector and
transient has the size and the elements it should have, whether they were made by persistent operations, in place through a
transient, or in place on an rvalue.  This holds with reference counting and under the collector. -/
theorem C25_programs (hB : 0 < c.B) (hE : E.Fresh) (hne : er ≠ et) (prog : List (Option (Kind × Nat) × Cmd T (VecOp T))) (h : Spec.AllAllowed (Spec.vecOps T) E.gc [] prog) :
    ∃ w fl M, run c (vectorKit T c) E er et prog (start c E er et) = some (w, fl) ∧ fl.length = prog.length ∧ (∀ p ∈ prog.zip fl, p.2 = true → p.1.1 ≠ none) ∧
      Spec.Runs (Spec.vecOps T) E.gc [] (prog.zip fl) M ∧ VReached c E er et w M ∧ ShowsAll c (vectorKit T c) (vecTerms T c) w M := by
  have hA := vector_laws (T := T) hB hE
  obtain ⟨w, fl, M, h1, h2, h3, h4, h5⟩ := run_reached hA hne prog (start c E er et) [] .start h (allOn_free _ _)
  exact ⟨w, fl, M, h1, h2, h3, h4, h5, (h5.rel hA hne).shows hA⟩

/-- **C25**, for one operation: on a transient or an rvalue it leaves what it gives as a new vector.  (Under the collector the
operation on an rvalue makes a new vector, too.) -/
theorem C25_same_result (hB : 0 < c.B) (hE : E.Fresh) (hne : er ≠ et) (h : VReached c E er et w M) {i j k : Nat} {l l' : List T} {o : VecOp T} (hi : M[i]? = some ⟨.value, l⟩)
    (hj : M[j]? = some ⟨.transient, l⟩) (hk : M[k]? = some ⟨.value, l⟩) (hr : (Spec.vecOps T).run o l = some l') :
    ∃ w₁ w₂ w₃, vcall c E er et none (.apply i o) w = .ok w₁ () ∧ vcall c E er et none (.applyMut j o) w = .ok w₂ () ∧ vcall c E er et none (.applyMove k o) w = .ok w₃ () ∧
      Shows c (vectorKit T c) (vecTerms T c) w₁ M.length ⟨.value, l'⟩ ∧ Shows c (vectorKit T c) (vecTerms T c) w₂ j ⟨.transient, l'⟩ ∧
      Shows c (vectorKit T c) (vecTerms T c) w₃ (if E.gc then M.length else k) ⟨.value, l'⟩ :=
  have hA := vector_laws (T := T) hB hE
  same_result hA (h.rel hA hne) hi hj hk hr (fun _ _ _ => trivial)

/-- **C25.**  With reference counting: whatever is done to one object, in place or not, and even if it throws, the nodes of every
other object stay as they are, and so it has the same elements. -/
theorem C25_others_unchanged (hB : 0 < c.B) (hE : E.Fresh) (hne : er ≠ et) (_hgc : E.gc = false) (h : VReached c E er et w M) {f : Option (Kind × Nat)} {x : Cmd T (VecOp T)}
    (ha : Spec.Allowed (Spec.vecOps T) M x) (hw : vcall c E er et f x w = .ok w' () ∨ vcall c E er et f x w = .thrown w') {j : Nat} {o : Obj} (hj : w.objs[j]? = some o) (hn : Spec.hurt E.gc x ≠ some j) :
    (∀ p, NodeOf w.st.mem o.v p → ∃ cl cl', w.st.mem p = some cl ∧ w'.st.mem p = some cl' ∧ cl'.data = cl.data ∧ cl'.els = cl.els ∧ cl'.tok = cl.tok) ∧
      contents c w'.st.mem o.v = contents c w.st.mem o.v :=
  have hA := vector_laws (T := T) hB hE
  call_keeps hA (h.rel hA hne) ha (Spec.Terms.free_on _) hw hj hn

/-- **C25.**  With reference counting, after any program of allowed calls, throwing or not: each node counts exactly the references
to it, and every node belongs to an object or is one of the two static ones. -/
theorem C25_exact (hB : 0 < c.B) (hE : E.Fresh) (hne : er ≠ et) (hgc : E.gc = false) (h : VReached c E er et w M) : ∃ B, Exact er et w B :=
  (h.rel (vector_laws (T := T) hB hE) hne).exact hgc

/-- **C25.**  When all objects are destroyed, all nodes but the static ones are released, and nothing else refers to those. -/
theorem C25_all_released (hB : 0 < c.B) (hE : E.Fresh) (hne : er ≠ et) (hgc : E.gc = false) (h : VReached c E er et w M) (h0 : w.objs = []) :
    (∀ p, w.st.mem p ≠ none ↔ p = er ∨ p = et) ∧ ∀ p, p = er ∨ p = et → ∃ cl, w.st.mem p = some cl ∧ cl.rc = 1 :=
  (h.rel (vector_laws (T := T) hB hE) hne).released hgc hne h0

/-- **C27**, vectors.  Under the collector: whatever is done to one object the nodes of every other object stay as they are. -/
theorem C27_vector_others_unchanged (hB : 0 < c.B) (hE : E.Fresh) (hne : er ≠ et) (_hgc : E.gc = true) (h : VReached c E er et w M) {f : Option (Kind × Nat)} {x : Cmd T (VecOp T)}
    (ha : Spec.Allowed (Spec.vecOps T) M x) (hw : vcall c E er et f x w = .ok w' () ∨ vcall c E er et f x w = .thrown w') {j : Nat} {o : Obj} (hj : w.objs[j]? = some o) (hn : Spec.hurt E.gc x ≠ some j) :
    (∀ p, NodeOf w.st.mem o.v p → ∃ cl cl', w.st.mem p = some cl ∧ w'.st.mem p = some cl' ∧ cl'.data = cl.data ∧ cl'.els = cl.els ∧ cl'.tok = cl.tok) ∧
      contents c w'.st.mem o.v = contents c w.st.mem o.v :=
  have hA := vector_laws (T := T) hB hE
  call_keeps hA (h.rel hA hne) ha (Spec.Terms.free_on _) hw hj hn

/-- **C27**, vectors.  A node of any object that an operation on transient `i` changes, even one that throws, has the token of
the transient. -/
theorem C27_vector_only_owner (hB : 0 < c.B) (hE : E.Fresh) (hne : er ≠ et) (hgc : E.gc = true) (h : VReached c E er et w M) {f : Option (Kind × Nat)} {i : Nat} {o : VecOp T}
    (ha : Spec.Allowed (Spec.vecOps T) M (.applyMut i o)) (hw : vcall c E er et f (.applyMut i o) w = .ok w' () ∨ vcall c E er et f (.applyMut i o) w = .thrown w')
    {oi : Obj} (hi : w.objs[i]? = some oi) {j : Nat} {oj : Obj} (hj : w.objs[j]? = some oj) {p : Nat} (hp : NodeOf w.st.mem oj.v p) {cl : Cell Dat T} (hc : w.st.mem p = some cl) (ht : cl.tok ≠ oi.tok) :
    ∃ cl', w'.st.mem p = some cl' ∧ cl'.data = cl.data ∧ cl'.els = cl.els ∧ cl'.tok = cl.tok :=
  have hA := vector_laws (T := T) hB hE
  only_owner hA hgc (h.rel hA hne) ha (Spec.Terms.free_on _) hw hi hj hp hc ht

/-- **C27**, vectors.  After `persistent()` on transient `i` no node of any object has the token of the transient. -/
theorem C27_vector_persistent_gives_up (hB : 0 < c.B) (hE : E.Fresh) (hne : er ≠ et) (hgc : E.gc = true) (h : VReached c E er et w M) {f : Option (Kind × Nat)} {i : Nat}
    (ha : Spec.Allowed (Spec.vecOps T) M (.persistent i : Cmd T (VecOp T))) (hw : vcall c E er et f (.persistent i : Cmd T (VecOp T)) w = .ok w' ())
    {oi : Obj} (hi : w'.objs[i]? = some oi) (hkd : oi.kd = .transient) {o : Obj} (ho : o ∈ w'.objs) {p : Nat} (hp : NodeOf w'.st.mem o.v p) {cl : Cell Dat T} (hc : w'.st.mem p = some cl) : cl.tok ≠ oi.tok :=
  have hA := vector_laws (T := T) hB hE
  persistent_gives_up hA hgc (h.rel hA hne) ha hw hi hkd ho hp hc

/-- **C39**, vectors (vector.hpp 349): two objects with the same `identity()`, that is with the
same root and tail, have the same size and the same elements. -/
theorem C39_vector_identity (hB : 0 < c.B) (hE : E.Fresh) (hne : er ≠ et) (h : VReached c E er et w M) {i j : Nat} {oi oj : Obj} (hi : w.objs[i]? = some oi) (hj : w.objs[j]? = some oj)
    (hr : oi.v.root = oj.v.root) (ht : oi.v.tail = oj.v.tail) : oi.v.size = oj.v.size ∧ contents c w.st.mem oi.v = contents c w.st.mem oj.v :=
  have hA := vector_laws (T := T) hB hE
  identity_same hA (h.rel hA hne) hi hj hr ht

/-- **C42.**  When a call throws, all objects are as they were, and there are no nodes too many and no counts that are wrong
(`C25_exact` holds again).  There are two exceptions.  A function that throws while an element is updated in place leaves there
what it leaves; that is not an exception if what throws is an allocation or the copy of an element.  And
`std::move(v).transient()` leaves `v` empty. -/
theorem C42_strong (hB : 0 < c.B) (hE : E.Fresh) (hne : er ≠ et) (h : VReached c E er et w M) {f : Option (Kind × Nat)} {x : Cmd T (VecOp T)} (ha : Spec.Allowed (Spec.vecOps T) M x)
    (hw : vcall c E er et f x w = .thrown w') :
    f ≠ none ∧ ∃ M', VReached c E er et w' M' ∧ ShowsAll c (vectorKit T c) (vecTerms T c) w' M' ∧ (E.gc = false → ∃ B, Exact er et w' B) ∧ M' ∈ Spec.failed (Spec.vecOps T) E.gc M f x ∧
      ((∀ n, f ≠ some (.user, n)) → (∀ i, x ≠ .transientMove i) → M' = M) := by
  exact (strong (vector_laws (T := T) hB hE) hne h ha (Spec.Terms.free_on _) hw)

/-- **C42**, persistent operations: when one throws, nothing has changed. -/
theorem C42_persistent (hB : 0 < c.B) (hE : E.Fresh) (hne : er ≠ et) (h : VReached c E er et w M) {f : Option (Kind × Nat)} {i : Nat} {o : VecOp T}
    (ha : Spec.Allowed (Spec.vecOps T) M (.apply i o)) (hw : vcall c E er et f (.apply i o) w = .thrown w') :
    VReached c E er et w' M ∧ ShowsAll c (vectorKit T c) (vecTerms T c) w' M ∧ (E.gc = false → ∃ B, Exact er et w' B) := by
  have hA := vector_laws (T := T) hB hE
  obtain ⟨M', h1, h2⟩ := h.thrown hA hne ha (Spec.Terms.free_on _) hw
  have h1 : M' = M := List.mem_singleton.mp h1
  subst h1
  exact ⟨h2, (h2.rel hA hne).shows hA, fun hg => (h2.rel hA hne).exact hg⟩

end
end VecHeap
