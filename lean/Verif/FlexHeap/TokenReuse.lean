import Verif.VecHeap.Tokens
import Verif.VecHeap.Props
import Verif.FlexHeap.Props
import Verif.FlexHeap.GcOthersEx

/-!
# Programs in which the collector gives tokens out again (C57)

Every transient must get a token that no node has which another object can reach: `can_mutate` only compares tokens
(gc_transience_policy.hpp 97).  The collector is to see to this.  It does for vectors, but not for flexible vectors (F32): it does
not look into the size tables, which have tokens too.  For flexible vectors the theorem is `_partial`: it is about programs in
which no token is given out again while a size table has it.
-/

namespace FlexHeap
open Mm Rrb VecHeap

section
variable {T : Type} {c : Cfg} {E : Env Dat T} {X : Elem T} {er et : Nat} {w : World T} {M : List (VecHeap.Spec.SObj T)}

/-- worlds that programs with vectors lead to, if a token may be given out again once no object and no node that can be reached has it -/
abbrev VRecycled (c : Cfg) (E : Env Dat T) (er et : Nat) : World T → List (VecHeap.Spec.SObj T) → Prop :=
  Recycled c (vectorKit T c) (VecHeap.Spec.vecOps T) (vecTerms T c) E er et (Lost er et)

/-- the same for flexible vectors, where `F` tells when a token may be given out again -/
abbrev FRecycled (c : Cfg) (E : Env Dat T) (X : Elem T) (er et : Nat) (F : World T → Nat → Prop) : World T → List (VecHeap.Spec.SObj T) → Prop :=
  Recycled c (flexKit T c X) (Spec.flexOps T) (flexTerms T c X) E er et F

/-- **C57** for vectors.  The collector may give the token of a transient out again as soon as no object and no node that can be
reached has it.  Then every vector and transient has the elements it should have, and allowed calls do nothing undefined and leave
the nodes of the other objects as they are. -/
theorem C57_vectors (hB : 0 < c.B) (hE : E.Fresh) (hne : er ≠ et) (h : VRecycled c E er et w M) :
    ShowsAll c (vectorKit T c) (vecTerms T c) w M ∧ ∀ f x, VecHeap.Spec.Allowed (VecHeap.Spec.vecOps T) M x →
      match vcall c E er et f x w with
      | .ok w' _ => Keeps w.st.mem w'.st.mem (rootsBut (VecHeap.Spec.hurt E.gc x) w.objs)
      | .thrown w' => Keeps w.st.mem w'.st.mem (rootsBut (VecHeap.Spec.hurt E.gc x) w.objs)
      | .ub => False := by
  have hA := vector_laws (T := T) hB hE
  have hr := h.rel hA hne lost_unused
  refine ⟨hr.shows hA, fun f x ha => ?_⟩
  have ho := call_out hA hr f x ha (VecHeap.Spec.Terms.free_on _)
  change AOut (vcall c E er et f x w) _ _ at ho
  generalize vcall c E er et f x w = a at ho
  cases a with
  | ok w' u => exact ho.2
  | thrown w' => obtain ⟨⟨M', _, h'⟩, _⟩ := ho; exact h'.2
  | ub => exact ho

/-- **C57** for flexible vectors, for programs in which a token is given out again only if no size table that can be reached has it
either.  What is missing fails: `C57_flex_fails`. -/
theorem C57_flex_partial (hB : 0 < c.B) (hE : E.Fresh) (hne : er ≠ et) (h : FRecycled c E X er et (Unused er et) w M) :
    ShowsAll c (flexKit T c X) (flexTerms T c X) w M ∧ ∀ f x, VecHeap.Spec.Allowed (Spec.flexOps T) M x → (flexTerms T c X).On E.gc w f x →
      match fcall c E X er et f x w with
      | .ok w' _ => Keeps w.st.mem w'.st.mem (rootsBut (VecHeap.Spec.hurt E.gc x) w.objs)
      | .thrown w' => Keeps w.st.mem w'.st.mem (rootsBut (VecHeap.Spec.hurt E.gc x) w.objs)
      | .ub => False := by
  have hA := flex_laws (T := T) (X := X) hB hE
  have hr := h.rel hA hne (fun _ hu => hu)
  refine ⟨hr.shows hA, fun f x ha hon => ?_⟩
  have ho := call_out hA hr f x ha hon
  change AOut (fcall c E X er et f x w) _ _ at ho
  generalize fcall c E X er et f x w = a at ho
  cases a with
  | ok w' u => exact ho.2
  | thrown w' => obtain ⟨⟨M', _, h'⟩, _⟩ := ho; exact h'.2
  | ub => exact ho

end

/-! ### Concrete programs -/

namespace Ex

section
variable {T : Type}

/-- a list with the pointers of the static variables and the objects, and with those of its nodes -/
def closedB (er et : Nat) (w : World T) (l : List Nat) : Bool :=
  (heads er et w).all (fun r => l.contains r) && l.all fun p => match w.st.mem p with
    | some c => (outsD c.data).all fun o => l.contains o
    | none => true

theorem closed_below {er et : Nat} {w : World T} {l : List Nat} (h : closedB er et w l = true) {r : Nat} (hr : r ∈ heads er et w) {p : Nat} (hp : VecHeap.Below w.st.mem r p) : p ∈ l := by
  obtain ⟨h1, h2⟩ := Bool.and_eq_true_iff.mp h
  induction hp with
  | here => exact List.contains_iff_mem.mp (List.all_eq_true.mp h1 r hr)
  | next _ hc ho ih =>
    have := List.all_eq_true.mp h2 _ ih
    rw [hc] at this
    exact List.contains_iff_mem.mp (List.all_eq_true.mp this _ ho)

/-- no object has `e`, and no node of the list; nor a size table, if `b` -/
def freeB (b : Bool) (w : World T) (l : List Nat) (e : Nat) : Bool :=
  (w.objs.all fun o => o.tok != e) && l.all fun p => match w.st.mem p with
    | some c => (!b && c.data.isTable) || c.tok != e
    | none => true

theorem free_lost {er et : Nat} {w : World T} {l : List Nat} {e : Nat} (h : closedB er et w l = true) (h' : freeB false w l e = true) : Lost er et w e := by
  obtain ⟨h1, h2⟩ := Bool.and_eq_true_iff.mp h'
  refine ⟨fun o ho => by simpa using List.all_eq_true.mp h1 o ho, fun r hr p hp c hc ht => ?_⟩
  have := List.all_eq_true.mp h2 p (closed_below h hr hp)
  rw [hc] at this
  simpa [ht] using this

theorem free_unused {er et : Nat} {w : World T} {l : List Nat} {e : Nat} (h : closedB er et w l = true) (h' : freeB true w l e = true) : Unused er et w e := by
  obtain ⟨h1, h2⟩ := Bool.and_eq_true_iff.mp h'
  refine ⟨fun o ho => by simpa using List.all_eq_true.mp h1 o ho, fun r hr p hp c hc => ?_⟩
  have := List.all_eq_true.mp h2 p (closed_below h hr hp)
  rw [hc] at this
  simpa using this

/-- calls that are allowed -/
def allowedB {Op : Type} (S : VecHeap.Spec.Ops Op T) (M : List (VecHeap.Spec.SObj T)) : Cmd T Op → Bool
  | .new _ => true
  | .ofRange _ => true
  | .destroy _ => true
  | .transient _ => true
  | .persistent i => match M[i]? with | some s => s.kd != .shell | none => true
  | .apply i o => match M[i]? with | some s => (S.run o s.val).isSome | none => true
  | .applyMut i o => match M[i]? with | some s => (S.run o s.val).isSome && s.kd != .shell | none => true
  | _ => false

theorem allowedB_ok {Op : Type} {S : VecHeap.Spec.Ops Op T} {M : List (VecHeap.Spec.SObj T)} {x : Cmd T Op} (h : allowedB S M x = true) : VecHeap.Spec.Allowed S M x := by
  cases x with
  | new _ => trivial
  | ofRange _ => trivial
  | destroy _ => trivial
  | transient _ => trivial
  | persistent i => intro s hs; simp only [allowedB, hs] at h; simpa using h
  | apply i o => intro s hs; simp only [allowedB, hs] at h; intro hn; rw [hn] at h; cases h
  | applyMut i o =>
    refine ⟨fun s hs => ?_, fun s hs => ?_⟩
    · simp only [allowedB, hs] at h; intro hn; rw [hn] at h; cases h
    · simp only [allowedB, hs] at h; simpa using (Bool.and_eq_true_iff.mp h).2
  | _ => cases h

/-- a program in which nothing throws -/
def tryRun (c : Cfg) (K : Kit T) (S : VecHeap.Spec.Ops K.Op T) (E : Env Dat T) (on : World T → Cmd T K.Op → Bool) : World T → List (VecHeap.Spec.SObj T) → List (Cmd T K.Op) → Option (World T)
  | w, _, [] => some w
  | w, M, x :: xs => if allowedB S M x && on w x then
      match call c K E 1 2 none x w with
      | .ok w' _ => tryRun c K S E on w' (VecHeap.Spec.step S E.gc M x) xs
      | _ => none
    else none

theorem tryRun_recycled {c : Cfg} {K : Kit T} {S : VecHeap.Spec.Ops K.Op T} {Tm : VecHeap.Spec.Terms K.Op} {E : Env Dat T} {on : World T → Cmd T K.Op → Bool} {F : World T → Nat → Prop}
    (hon : ∀ {w x}, on w x = true → Tm.On E.gc w none x) : ∀ (xs : List (Cmd T K.Op)) {w w' : World T} {M : List (VecHeap.Spec.SObj T)}, Recycled c K S Tm E 1 2 F w M →
    tryRun c K S E on w M xs = some w' → Recycled c K S Tm E 1 2 F w' (xs.foldl (VecHeap.Spec.step S E.gc) M)
  | [], _, _, _, h, hw => by cases hw; exact h
  | x :: xs, w, w', M, h, hw => by
    unfold tryRun at hw
    split at hw
    · rename_i hx
      obtain ⟨h1, h2⟩ := Bool.and_eq_true_iff.mp hx
      cases hc : call c K E 1 2 none x w with
      | thrown => rw [hc] at hw; cases hw
      | ub => rw [hc] at hw; cases hw
      | ok w1 u =>
        rw [hc] at hw
        exact tryRun_recycled hon xs (.call h (allowedB_ok h1) (hon h2) hc) hw
    · cases hw

end

noncomputable abbrev fTry := tryRun c4 (flexKit Nat c4 exElem) (Spec.flexOps Nat) (exEnv Nat true) fun w x => onNow w none x
abbrev fAfter := List.foldl (VecHeap.Spec.step (Spec.flexOps Nat) true)
noncomputable abbrev vTry := tryRun c4 (vectorKit Nat c4) (VecHeap.Spec.vecOps Nat) (exEnv Nat true) fun _ _ => true
abbrev vAfter := List.foldl (VecHeap.Spec.step (VecHeap.Spec.vecOps Nat) true)

theorem fTry_recycled {F : World Nat → Nat → Prop} (xs : List (Cmd Nat (FlexOp Nat))) {w w' : World Nat} {M : List (VecHeap.Spec.SObj Nat)}
    (h : FRecycled c4 (exEnv Nat true) exElem 1 2 F w M) (hw : fTry w M xs = some w') : FRecycled c4 (exEnv Nat true) exElem 1 2 F w' (fAfter M xs) :=
  tryRun_recycled (fun h => onNow_on exElem_ok h) xs h hw

theorem vTry_recycled (xs : List (Cmd Nat (VecOp Nat))) {w w' : World Nat} {M : List (VecHeap.Spec.SObj Nat)}
    (h : VRecycled c4 (exEnv Nat true) 1 2 w M) (hw : vTry w M xs = some w') : VRecycled c4 (exEnv Nat true) 1 2 w' (vAfter M xs) :=
  tryRun_recycled (c := c4) (K := vectorKit Nat c4) (S := VecHeap.Spec.vecOps Nat) (Tm := vecTerms Nat c4) (E := exEnv Nat true) (on := fun _ _ => true) (F := Lost 1 2)
    (fun _ => VecHeap.Spec.Terms.free_on _) xs h hw

/-- A transient drops elements; its size tables have its token.  Of the nodes of the value made from it, those that have the token
are copied by `set`; the size tables are shared (`make_inner_sr_n`, node.hpp 259-271).  The others go, and there is a new transient. -/
def before32 : List (Cmd Nat (FlexOp Nat)) :=
  [.ofRange (List.range 30), .transient 0, .applyMut 1 (.drop 3), .persistent 1, .apply 2 (.set 0 100), .destroy 2, .destroy 1, .destroy 0, .transient 0]

/-- what the new transient does -/
def after32 : List (Cmd Nat (FlexOp Nat)) := [.applyMut 1 (.set 0 7), .applyMut 1 (.drop 2)]

noncomputable def w32 : World Nat := (fTry (start c4 (exEnv Nat true) 1 2) [] before32).getD (start c4 (exEnv Nat true) 1 2)

noncomputable def w32' : World Nat := (fTry (w32.retoken 1 2) (fAfter [] before32) after32).getD w32

/-- the nodes that can be reached -/
def nodes32 : List Nat := [1, 2, 28, 24, 29, 26, 30, 6, 7, 11, 8, 9, 12, 13, 16, 14, 15, 17, 18, 21, 19, 20, 22]

theorem some_getD {α : Type} {x : Option α} {d : α} (h : x.isSome = true) : x = some (x.getD d) := by
  cases x with
  | none => cases h
  | some _ => rfl

theorem runs32 : (fTry (start c4 (exEnv Nat true) 1 2) [] before32).isSome = true ∧ (fTry (w32.retoken 1 2) (fAfter [] before32) after32).isSome = true := by
  constructor <;> decide +kernel

theorem run32 : fTry (start c4 (exEnv Nat true) 1 2) [] before32 = some w32 := by unfold w32; rw [← some_getD runs32.1]

theorem run32' : fTry (w32.retoken 1 2) (fAfter [] before32) after32 = some w32' := by unfold w32'; rw [← some_getD runs32.2]

theorem look32 : look (flexKit Nat c4 exElem) 0 3 w32' = some 8 := by decide +kernel

theorem spec32 : (fAfter (fAfter [] before32) after32)[0]? = some ⟨.value, 100 :: (List.range 30).drop 4⟩ := by
  have h : ∀ {x : Option (VecHeap.Spec.SObj Nat)} {l : List Nat}, x.map (fun s => (s.kd, s.val)) = some (.value, l) → x = some ⟨.value, l⟩ := by
    intro x l h
    obtain ⟨⟨k, v⟩, rfl, h⟩ := Option.map_eq_some_iff.mp h
    cases h
    rfl
  exact h (by decide +kernel)

theorem lost32 : closedB 1 2 w32 nodes32 = true ∧ freeB false w32 nodes32 2 = true ∧ freeB true w32 nodes32 2 = false ∧ w32.objs[1]?.isSome = true ∧ w32.next = 5 := by
  refine ⟨?_, ?_, ?_, ?_, ?_⟩ <;> decide +kernel

/-- **F32.**  The full claim of C57 fails for flexible vectors.  The token of the transient that dropped elements is held only by
size tables; the collector takes it back and gives it to the next transient.  That one then takes the size tables, which it shares
with the value, for its own (`ensure_mutable_relaxed`, node.hpp 866-891) and changes them: the value has another element at 3. -/
theorem C57_flex_fails : ∃ (w : World Nat) (M : List (VecHeap.Spec.SObj Nat)) (l : List Nat), FRecycled c4 (exEnv Nat true) exElem 1 2 (Lost 1 2) w M ∧
    M[0]? = some ⟨.value, l⟩ ∧ l[3]? = some 6 ∧ look (flexKit Nat c4 exElem) 0 3 w = some 8 := by
  have h1 : FRecycled c4 (exEnv Nat true) exElem 1 2 (Lost 1 2) w32 (fAfter [] before32) :=
    fTry_recycled before32 .start run32
  obtain ⟨o, ho⟩ := Option.isSome_iff_exists.mp lost32.2.2.2.1
  have h2 := h1.token (i := 1) (e := 2) ho (by decide) (by rw [lost32.2.2.2.2]; decide) (free_lost lost32.1 lost32.2.1)
  have h3 := fTry_recycled after32 h2 run32'
  refine ⟨w32', fAfter (fAfter [] before32) after32, _, h3, spec32, rfl, look32⟩

/-- The same calls, but the token is not given out again: the element stays. -/
example : (fTry w32 (fAfter [] before32) after32).map (look (flexKit Nat c4 exElem) 0 3) = some (some 6) := by decide +kernel

/-- pointers found from `todo` in at most `k` steps -/
def found (m : Mem Dat Nat) : Nat → List Nat → List Nat → List Nat
  | 0, _, l => l
  | _, [], l => l
  | k + 1, p :: ps, l => if l.contains p then found m k ps l else found m k ((match m p with | some c => outsD c.data | none => []) ++ ps) (p :: l)

noncomputable def nodesOf (w : World Nat) : List Nat := found w.st.mem 200 (heads 1 2 w) []

/-! A transient owns nodes, and goes; the next one gets its token. -/

def fPast : List (Cmd Nat (FlexOp Nat)) := [.ofRange (List.range 9), .apply 0 (.drop 1), .transient 1, .applyMut 2 (.set 0 50), .applyMut 2 (.push 9), .destroy 2, .transient 1]
def fNext : List (Cmd Nat (FlexOp Nat)) := [.applyMut 2 (.set 0 7), .applyMut 2 (.drop 2)]
noncomputable def fw : World Nat := (fTry (start c4 (exEnv Nat true) 1 2) [] fPast).getD (start c4 (exEnv Nat true) 1 2)
noncomputable def fw' : World Nat := (fTry (fw.retoken 2 2) (fAfter [] fPast) fNext).getD fw

theorem f_runs : (fTry (start c4 (exEnv Nat true) 1 2) [] fPast).isSome = true ∧ (fTry (fw.retoken 2 2) (fAfter [] fPast) fNext).isSome = true := by constructor <;> decide +kernel

theorem f_run : fTry (start c4 (exEnv Nat true) 1 2) [] fPast = some fw := by unfold fw; rw [← some_getD f_runs.1]

theorem f_run' : fTry (fw.retoken 2 2) (fAfter [] fPast) fNext = some fw' := by unfold fw'; rw [← some_getD f_runs.2]

/-- The token is that of nodes that are still there, though they cannot be reached. -/
theorem f_unused : closedB 1 2 fw (nodesOf fw) = true ∧ freeB true fw (nodesOf fw) 2 = true ∧ fw.objs[2]?.isSome = true ∧ decide (2 < fw.next) = true ∧
    ((List.range 60).any fun p => match fw.st.mem p with | some c => c.tok == 2 | none => false) = true := by
  refine ⟨?_, ?_, ?_, ?_, ?_⟩ <;> decide +kernel

theorem f_recycled : FRecycled c4 (exEnv Nat true) exElem 1 2 (Unused 1 2) fw' (fAfter (fAfter [] fPast) fNext) := by
  have h1 : FRecycled c4 (exEnv Nat true) exElem 1 2 (Unused 1 2) fw (fAfter [] fPast) := fTry_recycled fPast .start f_run
  obtain ⟨o, ho⟩ := Option.isSome_iff_exists.mp f_unused.2.2.1
  exact fTry_recycled fNext (h1.token (i := 2) (e := 2) ho (by decide) (of_decide_eq_true f_unused.2.2.2.1) (free_unused f_unused.1 f_unused.2.1)) f_run'

/-- a case that `C57_flex_partial` is about -/
example : ShowsAll c4 (flexKit Nat c4 exElem) (flexTerms Nat c4 exElem) fw' (fAfter (fAfter [] fPast) fNext) :=
  (C57_flex_partial (by decide) (exEnv_fresh Nat true) (by decide) f_recycled).1

def vPast : List (Cmd Nat (VecOp Nat)) := [.ofRange (List.range 9), .transient 0, .applyMut 1 (.push 9), .destroy 1, .transient 0]
def vNext : List (Cmd Nat (VecOp Nat)) := [.applyMut 1 (.push 7), .applyMut 1 (.take 3)]
noncomputable def vw : World Nat := (vTry (start c4 (exEnv Nat true) 1 2) [] vPast).getD (start c4 (exEnv Nat true) 1 2)
noncomputable def vw' : World Nat := (vTry (vw.retoken 1 2) (vAfter [] vPast) vNext).getD vw

theorem v_runs : (vTry (start c4 (exEnv Nat true) 1 2) [] vPast).isSome = true ∧ (vTry (vw.retoken 1 2) (vAfter [] vPast) vNext).isSome = true := by constructor <;> decide +kernel

theorem v_run : vTry (start c4 (exEnv Nat true) 1 2) [] vPast = some vw := by unfold vw; rw [← some_getD v_runs.1]

theorem v_run' : vTry (vw.retoken 1 2) (vAfter [] vPast) vNext = some vw' := by unfold vw'; rw [← some_getD v_runs.2]

theorem v_lost : closedB 1 2 vw (nodesOf vw) = true ∧ freeB false vw (nodesOf vw) 2 = true ∧ vw.objs[1]?.isSome = true ∧ decide (2 < vw.next) = true ∧
    ((List.range 60).any fun p => match vw.st.mem p with | some c => c.tok == 2 | none => false) = true := by
  refine ⟨?_, ?_, ?_, ?_, ?_⟩ <;> decide +kernel

theorem v_recycled : VRecycled c4 (exEnv Nat true) 1 2 vw' (vAfter (vAfter [] vPast) vNext) := by
  have h1 : VRecycled c4 (exEnv Nat true) 1 2 vw (vAfter [] vPast) := vTry_recycled vPast .start v_run
  obtain ⟨o, ho⟩ := Option.isSome_iff_exists.mp v_lost.2.2.1
  exact vTry_recycled vNext (h1.token (i := 1) (e := 2) ho (by decide) (of_decide_eq_true v_lost.2.2.2.1) (free_lost v_lost.1 v_lost.2.1)) v_run'

/-- a case that `C57_vectors` is about -/
example : ShowsAll c4 (vectorKit Nat c4) (vecTerms Nat c4) vw' (vAfter (vAfter [] vPast) vNext) :=
  (C57_vectors (by decide) (exEnv_fresh Nat true) (by decide) v_recycled).1

end Ex

end FlexHeap
