import Verif.FlexHeap.Programs

/-!
# `push_front`, `insert` and `erase` on memory (C47)

These functions of `flex_vector` (flex_vector.hpp 266-269, 435-497) are made of others: what they make on the way are objects of
the program for a while.  A fault counts through all the parts.  When a part throws, the destructors of what was made run, and
the exception goes on.  (C++ does not say which operand of `+` comes first; here it is the left one.)
-/

namespace FlexHeap
open Mm Rrb VecHeap

/-- The functions; `Rv`: on an rvalue.  `i` is the vector, `j` the vector to be inserted, which is copied into the parameter. -/
inductive Edit (T : Type) where
  /-- `push_front(x)` (266-269) -/
  | pushFront (i : Nat) (x : T)
  /-- `insert(p, x)` (435-438) -/
  | insert (i p : Nat) (x : T)
  /-- `insert(p, x) &&` (439-445) -/
  | insertRv (i p : Nat) (x : T)
  /-- `insert(p, v)` (447-450) -/
  | insertAll (i p j : Nat)
  /-- `insert(p, v) &&` (451-456) -/
  | insertAllRv (i p j : Nat)
  /-- `erase(p)` (473-476) -/
  | erase (i p : Nat)
  /-- `erase(p) &&` (477-481) -/
  | eraseRv (i p : Nat)
  /-- `erase(p, q)` (483-486) -/
  | eraseRange (i p q : Nat)
  /-- `erase(p, q) &&` (487-495).  Under the collector this does not compile: `decltype(auto)` is a `flex_vector` for one `return`
  and a reference for the other.  See F26. -/
  | eraseRangeRv (i p q : Nat)

namespace Edit
variable {T : Type}

/-- the vector -/
def obj : Edit T → Nat
  | pushFront i _ | insert i _ _ | insertRv i _ _ | insertAll i _ _ | insertAllRv i _ _ | erase i _ | eraseRv i _ | eraseRange i _ _
  | eraseRangeRv i _ _ => i

/-- the other vector -/
def other : Edit T → Nat
  | insertAll _ _ j | insertAllRv _ _ j => j
  | e => e.obj

/-- The parts, when there are `n` objects.  Without the collector `+` of rvalues changes the first operand, and the second is
gone; with it, functions of rvalues make new vectors (`use_transient_rvalues`), so there are some to destroy at the end. -/
def parts (gc : Bool) (n : Nat) : Edit T → List (FCmd T)
  | pushFront i x =>
      if gc then
        [.one (.new .value), .one (.applyMove n (.push x)), .two .appendTo (n + 1) i, .one (.destroy n), .one (.destroy n)]
      else [.one (.new .value), .one (.applyMove n (.push x)), .two .appendTo n i]
  | insert i p x =>
      if gc then
        [.one (.apply i (.take p)), .one (.applyMove n (.push x)), .one (.apply i (.drop p)), .two .appendMove (n + 1) (n + 2),
          .one (.destroy n), .one (.destroy n), .one (.destroy n)]
      else [.one (.apply i (.take p)), .one (.applyMove n (.push x)), .one (.apply i (.drop p)), .two .appendMove n (n + 1)]
  | insertRv i p x =>
      if gc then
        [.one (.apply i (.drop p)), .one (.applyMove i (.take p)), .one (.applyMove (n + 1) (.push x)), .two .appendMove (n + 2) n,
          .one (.destroy n), .one (.destroy n), .one (.destroy n)]
      else [.one (.apply i (.drop p)), .one (.applyMove i (.take p)), .one (.applyMove i (.push x)), .two .appendMove i n]
  | insertAll i p j =>
      if gc then
        [.one (.copy j), .one (.apply i (.take p)), .two .appendMove (n + 1) n, .one (.apply i (.drop p)),
          .two .appendMove (n + 2) (n + 3), .one (.destroy n), .one (.destroy n), .one (.destroy n), .one (.destroy n)]
      else
        [.one (.copy j), .one (.apply i (.take p)), .two .appendMove (n + 1) n, .one (.apply i (.drop p)), .two .appendMove n (n + 1)]
  | insertAllRv i p j =>
      if gc then
        [.one (.copy j), .one (.apply i (.drop p)), .one (.applyMove i (.take p)), .two .appendMove (n + 2) n,
          .two .appendMove (n + 3) (n + 1), .one (.destroy n), .one (.destroy n), .one (.destroy n), .one (.destroy n)]
      else
        [.one (.copy j), .one (.apply i (.drop p)), .one (.applyMove i (.take p)), .two .appendMove i n, .two .appendMove i n]
  | erase i p =>
      if gc then
        [.one (.apply i (.take p)), .one (.apply i (.drop (p + 1))), .two .appendMove n (n + 1), .one (.destroy n), .one (.destroy n)]
      else [.one (.apply i (.take p)), .one (.apply i (.drop (p + 1))), .two .appendMove n (n + 1)]
  | eraseRv i p =>
      if gc then
        [.one (.apply i (.drop (p + 1))), .one (.applyMove i (.take p)), .two .appendMove (n + 1) n, .one (.destroy n),
          .one (.destroy n)]
      else [.one (.apply i (.drop (p + 1))), .one (.applyMove i (.take p)), .two .appendMove i n]
  | eraseRange i p q =>
      if p < q then
        if gc then
          [.one (.apply i (.take p)), .one (.apply i (.drop q)), .two .appendMove n (n + 1), .one (.destroy n), .one (.destroy n)]
        else [.one (.apply i (.take p)), .one (.apply i (.drop q)), .two .appendMove n (n + 1)]
      else [.one (.copy i)]
  | eraseRangeRv i p q =>
      if p < q then [.one (.apply i (.drop q)), .one (.applyMove i (.take p)), .two .appendMove i n] else []

end Edit

section
variable {T : Type} (c : Cfg) (E : Env Dat T) (X : Elem T) (er et : Nat)

/-- one after the other -/
def inTurn : List (FCmd T) → WM T Unit
  | [] => WM.ret ()
  | x :: xs => (fstep c E X er et x).bind fun _ => inTurn xs

/-- the destructors of all objects from `n` on -/
def unwind (n : Nat) : Nat → WM T Unit
  | 0 => WM.ret ()
  | k + 1 => (fstep c E X er et (.one (.destroy n))).bind fun _ => unwind n k

/-- all the parts; when one throws, all objects from `n` on are destroyed -/
def together (n : Nat) (xs : List (FCmd T)) : WM T Unit := fun w =>
  match inTurn c E X er et xs w with
  | .ok w' _ => .ok w' ()
  | .thrown w' =>
      match unwind c E X er et n (w'.objs.length - n) w' with
      | .ok w'' _ => .thrown w''
      | .thrown w'' => .thrown w''
      | .ub => .ub
  | .ub => .ub

/-- a call of one of the functions; it may throw at a point of its own -/
def ecall (f : Option (Kind × Nat)) (e : Edit T) (w : World T) : Ans T Unit :=
  (withObj e.obj (some .value) fun _ => withObj e.other (some .value) fun _ =>
    together c E X er et w.objs.length (e.parts E.gc w.objs.length)) { w with st := { w.st with fault := f } }

end

/-! ### What they should do -/

namespace Spec
variable {T : Type}

/-- to the list `l`; `l'` is the other one -/
def editList (e : Edit T) (l l' : List T) : List T :=
  match e with
  | .pushFront _ x => x :: l
  | .insert _ p x | .insertRv _ p x => l.take p ++ x :: l.drop p
  | .insertAll _ p _ | .insertAllRv _ p _ => l.take p ++ l' ++ l.drop p
  | .erase _ p | .eraseRv _ p => l.eraseIdx p
  | .eraseRange _ p q | .eraseRangeRv _ p q => if p < q then l.take p ++ l.drop q else l

/-- whether the object itself is changed -/
def editsIn (gc : Bool) : Edit T → Bool
  | .insertRv _ _ _ | .insertAllRv _ _ _ | .eraseRv _ _ | .eraseRangeRv _ _ _ => !gc
  | _ => false

/-- what a call does: a new object at the end, or a new list in its place -/
def edit (gc : Bool) (M : List (VecHeap.Spec.SObj T)) (e : Edit T) : List (VecHeap.Spec.SObj T) :=
  VecHeap.Spec.on M e.obj (some .value) fun s => VecHeap.Spec.on M e.other (some .value) fun s' =>
    if editsIn gc e then M.set e.obj ⟨.value, editList e s.val s'.val⟩ else M ++ [⟨.value, editList e s.val s'.val⟩]

/-- what is left in an rvalue when a call throws: some of the first elements may be there still, and some may have been added -/
def editLeft (e : Edit T) (l l' : List T) : List (List T) :=
  match e with
  | .insertRv _ p x => [l, l.take p, l.take p ++ [x]]
  | .insertAllRv _ p _ => [l, l.take p, l.take p ++ l']
  | .eraseRv _ p | .eraseRangeRv _ p _ => [l, l.take p]
  | _ => [l]

/-- what a call that throws may leave: everything as it was, but for an rvalue that is changed in place -/
def editFailed (gc : Bool) (M : List (VecHeap.Spec.SObj T)) (e : Edit T) : List (List (VecHeap.Spec.SObj T)) :=
  M :: if editsIn gc e then
    match M[e.obj]?, M[e.other]? with
    | some s, some s' => (editLeft e s.val s'.val).map fun l => M.set e.obj ⟨.value, l⟩
    | _, _ => []
  else []

end Spec

section
variable {T : Type} {c : Cfg} {E : Env Dat T} {X : Elem T} {er et : Nat} {w w' : World T} {M : List (VecHeap.Spec.SObj T)}

/-- the parts can be relied on -/
def TurnOn (c : Cfg) (E : Env Dat T) (X : Elem T) (er et : Nat) : World T → List (FCmd T) → Prop
  | _, [] => True
  | w, x :: xs => FOn c X E.gc w w.st.fault x ∧ ∀ w', fstep c E X er et x w = .ok w' () → TurnOn c E X er et w' xs

/-- without a fault there will be none -/
def Still {β : Type} (x : WM T β) : Prop := ∀ w, w.st.fault = none → ∀ w' b, x w = .ok w' b → w'.st.fault = none

section still
variable {β δ : Type}

theorem still_ret (b : β) : Still (WM.ret b : WM T β) := by
  intro w h w' b' e
  unfold WM.ret at e
  cases e
  exact h

theorem still_bind {x : WM T β} {f : β → WM T δ} (hx : Still x) (hf : ∀ b, Still (f b)) : Still (x.bind f) := by
  intro w h w' b' e
  unfold WM.bind at e
  cases hr : x w with
  | ok w1 b => rw [hr] at e; exact hf b w1 (hx w h w1 b hr) w' b' e
  | thrown w1 => rw [hr] at e; cases e
  | ub => rw [hr] at e; cases e

theorem still_lift {x : HM T β} (hx : ∀ s : St Dat T, s.fault = none → ∀ s' b, x s = .ok s' b → s'.fault = none) : Still (lift x) := by
  intro w h w' b' e
  unfold lift at e
  cases hr : x w.st with
  | ok s b => rw [hr] at e; cases e; exact hx w.st h s _ hr
  | thrown s => rw [hr] at e; cases e
  | ub => rw [hr] at e; cases e

theorem still_calm {x : HM T β} (hx : Calm x) : Still (lift x) :=
  still_lift fun s h s' b e => by
    have := hx s
    rw [e] at this
    exact this.none h

theorem still_withObj {i : Nat} {kd : Option VecHeap.Kd} {f : Obj → WM T Unit} (hf : ∀ h, Still (f h)) : Still (withObj i kd f) := by
  intro w h w' b' e
  unfold withObj at e
  split at e
  · split at e
    · exact hf _ w h w' b' e
    · cases e; exact h
  · cases e; exact h

theorem still_push (h : Obj) : Still (push h : WM T Unit) := fun _ h _ _ e => by cases e; exact h
theorem still_setVc (i : Nat) (v : Vc) : Still (setVc i v : WM T Unit) := fun _ h _ _ e => by cases e; exact h
theorem still_setOwner (i t : Nat) : Still (setOwner i t : WM T Unit) := fun _ h _ _ e => by cases e; exact h

theorem still_ownerFor (kd : VecHeap.Kd) : Still (ownerFor E kd : WM T Nat) := by
  intro w h w' b e
  have := ownerFor_out (E := E) (w := w) kd
  rw [e] at this
  exact this.2.2.2.2.none h

theorem still_fun {f : World T → Ans T β} (h : ∀ w, (∃ b, f w = .ok w b) ∨ (∃ w', f w = .thrown w') ∨ ∃ l b, f w = .ok { w with objs := l } b) : Still f := by
  intro w hw w' b e
  rcases h w with ⟨b', h⟩ | ⟨w1, h⟩ | ⟨l, b', h⟩ <;> rw [h] at e <;> cases e <;> exact hw

end still

/-- calls that are parts -/
def Plain : FCmd T → Prop
  | .one (.new _) | .one (.copy _) | .one (.destroy _) | .one (.apply _ _) | .one (.applyMove _ (.push _)) | .one (.applyMove _ (.take _))
  | .two _ _ _ => True
  | _ => False

/-- when a part throws, it does nothing -/
theorem plain_failed {gc : Bool} {f : Option (Kind × Nat)} {x : FCmd T} {M' : List (VecHeap.Spec.SObj T)} (hp : Plain x) (h : M' ∈ Spec.ffailed gc M f x) : M' = M := by
  cases x with
  | two b i j => exact List.mem_singleton.mp h
  | one x =>
    cases x with
    | applyMove i o =>
      unfold Spec.ffailed VecHeap.Spec.failed at h
      rcases List.mem_cons.mp h with rfl | h
      · rfl
      · split at h
        · have := List.mem_singleton.mp h
          rw [this]
          cases o <;> simp only [Plain] at hp <;> unfold VecHeap.Spec.on <;> (split <;> (try split) <;> rfl)
        · cases h
    | new | copy | destroy | apply => exact List.mem_singleton.mp h
    | _ => exact hp.elim

/-- the same for what is done to memory -/
def HStill {β : Type} (x : HM T β) : Prop := ∀ s : St Dat T, s.fault = none → ∀ s' b, x s = .ok s' b → s'.fault = none

section
variable {β δ : Type}

theorem hstill_calm {x : HM T β} (hx : Calm x) : HStill x := fun s h s' b e => by
  have := hx s
  rw [e] at this
  exact this.none h

theorem hstill_bind {x : HM T β} {f : β → HM T δ} (hx : HStill x) (hf : ∀ b, HStill (f b)) : HStill (x.bind f) := by
  intro s h s' b' e
  unfold M.bind at e
  cases hr : x s with
  | ok s1 b => rw [hr] at e; exact hf b s1 (hx s h s1 b hr) s' b' e
  | thrown s1 => rw [hr] at e; cases e
  | ub => rw [hr] at e; cases e

theorem hstill_attempt {x : HM T β} (hx : Calm x) : HStill (attempt x) := by
  intro s h s' b e
  have := hx s
  unfold attempt at e
  cases hr : x s with
  | ok s1 b => rw [hr] at e this; cases e; exact this.none h
  | thrown s1 => rw [hr] at this; exact absurd h this
  | ub => rw [hr] at e; cases e

theorem hstill_ite {p : Prop} [Decidable p] {x y : HM T β} (hx : HStill x) (hy : HStill y) : HStill (if p then x else y) := by
  split
  · exact hx
  · exact hy

end

theorem hstill_concatMutL (mv : Bool) (e : Nat) (l r : Vc) : HStill (Fc.concatMutL c E mv e l r) := by
  unfold Fc.concatMutL
  refine hstill_ite (hstill_calm (by calm)) (hstill_ite (hstill_calm (by calm)) ?_)
  refine hstill_bind (hstill_calm (by calm)) fun _ => hstill_bind (hstill_calm (by calm)) fun _ => hstill_ite (hstill_ite (hstill_calm (by calm)) ?_) (hstill_calm (by calm))
  refine hstill_bind (hstill_calm (by calm)) fun _ => hstill_bind (hstill_calm (by calm)) fun _ => hstill_bind (hstill_attempt ?_) fun o => ?_
  · calm
    exact calm_uninitMove _ _ _ _ _
  · cases o <;> exact hstill_calm (calm_ret _)

theorem still_inPlace (hB : 0 < c.B) (hE : E.Fresh) {i e : Nat} {h : Obj} {o : FlexOp T} : Still (inPlace (flexKit T c X) E er et i e h o) := by
  have hA := flex_laws (T := T) (X := X) hB hE
  unfold inPlace
  refine still_bind (still_calm (hA.calmMut er et e h.v o)) fun r => still_bind (still_setVc _ _) fun _ => ?_
  split
  · exact still_ret _
  · exact still_calm (calm_applyFn _ _ _)

theorem plain_still (hB : 0 < c.B) (hE : E.Fresh) {x : FCmd T} (hp : Plain x) : Still (fstep c E X er et x) := by
  have hA := flex_laws (T := T) (X := X) hB hE
  cases x with
  | two b i j =>
    show Still (stepBin c E b i j)
    unfold stepBin
    refine still_withObj fun h => still_withObj fun h' => ?_
    split
    · exact still_bind (still_calm (calm_concat c E _ _)) fun _ => still_push _
    · unfold changeBin
      split
      · exact still_ret _
      · cases b with
        | plus => exact still_ret _
        | appendTo =>
          refine still_bind (still_lift (hstill_concatMutL _ _ _ _)) fun x => still_bind (still_setVc _ _) fun _ => still_fun fun w => ?_
          by_cases hx : x.2 = true
          · exact .inr (.inl ⟨w, if_pos hx⟩)
          · exact .inl ⟨(), if_neg hx⟩
        | prependTo => exact still_bind (still_calm (calm_concatMutR _ _ _ _)) fun _ => still_setVc _ _
        | appendMove =>
          refine still_bind (still_lift (hstill_concatMutL _ _ _ _)) fun x => still_bind (still_setVc _ _) fun _ => ?_
          split
          · exact still_fun fun w => .inr (.inl ⟨w, rfl⟩)
          · exact still_bind (still_calm (hA.calmDrop _)) fun _ => still_fun fun w => .inr (.inr ⟨_, (), rfl⟩)
        | prependMove => exact still_bind (still_calm (calm_concatMutR _ _ _ _)) fun _ => still_setVc _ _
  | one x =>
    show Still (step c (flexKit T c X) E er et x)
    cases x with
    | new kd => exact still_bind (still_ownerFor _) fun _ => still_bind (still_calm (calm_empty c E er et)) fun _ => still_push _
    | copy i =>
      exact still_withObj fun h => still_bind (still_ownerFor _) fun _ => still_bind (still_ownerFor _) fun _ => still_bind (still_setOwner _ _) fun _ =>
        still_bind (still_calm (by unfold Vc.copy; calm)) fun _ => still_push _
    | destroy i => exact still_withObj fun h => still_bind (still_calm (hA.calmDrop _)) fun _ => still_fun fun w => .inr (.inr ⟨_, (), rfl⟩)
    | apply i o => exact still_withObj fun h => still_bind (still_calm (hA.calmApply _ _ _ _)) fun _ => still_push _
    | applyMove i o =>
      refine still_withObj fun h => ?_
      split
      · exact still_bind (still_calm (hA.calmApply _ _ _ _)) fun _ => still_push _
      · exact still_inPlace hB hE
    | _ => exact hp.elim

/-- What the parts should do: if all is well, `Q` holds of the objects, and before each of them `F` does. -/
def Turns (gc : Bool) (Q F : List (VecHeap.Spec.SObj T) → Prop) : List (VecHeap.Spec.SObj T) → List (FCmd T) → Prop
  | M, [] => Q M
  | M, x :: xs => Plain x ∧ Spec.FAllowed M x ∧ F M ∧ Turns gc Q F (Spec.fstep gc M x) xs

theorem inTurn_out (hB : 2 ≤ c.B) (hE : E.Fresh) (hne : er ≠ et) {Q F : List (VecHeap.Spec.SObj T) → Prop} : ∀ (xs : List (FCmd T)) (w : World T) (M : List (VecHeap.Spec.SObj T)), CReached c E X er et w M →
    TurnOn c E X er et w xs → Turns E.gc Q F M xs →
    AOut (inTurn c E X er et xs w) (fun w' _ => ∃ M', Q M' ∧ CReached c E X er et w' M') (fun w' => w.st.fault ≠ none ∧ ∃ M', F M' ∧ CReached c E X er et w' M')
  | [], w, M, h, _, ht => ⟨M, ht, h⟩
  | x :: xs, w, M, h, ho, ht => by
    obtain ⟨h1, h2, h3, h4⟩ := ht
    have hc := ccall_out hB hE (h.rel hB hE hne) w.st.fault x h2 ho.1
    have he : ccall c E X er et w.st.fault x w = fstep c E X er et x w := rfl
    unfold inTurn WM.bind
    cases hx : fstep c E X er et x w with
    | ok w1 u =>
      have ih := inTurn_out hB hE hne xs w1 _ (.call h h2 ho.1 (he.trans hx)) (ho.2 w1 hx) h4
      exact aout_mono ih (fun _ _ h => h) fun w' hw' => ⟨fun hf => hw'.1 (plain_still (by omega) hE h1 w hf w1 u hx), hw'.2⟩
    | thrown w1 =>
      obtain ⟨M', k1, k2⟩ := h.thrown hB hE hne h2 ho.1 (he.trans hx)
      rw [he, hx] at hc
      rw [plain_failed h1 k1] at k2
      exact ⟨hc.2, M, h3, k2⟩
    | ub => rw [he, hx] at hc; exact hc.elim

theorem CReached.length (hB : 2 ≤ c.B) (hE : E.Fresh) (hne : er ≠ et) (h : CReached c E X er et w M) : w.objs.length = M.length :=
  ((h.rel hB hE hne).shows (flex_laws (X := X) (by omega) hE)).1

theorem unwind_out (hB : 2 ≤ c.B) (hE : E.Fresh) (hne : er ≠ et) (n : Nat) : ∀ (k : Nat) (w : World T) (M : List (VecHeap.Spec.SObj T)), CReached c E X er et w M → M.length = n + k →
    ∃ w', unwind c E X er et n k w = .ok w' () ∧ CReached c E X er et w' (M.take n)
  | 0, w, M, h, hl => ⟨w, rfl, by rw [List.take_of_length_le (by omega)]; exact h⟩
  | k + 1, w, M, h, hl => by
    obtain ⟨G, hG⟩ := h.rel hB hE hne
    have hd := destroy_out (i := n) (flex_laws (T := T) (X := X) (c := c) (by omega) hE) hG
    unfold unwind WM.bind
    cases hx : fstep c E X er et (.one (.destroy n)) w with
    | ok w1 u =>
      obtain ⟨w', h1, h2⟩ := unwind_out hB hE hne n k w1 (M.eraseIdx n) (.call (f := w.st.fault) (x := .one (.destroy n)) h trivial trivial hx) (by rw [List.length_eraseIdx]; split <;> omega)
      refine ⟨w', h1, ?_⟩
      rw [List.eraseIdx_eq_take_drop_succ, List.take_append_of_le_length (by rw [List.length_take]; omega), List.take_take, Nat.min_self] at h2
      exact h2
    | thrown w1 =>
      rw [show step c (flexKit T c X) E er et (.destroy n) w = _ from hx] at hd
      exact hd.elim
    | ub =>
      rw [show step c (flexKit T c X) E er et (.destroy n) w = _ from hx] at hd
      exact hd.elim

theorem together_out (hB : 2 ≤ c.B) (hE : E.Fresh) (hne : er ≠ et) {Q F : List (VecHeap.Spec.SObj T) → Prop} {n : Nat} {xs : List (FCmd T)} (h : CReached c E X er et w M) (ho : TurnOn c E X er et w xs)
    (ht : Turns E.gc Q (fun M' => n ≤ M'.length ∧ F (M'.take n)) M xs) :
    AOut (together c E X er et n xs w) (fun w' _ => ∃ M', Q M' ∧ CReached c E X er et w' M') (fun w' => w.st.fault ≠ none ∧ ∃ M', F M' ∧ CReached c E X er et w' M') := by
  have hi := inTurn_out hB hE hne xs w M h ho ht
  unfold together
  cases hx : inTurn c E X er et xs w with
  | ok w1 u => rw [hx] at hi; exact hi
  | ub => rw [hx] at hi; exact hi.elim
  | thrown w1 =>
    rw [hx] at hi
    obtain ⟨h1, M', ⟨h2, h3⟩, h4⟩ := hi
    have hl := h4.length hB hE hne
    obtain ⟨w2, k1, k2⟩ := unwind_out hB hE hne n (w1.objs.length - n) w1 M' h4 (by omega)
    simp only [k1]
    exact ⟨h1, _, h3, k2⟩

/-! ### The parts, on lists

The objects are those that were there, `M`, and those that were made, `l`. -/

section lists
variable {gc : Bool} {M l : List (VecHeap.Spec.SObj T)} {i j k k' : Nat} {v v' : List T} {s : VecHeap.Spec.SObj T}

theorem at_old (h : M[i]? = some s) : (M ++ l)[i]? = some s := by
  rw [List.getElem?_append_left (List.getElem?_eq_some_iff.mp h).1]; exact h

theorem at_new : (M ++ l)[M.length + k]? = l[k]? := by
  rw [List.getElem?_append_right (by omega), Nat.add_sub_cancel_left]

theorem set_old (h : M[i]? = some s) {x : VecHeap.Spec.SObj T} : (M ++ l).set i x = M.set i x ++ l :=
  List.set_append_left _ _ (List.getElem?_eq_some_iff.mp h).1

theorem set_new {x : VecHeap.Spec.SObj T} : (M ++ l).set (M.length + k) x = M ++ l.set k x := by
  rw [List.set_append_right _ _ (by omega), Nat.add_sub_cancel_left]

theorem erase_new : (M ++ l).eraseIdx (M.length + k) = M ++ l.eraseIdx k := by
  rw [List.eraseIdx_append_of_length_le (by omega), Nat.add_sub_cancel_left]

theorem s_new : Spec.fstep gc (M ++ l) (.one (.new .value)) = M ++ (l ++ [⟨.value, []⟩]) := List.append_assoc _ _ _

theorem s_copy (h : M[i]? = some ⟨.value, v⟩) : Spec.fstep gc (M ++ l) (.one (.copy i)) = M ++ (l ++ [⟨.value, v⟩]) := by
  simp only [Spec.fstep, VecHeap.Spec.step, VecHeap.Spec.on, at_old h, true_or, if_true, List.append_assoc]

theorem s_destroy : Spec.fstep gc (M ++ l) (.one (.destroy (M.length + k))) = M ++ l.eraseIdx k := erase_new

theorem s_apply {o : FlexOp T} (h : M[i]? = some ⟨.value, v⟩) (ho : (Spec.flexOps T).run o v = some v') :
    Spec.fstep gc (M ++ l) (.one (.apply i o)) = M ++ (l ++ [⟨.value, v'⟩]) := by
  simp only [Spec.fstep, VecHeap.Spec.step, VecHeap.Spec.on, at_old h, VecHeap.Spec.SKd.kd, or_true, if_true, ho, Option.map_some, Option.getD_some, List.append_assoc]

theorem s_moveOld {o : FlexOp T} (h : M[i]? = some ⟨.value, v⟩) (ho : (Spec.flexOps T).run o v = some v') :
    Spec.fstep gc (M ++ l) (.one (.applyMove i o)) = if gc then M ++ (l ++ [⟨.value, v'⟩]) else M.set i ⟨.value, v'⟩ ++ l := by
  simp only [Spec.fstep, VecHeap.Spec.step, VecHeap.Spec.on, at_old h, VecHeap.Spec.SKd.kd, or_true, if_true, ho, Option.map_some, Option.getD_some, List.append_assoc, set_old h]

theorem s_moveNew {o : FlexOp T} (h : l[k]? = some ⟨.value, v⟩) (ho : (Spec.flexOps T).run o v = some v') :
    Spec.fstep gc (M ++ l) (.one (.applyMove (M.length + k) o)) = if gc then M ++ (l ++ [⟨.value, v'⟩]) else M ++ l.set k ⟨.value, v'⟩ := by
  simp only [Spec.fstep, VecHeap.Spec.step, VecHeap.Spec.on, at_new, h, VecHeap.Spec.SKd.kd, or_true, if_true, ho, Option.map_some, Option.getD_some, List.append_assoc, set_new]

theorem s_joinGc {b : Bin} (h : l[k]? = some ⟨.value, v⟩) (h' : (M ++ l)[j]? = some ⟨.value, v'⟩) (hb : b.kd = none) :
    Spec.fstep true (M ++ l) (.two b (M.length + k) j) = M ++ (l ++ [⟨.value, v ++ v'⟩]) := by
  simp only [Spec.fstep, Spec.stepBin, VecHeap.Spec.on, at_new, h, hb, h', VecHeap.Spec.SKd.kd, true_or, or_true, if_true, and_self, List.append_assoc]

theorem s_joinNew (h : l[k]? = some ⟨.value, v⟩) (h' : l[k']? = some ⟨.value, v'⟩) (hk : k ≠ k') :
    Spec.fstep false (M ++ l) (.two .appendMove (M.length + k) (M.length + k')) = M ++ (l.set k ⟨.value, v ++ v'⟩).eraseIdx k' := by
  simp only [Spec.fstep, Spec.stepBin, VecHeap.Spec.on, at_new, h, h', Bin.kd, VecHeap.Spec.SKd.kd, true_or, or_true, if_true, reduceCtorEq, false_and, or_self, if_false,
    Nat.add_left_cancel_iff, hk, set_new, erase_new]

theorem s_joinOld (h : M[i]? = some ⟨.value, v⟩) (h' : l[k]? = some ⟨.value, v'⟩) :
    Spec.fstep false (M ++ l) (.two .appendMove i (M.length + k)) = M.set i ⟨.value, v ++ v'⟩ ++ l.eraseIdx k := by
  have hi := (List.getElem?_eq_some_iff.mp h).1
  have he : (M.set i ⟨.value, v ++ v'⟩ ++ l).eraseIdx (M.length + k) = M.set i ⟨.value, v ++ v'⟩ ++ l.eraseIdx k := by
    have := erase_new (M := M.set i ⟨.value, v ++ v'⟩) (l := l) (k := k)
    rwa [List.length_set] at this
  simp only [Spec.fstep, Spec.stepBin, VecHeap.Spec.on, at_new, at_old h, h', Bin.kd, VecHeap.Spec.SKd.kd, true_or, or_true, if_true, reduceCtorEq, false_and, or_self, if_false,
    show i ≠ M.length + k by omega, set_old h, he]

theorem s_joinSet (h : M[i]? = some s) (h' : l[k]? = some ⟨.value, v'⟩) :
    Spec.fstep false (M.set i ⟨.value, v⟩ ++ l) (.two .appendMove i (M.length + k)) = M.set i ⟨.value, v ++ v'⟩ ++ l.eraseIdx k := by
  have := s_joinOld (M := M.set i ⟨.value, v⟩) (List.getElem?_set_self (List.getElem?_eq_some_iff.mp h).1) h'
  rwa [List.length_set, List.set_set] at this

theorem s_joinTo (h : l[k]? = some ⟨.value, v⟩) (h' : M[i]? = some ⟨.value, v'⟩) :
    Spec.fstep false (M ++ l) (.two .appendTo (M.length + k) i) = M ++ l.set k ⟨.value, v ++ v'⟩ := by
  have hi := (List.getElem?_eq_some_iff.mp h').1
  simp only [Spec.fstep, Spec.stepBin, VecHeap.Spec.on, at_new, at_old h', h, Bin.kd, VecHeap.Spec.SKd.kd, true_or, or_true, if_true, reduceCtorEq, false_and, or_self, if_false,
    show M.length + k ≠ i by omega, set_new]

theorem may_apply {o : FlexOp T} {N : List (VecHeap.Spec.SObj T)} (ho : ∀ v, (Spec.flexOps T).run o v ≠ none) : Spec.FAllowed N (.one (.apply i o)) := fun s _ => ho s.val
theorem may_move {o : FlexOp T} {N : List (VecHeap.Spec.SObj T)} (ho : ∀ v, (Spec.flexOps T).run o v ≠ none) : Spec.FAllowed N (.one (.applyMove i o)) := fun s _ => ho s.val
theorem may_copy (h : M[i]? = some ⟨.value, v⟩) : Spec.FAllowed (M ++ l) (.one (.copy i)) := fun s hs => by
  rw [at_old h] at hs
  cases hs
  exact fun h => by cases h

theorem turns_cons {Q F : List (VecHeap.Spec.SObj T) → Prop} {N N' : List (VecHeap.Spec.SObj T)} {x : FCmd T} {xs : List (FCmd T)} (h1 : Plain x) (h2 : Spec.FAllowed N x) (h3 : F N) (h4 : Spec.fstep gc N x = N')
    (h5 : Turns gc Q F N' xs) : Turns gc Q F N (x :: xs) := ⟨h1, h2, h3, by rw [h4]; exact h5⟩

end lists

/-- what the parts make of the lists is what they should -/
theorem edit_turns {gc : Bool} {e : Edit T} {v v' : List T} (hv : M[e.obj]? = some ⟨.value, v⟩) (hv' : M[e.other]? = some ⟨.value, v'⟩) (hr : ∀ i p q, e = .eraseRangeRv i p q → gc = false) :
    Turns gc (fun M' => M' = Spec.edit gc M e) (fun M' => M.length ≤ M'.length ∧ M'.take M.length ∈ Spec.editFailed gc M e) M (e.parts gc M.length) := by
  have hedit : Spec.edit gc M e = if Spec.editsIn gc e then M.set e.obj ⟨.value, Spec.editList e v v'⟩ else M ++ [⟨.value, Spec.editList e v v'⟩] := by
    simp only [Spec.edit, VecHeap.Spec.on, hv, hv', VecHeap.Spec.SKd.kd, or_true, if_true]
  have hF : ∀ l, M.length ≤ (M ++ l).length ∧ (M ++ l).take M.length ∈ Spec.editFailed gc M e := by
    intro l
    rw [List.take_left]
    exact ⟨by rw [List.length_append]; omega, List.mem_cons_self⟩
  have hF' : ∀ l x, Spec.editsIn gc e = true → x ∈ Spec.editLeft e v v' →
      M.length ≤ (M.set e.obj ⟨.value, x⟩ ++ l).length ∧ (M.set e.obj ⟨.value, x⟩ ++ l).take M.length ∈ Spec.editFailed gc M e := by
    intro l x h1 h2
    rw [List.take_left' (by rw [List.length_set])]
    refine ⟨by rw [List.length_append, List.length_set]; omega, ?_⟩
    unfold Spec.editFailed
    rw [if_pos h1, hv, hv']
    exact List.mem_cons_of_mem _ (List.mem_map.mpr ⟨x, h2, rfl⟩)
  rw [hedit]
  clear hedit
  have hrun : ∀ x : T, ∀ v, (Spec.flexOps T).run (.push x) v ≠ none := fun x v h => by cases h
  have htake : ∀ n, ∀ v, (Spec.flexOps T).run (.take n) v ≠ none := fun n v h => by cases h
  have hdrop : ∀ n, ∀ v, (Spec.flexOps T).run (.drop n) v ≠ none := fun n v h => by cases h
  have hnil : ∀ {Q F : List (VecHeap.Spec.SObj T) → Prop} {xs}, Turns gc Q F (M ++ []) xs → Turns gc Q F M xs := fun h => by rwa [List.append_nil] at h
  cases e with
  | pushFront i x =>
    cases gc with
    | false =>
      refine hnil (turns_cons trivial trivial (hF _) s_new ?_)
      refine turns_cons trivial (may_move (hrun x)) (hF _) (s_moveNew (k := 0) rfl rfl) ?_
      refine turns_cons trivial trivial (hF _) (s_joinTo (k := 0) rfl hv) ?_
      rfl
    | true =>
      refine hnil (turns_cons trivial trivial (hF _) s_new ?_)
      refine turns_cons trivial (may_move (hrun x)) (hF _) (s_moveNew (k := 0) rfl rfl) ?_
      refine turns_cons trivial trivial (hF _) (s_joinGc (k := 1) rfl (at_old hv) rfl) ?_
      refine turns_cons trivial trivial (hF _) (s_destroy (k := 0)) (turns_cons trivial trivial (hF _) (s_destroy (k := 0)) ?_)
      rfl
  | insert i p x =>
    cases gc with
    | false =>
      refine hnil (turns_cons trivial (may_apply (htake p)) (hF _) (s_apply hv rfl) ?_)
      refine turns_cons trivial (may_move (hrun x)) (hF _) (s_moveNew (k := 0) rfl rfl) ?_
      refine turns_cons trivial (may_apply (hdrop p)) (hF _) (s_apply hv rfl) ?_
      refine turns_cons trivial trivial (hF _) (s_joinNew (k := 0) (k' := 1) rfl rfl (by decide)) ?_
      show M ++ [_] = M ++ [_]
      rw [List.append_assoc]; rfl
    | true =>
      refine hnil (turns_cons trivial (may_apply (htake p)) (hF _) (s_apply hv rfl) ?_)
      refine turns_cons trivial (may_move (hrun x)) (hF _) (s_moveNew (k := 0) rfl rfl) ?_
      refine turns_cons trivial (may_apply (hdrop p)) (hF _) (s_apply hv rfl) ?_
      refine turns_cons trivial trivial (hF _) (s_joinGc (k := 1) rfl (at_new (k := 2)) rfl) ?_
      refine turns_cons trivial trivial (hF _) (s_destroy (k := 0)) (turns_cons trivial trivial (hF _) (s_destroy (k := 0)) (turns_cons trivial trivial (hF _) (s_destroy (k := 0)) ?_))
      show M ++ [_] = M ++ [_]
      rw [List.append_assoc]; rfl
  | insertRv i p x =>
    cases gc with
    | false =>
      refine hnil (turns_cons trivial (may_apply (hdrop p)) (hF _) (s_apply hv rfl) ?_)
      refine turns_cons trivial (may_move (htake p)) (hF _) (s_moveOld hv rfl) ?_
      have hs : ∀ y, (M.set i y)[i]? = some y := fun y => List.getElem?_set_self (List.getElem?_eq_some_iff.mp hv).1
      refine turns_cons trivial (may_move (hrun x)) (hF' _ _ rfl (by simp [Spec.editLeft])) (s_moveOld (hs _) rfl) ?_
      show Turns false _ _ ((M.set i _).set i _ ++ _) _
      rw [List.set_set]
      refine turns_cons trivial trivial (hF' _ _ rfl (by simp [Spec.editLeft])) (s_joinSet (k := 0) hv rfl) ?_
      simp [Spec.editsIn, Spec.editList, Edit.obj, Turns]
    | true =>
      refine hnil (turns_cons trivial (may_apply (hdrop p)) (hF _) (s_apply hv rfl) ?_)
      refine turns_cons trivial (may_move (htake p)) (hF _) (s_moveOld hv rfl) ?_
      refine turns_cons trivial (may_move (hrun x)) (hF _) (s_moveNew (k := 1) rfl rfl) ?_
      refine turns_cons trivial trivial (hF _) (s_joinGc (k := 2) rfl (at_new (k := 0)) rfl) ?_
      refine turns_cons trivial trivial (hF _) (s_destroy (k := 0)) (turns_cons trivial trivial (hF _) (s_destroy (k := 0)) (turns_cons trivial trivial (hF _) (s_destroy (k := 0)) ?_))
      show M ++ [_] = M ++ [_]
      rw [List.append_assoc]; rfl
  | insertAll i p j =>
    cases gc with
    | false =>
      refine hnil (turns_cons trivial (may_copy hv') (hF _) (s_copy hv') ?_)
      refine turns_cons trivial (may_apply (htake p)) (hF _) (s_apply hv rfl) ?_
      refine turns_cons trivial trivial (hF _) (s_joinNew (k := 1) (k' := 0) rfl rfl (by decide)) ?_
      refine turns_cons trivial (may_apply (hdrop p)) (hF _) (s_apply hv rfl) ?_
      refine turns_cons trivial trivial (hF _) (s_joinNew (k := 0) (k' := 1) rfl rfl (by decide)) ?_
      rfl
    | true =>
      refine hnil (turns_cons trivial (may_copy hv') (hF _) (s_copy hv') ?_)
      refine turns_cons trivial (may_apply (htake p)) (hF _) (s_apply hv rfl) ?_
      refine turns_cons trivial trivial (hF _) (s_joinGc (k := 1) rfl (at_new (k := 0)) rfl) ?_
      refine turns_cons trivial (may_apply (hdrop p)) (hF _) (s_apply hv rfl) ?_
      refine turns_cons trivial trivial (hF _) (s_joinGc (k := 2) rfl (at_new (k := 3)) rfl) ?_
      refine turns_cons trivial trivial (hF _) (s_destroy (k := 0)) (turns_cons trivial trivial (hF _) (s_destroy (k := 0))
        (turns_cons trivial trivial (hF _) (s_destroy (k := 0)) (turns_cons trivial trivial (hF _) (s_destroy (k := 0)) ?_)))
      rfl
  | insertAllRv i p j =>
    cases gc with
    | false =>
      have hs : ∀ y, (M.set i y)[i]? = some y := fun y => List.getElem?_set_self (List.getElem?_eq_some_iff.mp hv).1
      refine hnil (turns_cons trivial (may_copy hv') (hF _) (s_copy hv') ?_)
      refine turns_cons trivial (may_apply (hdrop p)) (hF _) (s_apply hv rfl) ?_
      refine turns_cons trivial (may_move (htake p)) (hF _) (s_moveOld hv rfl) ?_
      refine turns_cons trivial trivial (hF' _ _ rfl (by simp [Spec.editLeft])) (s_joinSet (k := 0) hv rfl) ?_
      refine turns_cons trivial trivial (hF' _ _ rfl (by simp [Spec.editLeft])) (s_joinSet (k := 0) hv rfl) ?_
      simp [Spec.editsIn, Spec.editList, Edit.obj, Turns]
    | true =>
      refine hnil (turns_cons trivial (may_copy hv') (hF _) (s_copy hv') ?_)
      refine turns_cons trivial (may_apply (hdrop p)) (hF _) (s_apply hv rfl) ?_
      refine turns_cons trivial (may_move (htake p)) (hF _) (s_moveOld hv rfl) ?_
      refine turns_cons trivial trivial (hF _) (s_joinGc (k := 2) rfl (at_new (k := 0)) rfl) ?_
      refine turns_cons trivial trivial (hF _) (s_joinGc (k := 3) rfl (at_new (k := 1)) rfl) ?_
      refine turns_cons trivial trivial (hF _) (s_destroy (k := 0)) (turns_cons trivial trivial (hF _) (s_destroy (k := 0))
        (turns_cons trivial trivial (hF _) (s_destroy (k := 0)) (turns_cons trivial trivial (hF _) (s_destroy (k := 0)) ?_)))
      rfl
  | erase i p =>
    have he : v.eraseIdx p = v.take p ++ v.drop (p + 1) := List.eraseIdx_eq_take_drop_succ _ _
    simp only [Spec.editList, he]
    cases gc with
    | false =>
      refine hnil (turns_cons trivial (may_apply (htake p)) (hF _) (s_apply hv rfl) ?_)
      refine turns_cons trivial (may_apply (hdrop (p + 1))) (hF _) (s_apply hv rfl) ?_
      refine turns_cons trivial trivial (hF _) (s_joinNew (k := 0) (k' := 1) rfl rfl (by decide)) ?_
      rfl
    | true =>
      refine hnil (turns_cons trivial (may_apply (htake p)) (hF _) (s_apply hv rfl) ?_)
      refine turns_cons trivial (may_apply (hdrop (p + 1))) (hF _) (s_apply hv rfl) ?_
      refine turns_cons trivial trivial (hF _) (s_joinGc (k := 0) rfl (at_new (k := 1)) rfl) ?_
      refine turns_cons trivial trivial (hF _) (s_destroy (k := 0)) (turns_cons trivial trivial (hF _) (s_destroy (k := 0)) ?_)
      rfl
  | eraseRv i p =>
    have he : v.eraseIdx p = v.take p ++ v.drop (p + 1) := List.eraseIdx_eq_take_drop_succ _ _
    simp only [Spec.editList, he]
    cases gc with
    | false =>
      have hs : ∀ y, (M.set i y)[i]? = some y := fun y => List.getElem?_set_self (List.getElem?_eq_some_iff.mp hv).1
      refine hnil (turns_cons trivial (may_apply (hdrop (p + 1))) (hF _) (s_apply hv rfl) ?_)
      refine turns_cons trivial (may_move (htake p)) (hF _) (s_moveOld hv rfl) ?_
      refine turns_cons trivial trivial (hF' _ _ rfl (by simp [Spec.editLeft])) (s_joinSet (k := 0) hv rfl) ?_
      simp [Spec.editsIn, Edit.obj, Turns]
    | true =>
      refine hnil (turns_cons trivial (may_apply (hdrop (p + 1))) (hF _) (s_apply hv rfl) ?_)
      refine turns_cons trivial (may_move (htake p)) (hF _) (s_moveOld hv rfl) ?_
      refine turns_cons trivial trivial (hF _) (s_joinGc (k := 1) rfl (at_new (k := 0)) rfl) ?_
      refine turns_cons trivial trivial (hF _) (s_destroy (k := 0)) (turns_cons trivial trivial (hF _) (s_destroy (k := 0)) ?_)
      rfl
  | eraseRange i p q =>
    by_cases hpq : p < q
    · simp only [Edit.parts, Spec.editList, if_pos hpq]
      cases gc with
      | false =>
        refine hnil (turns_cons trivial (may_apply (htake p)) (hF _) (s_apply hv rfl) ?_)
        refine turns_cons trivial (may_apply (hdrop q)) (hF _) (s_apply hv rfl) ?_
        refine turns_cons trivial trivial (hF _) (s_joinNew (k := 0) (k' := 1) rfl rfl (by decide)) ?_
        rfl
      | true =>
        refine hnil (turns_cons trivial (may_apply (htake p)) (hF _) (s_apply hv rfl) ?_)
        refine turns_cons trivial (may_apply (hdrop q)) (hF _) (s_apply hv rfl) ?_
        refine turns_cons trivial trivial (hF _) (s_joinGc (k := 0) rfl (at_new (k := 1)) rfl) ?_
        refine turns_cons trivial trivial (hF _) (s_destroy (k := 0)) (turns_cons trivial trivial (hF _) (s_destroy (k := 0)) ?_)
        rfl
    · simp only [Edit.parts, Spec.editList, if_neg hpq]
      exact hnil (turns_cons trivial (may_copy hv) (hF _) (s_copy hv) rfl)
  | eraseRangeRv i p q =>
    cases hr i p q rfl
    by_cases hpq : p < q
    · simp only [Edit.parts, Spec.editList, if_pos hpq]
      have hs : ∀ y, (M.set i y)[i]? = some y := fun y => List.getElem?_set_self (List.getElem?_eq_some_iff.mp hv).1
      refine hnil (turns_cons trivial (may_apply (hdrop q)) (hF _) (s_apply hv rfl) ?_)
      refine turns_cons trivial (may_move (htake p)) (hF _) (s_moveOld hv rfl) ?_
      refine turns_cons trivial trivial (hF' _ _ rfl (by simp [Spec.editLeft])) (s_joinSet (k := 0) hv rfl) ?_
      simp [Spec.editsIn, Edit.obj, Turns]
    · simp only [Edit.parts, Spec.editList, if_neg hpq]
      have : M.set i ⟨.value, v⟩ = M := by
        obtain ⟨h1, h2⟩ := List.getElem?_eq_some_iff.mp hv
        exact h2 ▸ List.set_getElem_self h1
      exact this.symm

/-- when a call of `push_front`, `insert` or `erase` can be relied on: its parts can -/
def EditOn (c : Cfg) (E : Env Dat T) (X : Elem T) (er et : Nat) (w : World T) (f : Option (Kind × Nat)) (e : Edit T) : Prop :=
  TurnOn c E X er et { w with st := { w.st with fault := f } } (e.parts E.gc w.objs.length) ∧ ∀ i p q, e = .eraseRangeRv i p q → E.gc = false

theorem value_of {s : VecHeap.Spec.SObj T} (h : some VecHeap.Kd.value = none ∨ some VecHeap.Kd.value = some s.kd.kd) : s.kd = .value := by
  cases hk : s.kd <;> rw [hk] at h <;> simp [VecHeap.Spec.SKd.kd] at h ⊢

/-- the point where something will throw is not part of what is reached -/
theorem CReached.fault (hB : 2 ≤ c.B) (hE : E.Fresh) (hne : er ≠ et) (h : CReached c E X er et w M) (f : Option (Kind × Nat)) : CReached c E X er et { w with st := { w.st with fault := f } } M := by
  have hl := h.length hB hE hne
  have := CReached.call (f := f) (x := .one (.destroy M.length)) (w' := { w with st := { w.st with fault := f } }) h trivial trivial (by
    show withObj M.length none _ _ = _
    unfold withObj
    rw [List.getElem?_eq_none (by show w.objs.length ≤ _; omega)])
  rwa [show Spec.fstep E.gc M (.one (.destroy M.length)) = M.eraseIdx M.length from rfl, List.eraseIdx_of_length_le (Nat.le_refl _)] at this

/-- **C47**, partial: on `EditOn`.  `push_front`, `insert` and `erase`, of an lvalue or an rvalue, of one element or several, never
do anything undefined.  They make the list that they should, as a new object, or in the object itself if it is an rvalue and
references are counted.  If something throws, what is left is what was there, but for an rvalue that is changed in place. -/
theorem C47_edit_partial (hB : 2 ≤ c.B) (hE : E.Fresh) (hne : er ≠ et) (h : CReached c E X er et w M) (f : Option (Kind × Nat)) (e : Edit T) (ho : EditOn c E X er et w f e) :
    AOut (ecall c E X er et f e w) (fun w' _ => CReached c E X er et w' (Spec.edit E.gc M e))
      (fun w' => f ≠ none ∧ ∃ M' ∈ Spec.editFailed E.gc M e, CReached c E X er et w' M') := by
  have hf := h.fault hB hE hne f
  have hl := h.length hB hE hne
  obtain ⟨G, hG⟩ := hf.rel hB hE hne
  unfold ecall
  unfold Spec.edit
  refine withObj_out (Q := fun M' w' => CReached c E X er et w' M') hG hf fun g s _ hs _ hk _ => ?_
  refine withObj_out (Q := fun M' w' => CReached c E X er et w' M') hG hf fun g' s' _ hs' _ hk' _ => ?_
  obtain ⟨kd, v⟩ := s
  obtain ⟨kd', v'⟩ := s'
  have k1 : kd = .value := value_of hk
  have k2 : kd' = .value := value_of hk'
  subst k1 k2
  have ht := edit_turns (gc := E.gc) hs hs' ho.2
  have hedit : Spec.edit E.gc M e = if Spec.editsIn E.gc e then M.set e.obj ⟨.value, Spec.editList e v v'⟩ else M ++ [⟨.value, Spec.editList e v v'⟩] := by
    simp only [Spec.edit, VecHeap.Spec.on, hs, hs', VecHeap.Spec.SKd.kd, or_true, if_true]
  rw [← hl] at ht
  refine aout_mono (together_out hB hE hne hf ho.1 ht) (fun w' _ ⟨M', h1, h2⟩ => ?_) (fun w' ⟨h1, M', h2, h3⟩ => ⟨h1, M', h2, h3⟩)
  rw [h1, hedit] at h2
  exact h2

/-- **C47**, partial: on `EditOn`.  When `push_front`, `insert` or `erase` of an lvalue throws, all objects are as they were, and
there are no nodes too many and no counts that are wrong. -/
theorem C47_strong_partial (hB : 2 ≤ c.B) (hE : E.Fresh) (hne : er ≠ et) (h : CReached c E X er et w M) {f : Option (Kind × Nat)} {e : Edit T} (ho : EditOn c E X er et w f e)
    (hi : Spec.editsIn E.gc e = false) (hw : ecall c E X er et f e w = .thrown w') : f ≠ none ∧ CReached c E X er et w' M ∧ FShows c X w' M ∧ (E.gc = false → ∃ B, Exact er et w' B) := by
  have := C47_edit_partial hB hE hne h f e ho
  rw [hw] at this
  obtain ⟨h1, M', h2, h3⟩ := this
  unfold Spec.editFailed at h2
  rw [hi] at h2
  have h2 : M' = M := List.mem_singleton.mp h2
  subst h2
  exact ⟨h1, h3, (h3.rel hB hE hne).shows (flex_laws (by omega) hE), fun hg => (h3.rel hB hE hne).exact hg⟩

/-- **C47**, partial: on `EditOn`.  When one of them throws, all objects but an rvalue that is changed in place are as before, and
that one is as one of the parts left it. -/
theorem C47_basic_partial (hB : 2 ≤ c.B) (hE : E.Fresh) (hne : er ≠ et) (h : CReached c E X er et w M) {f : Option (Kind × Nat)} {e : Edit T} (ho : EditOn c E X er et w f e)
    (hw : ecall c E X er et f e w = .thrown w') : f ≠ none ∧ ∃ M' ∈ Spec.editFailed E.gc M e, CReached c E X er et w' M' ∧ FShows c X w' M' ∧ (E.gc = false → ∃ B, Exact er et w' B) := by
  have := C47_edit_partial hB hE hne h f e ho
  rw [hw] at this
  obtain ⟨h1, M', h2, h3⟩ := this
  exact ⟨h1, M', h2, h3, (h3.rel hB hE hne).shows (flex_laws (by omega) hE), fun hg => (h3.rel hB hE hne).exact hg⟩

end
end FlexHeap
