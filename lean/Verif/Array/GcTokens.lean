import Verif.Array.GcMain

/-!
# Arrays when the collector gives tokens out again (C57)

`Gc.lean` takes tokens from a counter.  Here a transient may get a token that was in use before, as soon as no transient has it and no
node of a variable.  Nodes of arrays are allocated without `norefs_tag` (arrays/node.hpp 70), so the collector sees their tokens.
-/

namespace ArrGc

variable {α : Type} {triv : Bool} {mv : α → α} {ea ew a : Nat} {f : Option Nat} {s s' : St α} {e e' : Env α}

/-- The transient `i` has token `k`.  After an operation that makes a token it stands for `make_token_` (gc_transience_policy.hpp
53-56) having returned `k`: such an operation gives the token to no node. -/
def St.retoken (s : St α) (i k : Nat) : St α :=
  { s with vars := s.vars.modify i fun o => o.map fun
    | .tr t => .tr { t with tok := k }
    | .arr x => .arr x }

/-- What the collector may take back: no transient has `k`, and no node of a variable. -/
structure Unused (s : St α) (k : Nat) : Prop where
  trs : ∀ i t, nth s.vars i = some (.tr t) → t.tok ≠ k
  nodes : ∀ i o c, nth s.vars i = some o → s.mem o.ptr = some c → c.tok ≠ k

/-- States that allowed operations lead to when tokens may be given out again. -/
inductive Recycled (triv : Bool) (mv : α → α) (ea ew : Nat) : St α → Env α → Prop
  | start (h : ea ≠ ew) : Recycled triv mv ea ew (start ea ew) []
  | ok {s s' e e' a f op} (h : Recycled triv mv ea ew s e) (ha : s.mem a = none) (hs : spec op e = some e') (hsafe : Safe triv op s)
      (hr : step triv mv ea ew a f op s = .ok s') : Recycled triv mv ea ew s' e'
  | thrown {s s' e e' a f op} (h : Recycled triv mv ea ew s e) (ha : s.mem a = none) (hs : spec op e = some e') (hsafe : Safe triv op s)
      (hr : step triv mv ea ew a f op s = .thrown s') : Recycled triv mv ea ew s' (seen s' e)
  | token {s e i k xs} (h : Recycled triv mv ea ew s e) (hi : nth e i = some (.tr xs)) (h0 : 0 < k) (hn : k < s.next) (hu : Unused s k) :
      Recycled triv mv ea ew (s.retoken i k) e

theorem retoken_inv {i k : Nat} {xs : List α} (hi : InvS triv ea ew s e) (h2 : nth e i = some (.tr xs)) (h0 : 0 < k) (hn : k < s.next) (hu : Unused s k) :
    InvS triv ea ew (s.retoken i k) e := by
  obtain ⟨t, c, h1, h4, h5⟩ := obj_tr hi h2
  have h1 : nth s.vars i = some (.tr t) := h1
  have hlv := nth_lt h1
  have hv : (s.retoken i k).vars = s.vars.set i (some (.tr { t with tok := k })) := by
    have hg : s.vars[i]? = some (some (.tr t)) := by
      unfold nth at h1
      cases hx : s.vars[i]? with
      | none => rw [hx] at h1; cases h1
      | some o => rw [hx] at h1; exact congrArg some h1
    apply List.ext_getElem?
    intro j
    show (s.vars.modify i _)[j]? = _
    rw [List.getElem?_modify, List.getElem?_set]
    by_cases hj : i = j
    · subst hj
      rw [hg]
      simp only [if_true, if_pos hlv]
      rfl
    · simp [hj]
  show Inv triv ea ew s.mem (s.retoken i k).vars e s.next
  rw [hv]
  have hck : c.tok ≠ k := hu.nodes i (.tr t) c h1 h4
  obtain ⟨rest, hs, _⟩ := h5.slots
  refine hi.putT (i := i) (c := c) (t := { t with tok := k }) (by simp [hi.len]) (fun j hj => by rw [nth_set hlv, if_neg hj]) (fun _ _ => rfl) (by rw [nth_set hlv, if_pos rfl]) h2
    (Nat.le_refl _) h0 hn h4 ⟨h5.size, h5.cap, rest, hs, fun h => absurd h hck⟩ ?_ ?_
  · intro j u zs hj hu' hz
    exact ⟨fun h => hu.trs j u hu' h.symm, hi.sep j i u zs (.tr t) (.tr xs) c hj hu' hz h1 h2 (by simp) h4⟩
  · intro j o w d _ ho _ _ hp
    exact hu.nodes j o d ho hp

theorem Recycled.inv (h : Recycled triv mv ea ew s e) : InvS triv ea ew s e := by
  induction h with
  | start h => exact start_inv h
  | @ok s s' e e' a f op h ha hs hsafe hr ih =>
    have hg := step_good (mv := mv) (f := f) ih ha hs hsafe
    rw [hr] at hg
    exact hg
  | @thrown s s' e e' a f op h ha hs hsafe hr ih =>
    have hg := step_good (mv := mv) (f := f) ih ha hs hsafe
    rw [hr] at hg
    obtain ⟨_, e'', h1, h2⟩ := hg
    rw [seen_congr (throw_gone h1), seen_inv h2]; exact h2
  | token _ hi h0 hn hu ih => exact retoken_inv ih hi h0 hn hu

/-- **C57** for arrays.  The collector may give the token of a transient out again as soon as no transient and no node of a variable
has it.  Then every array and every transient has the elements it should have, and every allowed operation does to all variables
what the operation on lists does, or throws and leaves them as it should; nothing is undefined. -/
theorem C57_arrays (h : Recycled triv mv ea ew s e) : seen s e = e ∧
    ∀ {a f op e'}, s.mem a = none → spec op e = some e' → Safe triv op s →
      match step triv mv ea ew a f op s with
      | .ok s' => seen s' e' = e'
      | .thrown s' => f ≠ none ∧ specThrow mv op e (seen s' e)
      | .ub => False
      | .no => ∃ p, op = .collect p := by
  refine ⟨seen_inv h.inv, fun {a f op e'} ha hs hsafe => ?_⟩
  have hg := step_good (mv := mv) (f := f) h.inv ha hs hsafe
  revert hg
  cases step triv mv ea ew a f op s with
  | ok s' => exact fun hg => seen_inv hg
  | thrown s' =>
    rintro ⟨h1, e'', h2, h3⟩
    refine ⟨h1, ?_⟩
    rw [seen_congr (throw_gone h2), seen_inv h3]; exact h2
  | ub => exact id
  | no => exact id

/-! ### Example -/

theorem Recycled.of_reach (h : Reach triv mv ea ew s e) : Recycled triv mv ea ew s e := by
  induction h with
  | start h => exact .start h
  | @ok s s' e e' a f op _ ha hs hsafe hr ih =>
    have h := Recycled.ok ih ha hs hsafe hr
    rw [seen_inv h.inv]; exact h
  | thrown _ ha hs hsafe hr ih => exact .thrown ih ha hs hsafe hr

/-- `Unused` for a program's state, to compute -/
def unusedB (s : St Nat) (k : Nat) : Bool :=
  s.vars.all fun o => match o with
    | none => true
    | some o => (match o with | .tr t => t.tok != k | .arr _ => true) && (match s.mem o.ptr with | some c => c.tok != k | none => true)

theorem unused_of {s : St Nat} {k : Nat} (h : unusedB s k = true) : Unused s k := by
  have hm : ∀ i o, nth s.vars i = some o → some o ∈ s.vars := by
    intro i o ho
    unfold nth at ho
    cases hx : s.vars[i]? with
    | none => rw [hx] at ho; cases ho
    | some o' =>
      rw [hx] at ho
      have ho' : o' = some o := ho
      exact ho' ▸ List.mem_of_getElem? hx
  unfold unusedB at h
  rw [List.all_eq_true] at h
  constructor
  · intro i t ht
    have := h _ (hm _ _ ht)
    simp only [Bool.and_eq_true] at this
    simpa using this.1
  · intro i o c ho hc
    have := h _ (hm _ _ ho)
    simp only [Bool.and_eq_true, hc] at this
    simpa using this.2

/-- `array{1, 2}`, its transient, a `push_back`, the transient ends, another transient of the array -/
def progT : List (Nat × Op Nat) := [(10, .fromRange [1, 2]), (11, .transient 0), (11, .pushBack 1 3), (12, .destroy 1), (12, .transient 0)]

/-- The second transient gets the token of the first, whose node is garbage then. -/
example : ∃ s e k, Recycled false id 0 1 (St.retoken s 2 k) e ∧ (∃ s1 t, runs false (progT.take 3) (start 0 1) = some s1 ∧ nth s1.vars 1 = some (.tr t) ∧ t.tok = k) ∧
    shown (seen (s.retoken 2 k) e) = [some [1, 2], none, some [1, 2]] := by
  have hr : ∃ s, runs false progT (start 0 1) = some s := Option.isSome_iff_exists.1 (by decide +kernel)
  have hs : ∃ e, specs progT [] = some e := Option.isSome_iff_exists.1 (by decide +kernel)
  obtain ⟨s, hr⟩ := hr
  obtain ⟨e, hs⟩ := hs
  have hR := Recycled.of_reach (reach_runs progT _ _ _ _ (.start (by decide)) (by decide +kernel) hr hs)
  have he : e = [some (.arr [1, 2]), none, some (.tr [1, 2])] := by
    have : specs progT [] = some [some (.arr [1, 2]), none, some (.tr [1, 2])] := rfl
    exact Option.some.inj (hs.symm.trans this)
  subst he
  have hu : (runs false progT (start 0 1)).all (fun s => unusedB s 1 && decide (1 < s.next)) = true := by decide +kernel
  rw [hr] at hu
  simp only [Option.all_some, Bool.and_eq_true, decide_eq_true_eq] at hu
  have hT := Recycled.token (i := 2) (k := 1) (xs := [1, 2]) hR rfl (by decide) hu.2 (unused_of hu.1)
  refine ⟨s, _, 1, hT, ?_, ?_⟩
  · have h3 : ((runs false (progT.take 3) (start 0 1)).bind fun s => nth s.vars 1).any (fun o => match o with | .tr t => t.tok == 1 | .arr _ => false) = true := by
      decide +kernel
    cases h4 : runs false (progT.take 3) (start 0 1) with
    | none => rw [h4] at h3; cases h3
    | some s1 =>
      rw [h4] at h3
      cases h5 : nth s1.vars 1 with
      | none => simp [h5] at h3
      | some o => cases o with
        | arr x => simp [h5] at h3
        | tr t => exact ⟨s1, t, rfl, h5, by simpa [h5] using h3⟩
  · rw [(C57_arrays hT).1]; rfl

end ArrGc
