import Verif.Array.Step

/-!
# Properties of `array` and `array_transient` with reference counting
-/

namespace Arr

variable {α : Type}

/-! ### What a client sees -/

/-- the elements of slots that all hold one -/
def allSome : Slots α → Option (List α)
  | [] => some []
  | none :: _ => none
  | some v :: sl => (allSome sl).map (v :: ·)

/-- the list that a client reads through a handle: `[data(), data() + size)` -/
def look (s : St α) (h : H) : Option (List α) := (s.mem h.ptr).bind fun c => allSome (c.slots.take h.size)

/-- the lists that a client reads through the variables -/
def vals (s : St α) : List (Option (List α)) := s.vars.map fun o => o.bind (look s)

/-- at the start there is only the static `empty()` (`with_capacity.hpp` 36-40), of no elements and capacity 1 -/
def start (p : Nat) : St α := ⟨upd (fun _ => none) p (some ⟨1, [none]⟩), [some ⟨p, 0, 1⟩], none, 0⟩

/-- what may happen: clients make calls that `spec` allows, other than those excluded by `Safe`; the heap returns memory that
is not in use; any allocation, copy of an element, or call of a user's function may throw -/
inductive Reach (triv : Bool) (mv : α → α) : St α → Prop
  | start (p : Nat) : Reach triv mv (start p)
  | ok {s s' : St α} (ev : Ev α) : Reach triv mv s → s.mem ev.a = none → (spec ev.op (vals s)).isSome → Safe triv ev.op (vals s) →
      exec triv mv ev.a ev.op { s with fault := ev.fault } = .ok s' () → Reach triv mv s'
  | thrown {s s' : St α} (ev : Ev α) : Reach triv mv s → s.mem ev.a = none → (spec ev.op (vals s)).isSome → Safe triv ev.op (vals s) →
      exec triv mv ev.a ev.op { s with fault := ev.fault } = .thrown s' → Reach triv mv s'

theorem allSome_map : ∀ (xs : List α), allSome (xs.map some) = some xs
  | [] => rfl
  | x :: xs => by rw [List.map_cons, allSome, allSome_map xs]; rfl

section
variable {triv : Bool} {mv : α → α} {s s' : St α} {e : List (Option (List α))}

theorem Rep.look {h : H} {xs : List α} (hr : Rep triv s.mem (some h, some xs)) : look s h = some xs := by
  obtain ⟨c, rest, h1, h2, _, h4, _⟩ := hr
  unfold Arr.look
  rw [h1]
  show allSome (c.slots.take h.size) = _
  rw [h2, h4, List.take_append_of_le_length (by simp), List.take_of_length_le (by simp), allSome_map]

theorem vals_zip : ∀ {vs : List (Option H)} {e : List (Option (List α))}, vs.length = e.length →
    (∀ x ∈ vs.zip e, Rep triv s.mem x) → (vs.map fun o => o.bind (look s)) = e
  | [], [], _, _ => rfl
  | [], _ :: _, h, _ => by simp at h
  | _ :: _, [], h, _ => by simp at h
  | o :: vs, x :: e, hl, hr => by
    rw [List.map_cons, vals_zip (by simpa using hl) fun y hy => hr y (by simp [hy])]
    have := hr (o, x) (by simp)
    congr 1
    cases o with
    | none =>
      cases x with
      | none => rfl
      | some _ => exact this.elim
    | some h =>
      cases x with
      | none => exact this.elim
      | some xs => exact this.look

theorem Inv.vals (hi : Inv triv s e) : vals s = e := vals_zip hi.len hi.inv.rep

theorem Inv.setFault (hi : Inv triv s e) (f : Option Nat) : Inv triv { s with fault := f } e := ⟨hi.len, hi.stat, hi.stat', hi.inv⟩

theorem start_inv (p : Nat) : Inv (α := α) triv (start p) [some []] := by
  refine ⟨rfl, ⟨p, rfl⟩, rfl, ?_⟩
  have h0 : InvL (α := α) triv (fun _ => none) [] :=
    ⟨by simp, by simp, fun q => rfl, fun q c h => by cases h⟩
  exact inv_new (a := p) (n := 1) h0 rfl

theorem reach_inv (h : Reach triv mv s) : Inv triv s (vals s) := by
  induction h with
  | start p => rw [(start_inv (triv := triv) p).vals]; exact start_inv p
  | ok ev _ ha hs hsafe hx ih =>
    obtain ⟨e', he⟩ := Option.isSome_iff_exists.mp hs
    have := step_inv (mv := mv) (a := ev.a) (ih.setFault ev.fault) ha he hsafe
    rw [hx] at this
    rw [Inv.vals this]; exact this
  | thrown ev _ ha hs hsafe hx ih =>
    obtain ⟨e', he⟩ := Option.isSome_iff_exists.mp hs
    have := step_inv (mv := mv) (a := ev.a) (ih.setFault ev.fault) ha he hsafe
    rw [hx] at this
    obtain ⟨e'', _, h2⟩ := this
    rw [Inv.vals h2]; exact h2

/-! ### Nothing throws by itself -/

/-- no exception, and no fault to come -/
def CalmR {β : Type} : Res α β → Prop
  | .ok s _ => s.fault = none
  | .thrown _ => False
  | _ => True

/-- without a fault, nothing is thrown -/
def Calm {β : Type} (x : M α β) : Prop := ∀ s, s.fault = none → CalmR (x s)

theorem calm_bind {β γ : Type} {x : M α β} {f : β → M α γ} (h : Calm x) (hf : ∀ b, Calm (f b)) : Calm (x.bind f) := by
  intro s hs
  have := h s hs
  unfold M.bind
  cases hx : x s <;> rw [hx] at this
  · exact hf _ _ this
  · exact this
  · trivial
  · trivial

theorem calm_guard {β : Type} {x : M α β} {y : M α Unit} (h : Calm x) : Calm (x.guard y) := by
  intro s hs
  have := h s hs
  unfold M.guard
  cases hx : x s <;> rw [hx] at this
  · exact this
  · exact this.elim
  · trivial
  · trivial

theorem calm_ite {β : Type} {p : Prop} [Decidable p] {x y : M α β} (h1 : Calm x) (h2 : Calm y) : Calm (if p then x else y) := by
  split
  · exact h1
  · exact h2

theorem calm_ret {β : Type} {b : β} : Calm (M.ret b : M α β) := fun _ h => h
theorem calm_undef {β : Type} : Calm (undef : M α β) := fun _ _ => trivial

/-- a step that cannot throw -/
theorem calm_ok {β : Type} {f : St α → St α} {b : St α → β} (h : ∀ s, (f s).fault = s.fault) : Calm (fun s => .ok (f s) (b s)) :=
  fun s hs => (h s).trans hs

theorem calm_tick : Calm (tick : M α Unit) := by
  intro s hs
  unfold tick
  rw [hs]
  exact hs

theorem calm_cell {p : Nat} : Calm (cell p : M α _) := by
  intro s hs; unfold cell; split
  · exact hs
  · trivial

theorem calm_setSlots {p : Nat} {sl : Slots α} : Calm (setSlots p sl) := by
  intro s hs; unfold setSlots; split
  · exact hs
  · trivial

theorem calm_construct {p i : Nat} {v : α} : Calm (construct triv p i v) := by
  refine calm_bind calm_cell fun c => ?_
  split
  · exact calm_setSlots
  · exact calm_ite calm_setSlots calm_undef
  · exact calm_undef

theorem calm_assign {p i : Nat} {v : α} : Calm (assign p i v) := by
  refine calm_bind calm_cell fun c => ?_
  split
  · exact calm_setSlots
  · exact calm_undef

theorem calm_read {p i : Nat} : Calm (read p i : M α α) := by
  refine calm_bind calm_cell fun c => ?_
  split
  · exact calm_ret
  · exact calm_undef

theorem calm_destroyLoop {p : Nat} : ∀ (n i : Nat), Calm (destroyLoop p i n : M α Unit)
  | 0, _ => calm_ret
  | n + 1, i => by
    refine calm_bind (calm_bind calm_cell fun c => ?_) fun _ => calm_destroyLoop n (i + 1)
    split
    · exact calm_setSlots
    · exact calm_undef

theorem calm_destroyN {p i n : Nat} : Calm (destroyN triv p i n : M α Unit) := calm_ite calm_ret (calm_destroyLoop _ _)

theorem calm_dealloc {p n : Nat} : Calm (dealloc triv p n : M α Unit) :=
  calm_bind calm_cell fun _ => calm_ite (calm_ok fun _ => rfl) calm_undef

theorem calm_deleteN {p i n : Nat} : Calm (deleteN triv p i n : M α Unit) := calm_bind calm_destroyN fun _ => calm_dealloc

theorem calm_uninitCopy {p : Nat} : ∀ (xs : List α) (k : Nat), Calm (uninitCopy triv p k xs)
  | [], _ => calm_ret
  | _ :: xs, k => calm_bind (calm_guard (calm_bind calm_tick fun _ => calm_bind calm_construct fun _ => calm_ok fun _ => rfl))
      fun _ => calm_uninitCopy xs (k + 1)

theorem calm_makeN {a n : Nat} : Calm (makeN a n : M α Unit) := calm_bind calm_tick fun _ => calm_ok fun _ => rfl

theorem calm_copyRange {a n : Nat} {xs : List α} : Calm (copyRange triv a n xs) :=
  calm_bind calm_makeN fun _ => calm_guard (calm_uninitCopy _ _)

theorem calm_readN {p : Nat} : ∀ (n : Nat), Calm (readN p n : M α _)
  | 0 => calm_ret
  | n + 1 => calm_bind (calm_readN n) fun _ => calm_bind calm_read fun _ => calm_ret

theorem calm_copyN {a n p k : Nat} : Calm (copyN triv a n p k : M α Unit) := calm_bind (calm_readN k) fun _ => calm_copyRange

theorem calm_getVar {i : Nat} : Calm (getVar i : M α H) := by
  intro s hs; unfold getVar; split
  · exact hs
  · trivial

theorem calm_setVar {i : Nat} {o : Option H} : Calm (setVar i o : M α Unit) := calm_ok fun _ => rfl
theorem calm_pushVar {h : H} : Calm (pushVar h : M α Unit) := calm_ok fun _ => rfl
theorem calm_lastVar : Calm (lastVar : M α Nat) := fun _ h => h

theorem calm_dec {h : H} : Calm (dec triv h : M α Unit) :=
  calm_bind calm_cell fun _ => calm_ite calm_deleteN (calm_ok fun _ => rfl)

theorem calm_dropLast : Calm (dropLast triv : M α Unit) := by
  intro s hs; unfold dropLast; split
  · exact calm_dec _ hs
  · trivial

theorem calm_swap {i j : Nat} : Calm (swap i j : M α Unit) :=
  calm_bind calm_getVar fun _ => calm_bind calm_getVar fun _ => calm_bind calm_setVar fun _ => calm_setVar

theorem calm_copyCtor {i : Nat} : Calm (copyCtor i : M α Unit) :=
  calm_bind calm_getVar fun _ => calm_bind (calm_bind calm_cell fun _ => calm_ok fun _ => rfl) fun _ => calm_pushVar

theorem calm_replace {i : Nat} {h : H} : Calm (replace triv i h : M α Unit) :=
  calm_bind calm_pushVar fun _ => calm_bind calm_lastVar fun _ => calm_bind calm_swap fun _ => calm_dropLast

theorem calm_canMutate {h : H} : Calm (canMutate h : M α Bool) := calm_bind calm_cell fun _ => calm_ret

theorem calm_updateElem {p i : Nat} {f : α → α} : Calm (updateElem mv p i f) :=
  calm_bind calm_read fun _ => calm_bind calm_assign fun _ => calm_bind calm_tick fun _ => calm_assign

theorem calm_exec {a : Nat} : ∀ (op : Op α), Calm (exec triv mv a op)
  | .fromRange xs => calm_ite calm_copyCtor (calm_bind calm_copyRange fun _ => calm_pushVar)
  | .fromFill n v => calm_bind (calm_bind calm_makeN fun _ => calm_guard (calm_uninitCopy _ _)) fun _ => calm_pushVar
  | .copyCtor i => calm_copyCtor
  | .moveCtor i => calm_bind calm_copyCtor fun _ => calm_bind calm_lastVar fun _ => calm_swap
  | .copyAssign i j => calm_bind calm_copyCtor fun _ => calm_bind calm_lastVar fun _ => calm_bind calm_swap fun _ => calm_dropLast
  | .moveAssign i j => calm_swap
  | .destroy i => calm_bind calm_getVar fun _ => calm_bind calm_setVar fun _ => calm_dec
  | .pushBack i v => calm_bind calm_getVar fun _ => calm_bind calm_copyN fun _ =>
      calm_guard (calm_bind (calm_bind calm_tick fun _ => calm_construct) fun _ => calm_pushVar)
  | .pushBackMut i v => calm_bind calm_getVar fun _ => calm_bind calm_canMutate fun _ =>
      calm_ite (calm_bind (calm_bind calm_tick fun _ => calm_construct) fun _ => calm_setVar)
        (calm_bind calm_copyN fun _ => calm_guard (calm_bind (calm_bind calm_tick fun _ => calm_construct) fun _ => calm_replace))
  | .set i idx v => calm_bind calm_getVar fun _ => calm_bind calm_copyN fun _ =>
      calm_guard (calm_bind (calm_bind calm_tick fun _ => calm_assign) fun _ => calm_pushVar)
  | .setMut i idx v => calm_bind calm_getVar fun _ => calm_bind calm_canMutate fun _ => calm_ite (calm_bind calm_tick fun _ => calm_assign)
      (calm_bind calm_copyN fun _ => calm_guard (calm_bind (calm_bind calm_tick fun _ => calm_assign) fun _ => calm_replace))
  | .update i idx f => calm_bind calm_getVar fun _ => calm_bind calm_copyN fun _ => calm_guard (calm_bind calm_updateElem fun _ => calm_pushVar)
  | .updateMut i idx f => calm_bind calm_getVar fun _ => calm_bind calm_canMutate fun _ => calm_ite calm_updateElem
      (calm_bind calm_copyN fun _ => calm_guard (calm_bind calm_updateElem fun _ => calm_replace))
  | .take i n => calm_bind calm_getVar fun _ => calm_bind calm_copyN fun _ => calm_pushVar
  | .takeMut i n => calm_bind calm_getVar fun _ => calm_bind calm_canMutate fun _ =>
      calm_ite (calm_bind calm_destroyN fun _ => calm_setVar) (calm_bind calm_copyN fun _ => calm_replace)
  | .dataMutWrite i idx v => calm_bind calm_getVar fun _ => calm_bind calm_canMutate fun _ => calm_ite calm_assign
      (calm_bind calm_copyN fun _ => calm_bind calm_dec fun _ => calm_bind calm_setVar fun _ => calm_assign)

end

/-! ### C28: arrays are sequences -/

section
variable {triv : Bool} {mv : α → α} {s s' : St α} {e' : List (Option (List α))}

/-- **C28**: in every reachable state, every allowed operation on an `array` or `array_transient` does to all variables what
the operation on lists does: the result and the variable operated on in place get the new list, and all others keep theirs.
If it throws, which it does only if an allocation, a copy or a user's function throws, all variables are as before (an update
in place may leave the element moved from). -/
theorem C28_operations (h : Reach triv mv s) (ev : Ev α) (ha : s.mem ev.a = none) (hs : spec ev.op (vals s) = some e')
    (hsafe : Safe triv ev.op (vals s)) :
    match exec triv mv ev.a ev.op { s with fault := ev.fault } with
    | .ok s' _ => vals s' = e'
    | .thrown s' => ev.fault ≠ none ∧ specThrow mv ev.op (vals s) (vals s')
    | .ub => False
    | .no => False := by
  have h1 := step_inv (mv := mv) (a := ev.a) ((reach_inv h).setFault ev.fault) ha hs hsafe
  have h2 := calm_exec (triv := triv) (mv := mv) (a := ev.a) ev.op { s with fault := ev.fault }
  revert h1 h2
  cases exec triv mv ev.a ev.op { s with fault := ev.fault } with
  | ok s' _ => intro h1 _; exact Inv.vals h1
  | thrown s' =>
    intro h1 h2
    refine ⟨fun hf => h2 hf, ?_⟩
    obtain ⟨e'', h3, h4⟩ := h1
    rw [Inv.vals h4]; exact h3
  | ub => intro h1 _; exact h1
  | no => intro h1 _; exact h1

/-- **C28**: in every reachable state, all live variables hold a list: the elements from 0 to `size`, and `size` is at most
the capacity for which memory was allocated -/
theorem C28_shows (h : Reach triv mv s) {i : Nat} {p : H} (hp : s.vars[i]? = some (some p)) :
    ∃ xs, (vals s)[i]? = some (some xs) ∧ p.size = xs.length ∧ p.size ≤ p.cap ∧
      ∃ c, s.mem p.ptr = some c ∧ c.slots.length = p.cap := by
  have hi := reach_inv h
  have hl : i < (vals s).length := by rw [← hi.len]; exact (List.getElem?_eq_some_iff.mp hp).1
  have ho : (vals s)[i]? = some (vals s)[i] := List.getElem?_eq_getElem hl
  have hm := (zip_perm hp ho).mem_iff.mpr List.mem_cons_self
  have hr := hi.inv.rep _ hm
  revert ho hm hr
  generalize (vals s)[i] = o
  intro ho hm hr
  cases o with
  | none => exact hr.elim
  | some xs =>
    obtain ⟨c, rest, h1, h2, h3, h4, _⟩ := hi.inv.live hm
    obtain ⟨h5, h6⟩ := hi.size hm
    exact ⟨xs, ho, h5, by omega, c, h1, h3⟩

/-- `array_transient::operator[]` and `array::operator[]` read the element of the list -/
theorem C28_get (h : Reach triv mv s) {i idx : Nat} {xs : List α} (hv : val (vals s) i = some xs) (hx : idx < xs.length) :
    get i idx s = .ok s xs[idx] := by
  have hi := reach_inv h
  obtain ⟨p, h1, h2⟩ := hi.var (val_get hv).2
  unfold get
  rw [bind_ok (getVar_eq h1)]
  exact read_eq hi.P h2 hx

/-- **C11** for arrays: `at` throws exactly when the index is out of range -/
theorem C11_array_at (h : Reach triv mv s) {i : Nat} {xs : List α} (hv : val (vals s) i = some xs) (idx : Nat) :
    getCheck i idx s = .ok s xs[idx]? := by
  have hi := reach_inv h
  obtain ⟨p, h1, h2⟩ := hi.var (val_get hv).2
  obtain ⟨h3, _⟩ := hi.size h2
  unfold getCheck
  rw [bind_ok (getVar_eq h1)]
  split
  · rw [List.getElem?_eq_none (by omega)]; rfl
  · rw [bind_ok (read_eq hi.P h2 (by omega)), List.getElem?_eq_getElem (by omega)]; rfl

theorem bind_inv {β γ : Type} {x : M α β} {f : β → M α γ} {c : γ} (h : (x.bind f) s = .ok s' c) :
    ∃ s1 b, x s = .ok s1 b ∧ f b s1 = .ok s' c := by
  unfold M.bind at h
  cases hx : x s with
  | ok s1 b => rw [hx] at h; exact ⟨s1, b, rfl, h⟩
  | thrown _ => rw [hx] at h; cases h
  | ub => rw [hx] at h; cases h
  | no => rw [hx] at h; cases h

theorem getVar_inv {i : Nat} {p : H} (h : getVar i s = .ok s' p) : s' = s ∧ s.vars[i]? = some (some p) := by
  unfold getVar at h
  split at h
  · cases h; exact ⟨rfl, by assumption⟩
  · cases h

/-- **C39** for arrays: same identity, same list -/
theorem C39_array_identity (h : Reach triv mv s) {i j n : Nat} (hi : identity i s = .ok s n) (hj : identity j s = .ok s n) :
    ∃ xs, (vals s)[i]? = some (some xs) ∧ (vals s)[j]? = some (some xs) := by
  have hv := reach_inv h
  have key : ∀ {i}, identity i s = .ok s n → ∃ p xs, s.vars[i]? = some (some p) ∧ p.ptr = n ∧ (vals s)[i]? = some (some xs) ∧
      (some p, some xs) ∈ s.vars.zip (vals s) := by
    intro i hi
    obtain ⟨s1, p, h1, h2⟩ := bind_inv hi
    obtain ⟨rfl, h3⟩ := getVar_inv h1
    obtain ⟨xs, h4, _⟩ := C28_shows h h3
    obtain ⟨q, h5, h6⟩ := hv.var h4
    rw [h3] at h5; cases h5
    refine ⟨p, xs, h3, ?_, h4, h6⟩
    cases h2; rfl
  obtain ⟨p, xs, _, a2, a3, a4⟩ := key hi
  obtain ⟨q, ys, _, b2, b3, b4⟩ := key hj
  have := hv.inv.same _ a4 _ b4 p q rfl rfl (a2.trans b2.symm)
  cases this
  exact ⟨xs, a3, b3⟩

theorem equalLoop_eq [BEq α] (hi : Reach triv mv s) {p q : H} {xs ys : List α} (hp : (some p, some xs) ∈ s.vars.zip (vals s))
    (hq : (some q, some ys) ∈ s.vars.zip (vals s)) : ∀ (n k : Nat), k + n = xs.length → k + n = ys.length →
    equalLoop (· == ·) p.ptr q.ptr k n s = .ok s (xs.drop k == ys.drop k)
  | 0, k, h1, h2 => by
    rw [List.drop_of_length_le (by omega), List.drop_of_length_le (by omega)]
    rfl
  | n + 1, k, h1, h2 => by
    have hP := (reach_inv hi).P
    unfold equalLoop
    rw [bind_ok (read_eq hP hp (k := k) (by omega)), bind_ok (read_eq hP hq (k := k) (by omega))]
    rw [List.drop_eq_getElem_cons (l := xs) (i := k) (by omega), List.drop_eq_getElem_cons (l := ys) (i := k) (by omega)]
    rw [List.cons_beq_cons]
    split
    · rename_i hb
      rw [equalLoop_eq hi hp hq n (k + 1) (by omega) (by omega), hb, Bool.true_and]
    · rename_i hb
      rw [Bool.not_eq_true] at hb
      rw [hb, Bool.false_and]; rfl

theorem beq_length [BEq α] : ∀ (xs ys : List α), (xs == ys) = true → xs.length = ys.length
  | [], [], _ => rfl
  | [], _ :: _, h => by cases h
  | _ :: _, [], h => by cases h
  | x :: xs, y :: ys, h => by
    rw [List.cons_beq_cons, Bool.and_eq_true] at h
    rw [List.length_cons, List.length_cons, beq_length xs ys h.2]

/-- **C28**: `operator==` of arrays is equality of lists, as the elements are compared -/
theorem C28_equals [BEq α] [ReflBEq α] (h : Reach triv mv s) {i j : Nat} {xs ys : List α} (hx : val (vals s) i = some xs)
    (hy : val (vals s) j = some ys) : equals (· == ·) i j s = .ok s (xs == ys) := by
  have hi := reach_inv h
  obtain ⟨p, h1, h2⟩ := hi.var (val_get hx).2
  obtain ⟨q, h3, h4⟩ := hi.var (val_get hy).2
  unfold equals
  rw [bind_ok (getVar_eq h1), bind_ok (getVar_eq h3)]
  split
  · rename_i hpq
    have := hi.inv.same _ h2 _ h4 p q rfl rfl hpq
    cases this
    rw [beq_self_eq_true]; rfl
  · have e1 := (hi.size h2).1
    have e2 := (hi.size h4).1
    split
    · have := equalLoop_eq h h2 h4 p.size 0 (by omega) (by omega)
      simpa using this
    · rename_i hs
      have : (xs == ys) = false := by
        cases hq : xs == ys with
        | false => rfl
        | true => exact absurd (beq_length xs ys hq) (by omega)
      rw [this]; rfl

/-! ### C29: lifetimes -/

/-- **C29** (with the exception of `take` in place, see `C29_take_mut`): in every reachable state, for every live node, the
count is the number of variables that use it, and is not 0; and if elements have to be destroyed then there are elements
exactly in the places that the variables show.

No operation constructs an element over another, destroys one that is not there or releases memory with elements in it: each
of these is `ub`, which `C28_operations` excludes. -/
theorem C29_lifetimes_partial (h : Reach triv mv s) {p : Nat} {c : Cell α} (hc : s.mem p = some c) :
    c.refs = s.vars.countP (fun o => o.any fun g => g.ptr == p) ∧ 0 < c.refs ∧
      ∃ (i : Nat) (g : H) (xs : List α), s.vars[i]? = some (some g) ∧ g.ptr = p ∧ (vals s)[i]? = some (some xs) ∧
        (triv = false → c.slots = xs.map some ++ List.replicate (c.slots.length - xs.length) none) := by
  have hi := reach_inv h
  have hpos := hi.inv.pos p c hc
  have hrc := hi.inv.refs p
  rw [rc, hc] at hrc
  have hcnt : ∀ (vs : List (Option H)) (e : List (Option (List α))), vs.length = e.length →
      cnt p (vs.zip e) = vs.countP (fun o => o.any fun g => g.ptr == p) := by
    intro vs
    induction vs with
    | nil => intro e _; rfl
    | cons o vs ih =>
      intro e he
      cases e with
      | nil => cases he
      | cons x e =>
        rw [List.zip_cons_cons, cnt_cons, List.countP_cons, ih e (by simpa using he)]
        cases o with
        | none => simp [pind]
        | some g =>
          simp only [pind, Option.any_some, beq_iff_eq]
          split <;> omega
  have hcount := hcnt _ _ hi.len
  rw [hcount] at hrc
  refine ⟨hrc, hpos, ?_⟩
  have : 0 < s.vars.countP (fun o => o.any fun g => g.ptr == p) := hrc ▸ hpos
  obtain ⟨o, ho, hop⟩ := List.countP_pos_iff.mp this
  obtain ⟨i, hlt, rfl⟩ := List.getElem_of_mem ho
  cases hg : s.vars[i] with
  | none => rw [hg] at hop; simp at hop
  | some g =>
    rw [hg] at hop
    have hgp : g.ptr = p := by simpa using hop
    have hv : s.vars[i]? = some (some g) := by rw [List.getElem?_eq_getElem hlt, hg]
    obtain ⟨xs, h4, _⟩ := C28_shows h hv
    obtain ⟨q, h5, h6⟩ := hi.var h4
    rw [hv] at h5; cases h5
    refine ⟨i, g, xs, hv, hgp, h4, fun ht => ?_⟩
    obtain ⟨d, rest, a1, a2, a3, a4, a5, _⟩ := hi.inv.live h6
    rw [hgp, hc] at a1; cases a1
    rw [a2]
    congr 1
    exact List.eq_replicate_iff.mpr ⟨by simp, a5 ht⟩

/-- **C29**: when all arrays are destroyed, everything is released but the static node of `empty()` -/
theorem C29_all_released_partial (h : Reach triv mv s) (hd : ∀ (i : Nat), i ≠ 0 → s.vars[i]? = some none ∨ s.vars[i]? = none) :
    ∃ z, s.vars[0]? = some (some ⟨z, 0, 1⟩) ∧ ∀ p c, s.mem p = some c → p = z ∧ c.refs = 1 := by
  obtain ⟨z, hz⟩ := (reach_inv h).stat
  refine ⟨z, hz, fun p c hc => ?_⟩
  obtain ⟨h1, h2, i, g, xs, h3, h4, _⟩ := C29_lifetimes_partial h hc
  have hi : i = 0 := by
    by_cases hi : i = 0
    · exact hi
    · rcases hd i hi with hn | hn <;> rw [hn] at h3 <;> cases h3
  subst hi
  rw [hz] at h3; cases h3
  refine ⟨h4.symm, ?_⟩
  rw [h1]
  have : ∀ (vs : List (Option H)), (∀ (i : Nat), vs[i]? = some none ∨ vs[i]? = none) → vs.countP (fun o => o.any fun g => g.ptr == p) = 0 := by
    intro vs hvs
    rw [List.countP_eq_zero]
    intro o ho
    obtain ⟨i, hlt, rfl⟩ := List.getElem_of_mem ho
    rcases hvs i with h | h
    · rw [List.getElem?_eq_getElem hlt] at h; cases h' : vs[i] <;> simp_all
    · rw [List.getElem?_eq_getElem hlt] at h; cases h
  cases hvs : s.vars with
  | nil => rw [hvs] at hz; cases hz
  | cons o vs =>
    rw [hvs] at hz hd
    cases hz
    rw [List.countP_cons, this vs fun i => by simpa using hd (i + 1) (by omega)]
    have hzp : z = p := h4
    simp [hzp]

/-! ### C30: `push_back` on a transient is amortised constant -/

/-- steps that copy no elements -/
def Keeps {β : Type} (x : M α β) : Prop := ∀ s s' b, x s = .ok s' b → s'.work = s.work

theorem keeps_bind {β γ : Type} {x : M α β} {f : β → M α γ} (h : Keeps x) (hf : ∀ b, Keeps (f b)) : Keeps (x.bind f) := by
  intro s s' c hx
  obtain ⟨s1, b, h1, h2⟩ := bind_inv hx
  rw [hf b s1 s' c h2, h s s1 b h1]

theorem guard_inv {β : Type} {x : M α β} {y : M α Unit} {b : β} (h : (x.guard y) s = .ok s' b) : x s = .ok s' b := by
  unfold M.guard at h
  cases hx : x s with
  | ok s1 b => rw [hx] at h; exact h
  | thrown s1 => rw [hx] at h; simp only at h; cases hy : y s1 <;> rw [hy] at h <;> cases h
  | ub => rw [hx] at h; cases h
  | no => rw [hx] at h; cases h

theorem keeps_guard {β : Type} {x : M α β} {y : M α Unit} (h : Keeps x) : Keeps (x.guard y) := fun s s' b hx => h s s' b (guard_inv hx)

theorem keeps_ite {β : Type} {p : Prop} [Decidable p] {x y : M α β} (h1 : Keeps x) (h2 : Keeps y) : Keeps (if p then x else y) := by
  split
  · exact h1
  · exact h2

theorem keeps_ret {β : Type} {b : β} : Keeps (M.ret b : M α β) := by intro s s' b h; cases h; rfl
theorem keeps_undef {β : Type} : Keeps (undef : M α β) := by intro s s' b h; cases h
theorem keeps_ok {β : Type} {f : St α → St α} {b : St α → β} (h : ∀ s, (f s).work = s.work) : Keeps (fun s => .ok (f s) (b s)) := by
  intro s s' b hx; cases hx; exact h s

theorem keeps_tick : Keeps (tick : M α Unit) := by
  intro s s' b h
  unfold tick at h
  split at h <;> cases h <;> rfl

theorem keeps_cell {p : Nat} : Keeps (cell p : M α _) := by
  intro s s' b h
  unfold cell at h
  split at h <;> cases h; rfl

theorem keeps_setSlots {p : Nat} {sl : Slots α} : Keeps (setSlots p sl) := by
  intro s s' b h
  unfold setSlots at h
  split at h <;> cases h; rfl

theorem keeps_getVar {i : Nat} : Keeps (getVar i : M α H) := fun s s' b h => by rw [(getVar_inv h).1]

theorem keeps_construct {p i : Nat} {v : α} : Keeps (construct triv p i v) := by
  refine keeps_bind keeps_cell fun c => ?_
  split
  · exact keeps_setSlots
  · exact keeps_ite keeps_setSlots keeps_undef
  · exact keeps_undef

theorem keeps_destroyLoop {p : Nat} : ∀ (n i : Nat), Keeps (destroyLoop p i n : M α Unit)
  | 0, _ => keeps_ret
  | n + 1, i => by
    refine keeps_bind (keeps_bind keeps_cell fun c => ?_) fun _ => keeps_destroyLoop n (i + 1)
    split
    · exact keeps_setSlots
    · exact keeps_undef

theorem keeps_dec {h : H} : Keeps (dec triv h : M α Unit) :=
  keeps_bind keeps_cell fun _ => keeps_ite
    (keeps_bind (keeps_ite keeps_ret (keeps_destroyLoop _ _)) fun _ =>
      keeps_bind keeps_cell fun _ => keeps_ite (keeps_ok fun _ => rfl) keeps_undef)
    (keeps_ok fun _ => rfl)

theorem keeps_replace {i : Nat} {h : H} : Keeps (replace triv i h : M α Unit) := by
  refine keeps_bind (keeps_ok fun _ => rfl) fun _ => keeps_bind (keeps_ok (f := id) fun _ => rfl) fun _ => keeps_bind
    (keeps_bind keeps_getVar fun _ => keeps_bind keeps_getVar fun _ => keeps_bind (keeps_ok fun _ => rfl) fun _ => keeps_ok fun _ => rfl) fun _ => ?_
  intro s s' b hx
  unfold dropLast at hx
  split at hx
  · exact keeps_dec { s with vars := s.vars.dropLast } _ _ hx
  · cases hx

theorem uninitCopy_work {p : Nat} : ∀ (xs : List α) (k : Nat) (s s' : St α), uninitCopy triv p k xs s = .ok s' () → s'.work = s.work + xs.length
  | [], _, s, s', h => by cases h; rfl
  | x :: xs, k, s, s', h => by
    obtain ⟨s1, _, h1, h2⟩ := bind_inv h
    obtain ⟨s2, _, h3, h4⟩ := bind_inv (guard_inv h1)
    obtain ⟨s3, _, h5, h6⟩ := bind_inv h4
    rw [uninitCopy_work xs _ _ _ h2, List.length_cons]
    cases h6
    have := keeps_construct _ _ _ h5
    have := keeps_tick _ _ _ h3
    simp only at *
    omega

theorem copyRange_work {a n : Nat} {xs : List α} (h : copyRange triv a n xs s = .ok s' ()) : s'.work = s.work + xs.length := by
  obtain ⟨s1, _, h1, h2⟩ := bind_inv h
  have hk : Keeps (makeN a n : M α Unit) := keeps_bind keeps_tick fun _ => keeps_ok fun _ => rfl
  rw [uninitCopy_work xs 0 s1 s' (guard_inv h2), hk _ _ _ h1]

/-- pushing elements one after the other, without exceptions, and copying nothing in between; the heap returns any memory not
in use -/
def Pushes (triv : Bool) (i : Nat) : List α → St α → St α → Prop
  | [], s, s' => s' = s
  | v :: vs, s, s' => ∃ a s1, s.mem a = none ∧ pushBackMut triv i v a s = .ok s1 () ∧ Pushes triv i vs s1 s'

/-- the handle after `push_back_mut`, whether the node is its own, and how many elements were copied -/
theorem pushBackMut_out {e : List (Option (List α))} {a i : Nat} {v : α} {xs : List α} (hi : Inv triv s e) (ha : s.mem a = none)
    (hv : val e i = some xs) (hm : xs.length < maxSize) (hx : pushBackMut triv i v a s = .ok s' ()) :
    Inv triv s' (e.set i (some (xs ++ [v]))) ∧
    ∃ p q c, s.vars[i]? = some (some p) ∧ s'.vars[i]? = some (some q) ∧ s'.mem q.ptr = some c ∧ c.refs = 1 ∧
      ((q.cap = p.cap ∧ s'.work = s.work) ∨
       (q.cap = recommendUp (xs.length + 1) p.cap ∧ s'.work = s.work + xs.length ∧
        ((∃ d, s.mem p.ptr = some d ∧ d.refs ≠ 1) ∨ xs.length = p.cap))) := by
  obtain ⟨hi0, he⟩ := val_get hv
  obtain ⟨p, h1, h2⟩ := hi.var he
  obtain ⟨h3, h4⟩ := hi.size h2
  have hinv := step_pushBackMut (mv := id) (op := .copyCtor 0) hi ha hi0 (v := v) he hm
  rw [hx] at hinv
  have hinv : Inv triv s' (e.set i (some (xs ++ [v]))) := hinv
  refine ⟨hinv, ?_⟩
  have hlt : i < s.vars.length := (List.getElem?_eq_some_iff.mp h1).1
  obtain ⟨c0, rest, g1, g2, g3, g4, g5, g6⟩ := hi.inv.live h2
  unfold pushBackMut at hx
  rw [bind_ok (getVar_eq h1)] at hx
  have hcm : canMutate p s = .ok s (c0.refs == 1) := by unfold canMutate; rw [bind_ok (cell_eq g1)]; rfl
  rw [bind_ok hcm] at hx
  split at hx
  · rename_i hb
    have hr : c0.refs = 1 := beq_iff_eq.mp hb.1
    obtain ⟨b, hcm', hu⟩ := canMutate_out hi h1 he
    rw [hcm] at hcm'
    injection hcm' with _ hcm'
    have hP := out_bind (tick_P (hi.solo h1 he)) fun s1 _ hs1 =>
      construct_P (v := v) hs1 (hu (hcm' ▸ hb.1)) hb.2 (E := P triv s.vars ((some p, some xs) :: (s.vars.eraseIdx i).zip (e.eraseIdx i)))
    obtain ⟨s1, _, k1, k2⟩ := bind_inv hx
    rw [k1] at hP
    cases k2
    obtain ⟨rest', f1, _⟩ := P.front hP (hu (hcm' ▸ hb.1))
    refine ⟨p, ⟨p.ptr, p.size + 1, p.cap⟩, _, h1, ?_, f1, rfl, .inl ⟨rfl, ?_⟩⟩
    · show (s1.vars.set i _)[i]? = _
      rw [hP.vars]; simp [hlt]
    · exact (keeps_bind keeps_tick fun _ => keeps_construct) _ s1 _ k1
  · rename_i hb
    have hP := copyN_P hi.P ha h2 (k := p.size) (n := recommendUp (p.size + 1) p.cap) (by omega)
      (by have := recommendUp_le (sz := p.size + 1) (cap := p.cap) (by omega); omega)
    obtain ⟨s1, _, k1, k2⟩ := bind_inv hx
    rw [k1] at hP
    obtain ⟨s2, _, k3, k4⟩ := bind_inv (guard_inv k2)
    have hP2 := push_step (v := v) hP.1 hP.2 (by have := recommendUp_le (sz := p.size + 1) (cap := p.cap) (by omega); omega)
    rw [k3] at hP2
    have hP2 : P triv s.vars ((some ⟨a, p.size + 1, recommendUp (p.size + 1) p.cap⟩, some (xs.take p.size ++ [v])) :: s.vars.zip e) s2 := hP2
    have hP3 := replace_raw hi h1 he hP2 (E := fun _ => False)
    rw [k4] at hP3
    have hu : cnt a ((s.vars.eraseIdx i).zip (e.eraseIdx i)) = 0 := by
      have := cnt_perm (p := a) (zip_perm h1 he)
      rw [hP.2, cnt_cons] at this
      omega
    obtain ⟨rest', f1, _⟩ := P.front (vs := s'.vars) ⟨rfl, hP3.2⟩ hu
    have hw1 : s1.work = s.work + xs.length := by
      unfold copyN at k1
      rw [bind_ok (readN_eq hi.P h2 p.size (by omega))] at k1
      rw [copyRange_work k1, h3, List.take_length]
    have hw2 : s2.work = s1.work := (keeps_bind keeps_tick fun _ => keeps_construct) _ _ _ k3
    have hw3 : s'.work = s2.work := keeps_replace _ _ _ k4
    refine ⟨p, ⟨a, p.size + 1, recommendUp (p.size + 1) p.cap⟩, _, h1, ?_, f1, rfl, .inr ⟨?_, by omega, ?_⟩⟩
    · rw [hP3.1]; simp [hlt]
    · rw [h3]
    · by_cases hr : c0.refs = 1
      · refine .inr ?_
        have : ¬ p.size < p.cap := fun hlt => hb ⟨beq_iff_eq.mpr hr, hlt⟩
        omega
      · exact .inl ⟨c0, g1, hr⟩

/-- how much was copied, when the last of the pushes left a handle of this capacity and `n` elements -/
def Paid (work cap n : Nat) : Prop := work = 0 ∨ (work + 1 ≤ cap ∧ cap ≤ 2 * (n - 1)) ∨ (cap = maxSize ∧ work + 1 ≤ 2 * (n - 1))

theorem pushes_paid {i : Nat} : ∀ (vs : List α) {s s' : St α} {e : List (Option (List α))} {xs : List α} {w : Nat}, Inv triv s e →
    val e i = some xs → xs.length + vs.length ≤ maxSize →
    (xs ≠ [] → ∃ p c, s.vars[i]? = some (some p) ∧ s.mem p.ptr = some c ∧ c.refs = 1 ∧ Paid w p.cap xs.length) → (xs = [] → w = 0) →
    Pushes triv i vs s s' → ∃ w', s'.work + w = s.work + w' ∧ (vs ≠ [] → w' < 2 * (xs.length + vs.length)) ∧
      Inv triv s' (e.set i (some (xs ++ vs)))
  | [], s, s', e, xs, w, hi, hv, _, _, _, hp => by
    cases hp
    refine ⟨w, by omega, fun h => absurd rfl h, ?_⟩
    rw [List.append_nil, set_same (val_get hv).2]; exact hi
  | v :: vs, s, s', e, xs, w, hi, hv, hm, hpaid, hz, hp => by
    obtain ⟨a, s1, ha, hx, hrest⟩ := hp
    rw [List.length_cons] at hm
    obtain ⟨hi1, p, q, c, h1, h2, h3, h4, h5⟩ := pushBackMut_out hi ha hv (by omega) hx
    have hv1 : val (e.set i (some (xs ++ [v]))) i = some (xs ++ [v]) := by
      obtain ⟨hi0, he⟩ := val_get hv
      have hlt : i < e.length := (List.getElem?_eq_some_iff.mp he).1
      unfold val; rw [if_neg hi0]; simp [hlt]
    obtain ⟨p', hp1, hp2⟩ := hi.var (val_get hv).2
    rw [h1] at hp1; cases hp1
    have hsz := hi.size hp2
    have hw : ∃ w1, s1.work + w = s.work + w1 ∧ Paid w1 q.cap (xs ++ [v]).length := by
      rw [List.length_append, List.length_singleton]
      by_cases hxs : xs = []
      · refine ⟨0, ?_, .inl rfl⟩
        have := hz hxs
        rw [hxs] at h5
        rcases h5 with ⟨_, h⟩ | ⟨_, h, _⟩
        · omega
        · rw [List.length_nil] at h; omega
      · obtain ⟨p', c', k1, k2, k3, k4⟩ := hpaid hxs
        rw [h1] at k1; cases k1
        have hpos : 0 < xs.length := List.length_pos_iff.mpr hxs
        rcases h5 with ⟨g1, g2⟩ | ⟨g1, g2, g3⟩
        · refine ⟨w, by omega, ?_⟩
          rw [g1]
          unfold Paid at k4 ⊢
          omega
        · have hcap : xs.length = p.cap := by
            rcases g3 with ⟨d, d1, d2⟩ | g3
            · rw [k2] at d1; cases d1; exact absurd k3 d2
            · exact g3
          clear g3
          refine ⟨w + xs.length, by omega, ?_⟩
          rw [g1]
          unfold recommendUp
          unfold Paid at k4 ⊢
          rw [if_neg (by omega)]
          split
          · omega
          · rw [Nat.max_eq_left (by omega)]
            omega
    obtain ⟨w1, hw1, hpd⟩ := hw
    have hlen : (xs ++ [v]).length + vs.length ≤ maxSize := by simp; omega
    obtain ⟨w', k1, k2, k3⟩ := pushes_paid vs hi1 hv1 hlen (fun _ => ⟨q, c, h2, h3, h4, hpd⟩) (fun h => by simp at h) hrest
    refine ⟨w', by omega, fun _ => ?_, ?_⟩
    · by_cases hvs : vs = []
      · subst hvs
        cases hrest
        have : w' = w1 := by omega
        subst this
        have e1 : (xs ++ [v]).length = xs.length + 1 := by simp
        have e2 : [v].length = 1 := rfl
        unfold Paid at hpd
        omega
      · have := k2 hvs
        have e1 : (xs ++ [v]).length = xs.length + 1 := by simp
        rw [List.length_cons]
        omega
    · rw [List.set_set, List.append_assoc] at k3
      exact k3

/-- **C30**: pushing `n > 0` elements one after the other to an empty transient copies fewer than `2 n` elements from one
place to another, and gives the list of these -/
theorem C30_amortised (h : Reach triv mv s) {i : Nat} (hv : val (vals s) i = some []) {vs : List α} (hvs : vs ≠ [])
    (hm : vs.length ≤ maxSize) (hp : Pushes triv i vs s s') :
    s'.work < s.work + 2 * vs.length ∧ val (vals s') i = some vs := by
  have hi := reach_inv h
  obtain ⟨w', h1, h2, h3⟩ := pushes_paid vs (w := 0) hi hv (by simpa using hm) (fun h => absurd rfl h) (fun _ => rfl) hp
  have := h2 hvs
  refine ⟨by simp at this; omega, ?_⟩
  obtain ⟨hi0, he⟩ := val_get hv
  have hlt : i < (vals s).length := (List.getElem?_eq_some_iff.mp he).1
  rw [h3.vals]
  unfold val; rw [if_neg hi0]; simp [hlt]

end

/-! ### The code violates C29: `take` on a transient -/

/-- Whenever `take_mut` works in place on elements that have to be destroyed, and fewer elements are to be left, the behaviour
is undefined: line 324 destroys what is behind the elements, and not the last elements. -/
theorem C29_take_mut {mv : α → α} {s : St α} (h : Reach false mv s) {i n a : Nat} {xs : List α} (hv : val (vals s) i = some xs)
    (hn : n < xs.length) {p : H} {c : Cell α} (hp : s.vars[i]? = some (some p)) (hc : s.mem p.ptr = some c) (h1 : c.refs = 1) :
    exec false mv a (.takeMut i n) s = .ub := by
  have hi := reach_inv h
  obtain ⟨q, h2, h3⟩ := hi.var (val_get hv).2
  rw [hp] at h2; cases h2
  obtain ⟨d, rest, g1, g2, g3, g4, g5, _⟩ := hi.inv.live h3
  rw [hc] at g1; cases g1
  show takeMut false i n a s = _
  unfold takeMut
  have hcm : canMutate p s = .ok s true := by unfold canMutate; rw [bind_ok (cell_eq hc), h1]; rfl
  rw [bind_ok (getVar_eq hp), bind_ok hcm, if_pos rfl]
  have hd : destroyN false p.ptr p.size (p.size - n) s = .ub := by
    obtain ⟨k, hk⟩ : ∃ k, p.size - n = k + 1 := ⟨p.size - n - 1, by omega⟩
    unfold destroyN
    rw [hk, if_neg (by decide)]
    unfold destroyLoop
    have : (destroy1 p.ptr p.size : M α Unit) s = .ub := by
      unfold destroy1
      rw [bind_ok (cell_eq hc)]
      have hne : c.slots[p.size]? = rest[0]? := by
        rw [g2, g4, List.getElem?_append_right (by simp)]; simp
      rw [hne]
      cases hx : rest[0]? with
      | none => rfl
      | some x => rw [g5 rfl _ (List.mem_of_getElem? hx)]; rfl
    unfold M.bind; rw [this]
  unfold M.bind; rw [hd]

/-! ### Examples -/

/-- `Safe`, decidable -/
def safeB (triv : Bool) : Op α → List (Option (List α)) → Bool
  | .takeMut i n, e => triv || match val e i with | some xs => n == xs.length | none => true
  | _, _ => true

theorem safe_of {triv : Bool} {op : Op α} {e : List (Option (List α))} (h : safeB triv op e = true) : Safe triv op e := by
  cases triv with
  | true => exact .inl rfl
  | false =>
    refine .inr fun i n xs ho hv => ?_
    subst ho
    simp only [safeB, hv, Bool.false_or, beq_iff_eq] at h
    exact h

/-- a run; an exception does not end it -/
def run (triv : Bool) (mv : α → α) : List (Ev α) → St α → Option (St α)
  | [], s => some s
  | ev :: evs, s =>
    if (s.mem ev.a).isNone ∧ (spec ev.op (vals s)).isSome ∧ safeB triv ev.op (vals s) = true then
      match exec triv mv ev.a ev.op { s with fault := ev.fault } with
      | .ok s' _ => run triv mv evs s'
      | .thrown s' => run triv mv evs s'
      | _ => none
    else none

theorem reach_run {triv : Bool} {mv : α → α} : ∀ (evs : List (Ev α)) {s s' : St α}, Reach triv mv s → run triv mv evs s = some s' → Reach triv mv s'
  | [], s, s', h, hr => by cases hr; exact h
  | ev :: evs, s, s', h, hr => by
    unfold run at hr
    split at hr
    · rename_i hc
      have ha := Option.isNone_iff_eq_none.mp hc.1
      split at hr
      · exact reach_run evs (.ok ev h ha hc.2.1 (safe_of hc.2.2) (by assumption)) hr
      · exact reach_run evs (.thrown ev h ha hc.2.1 (safe_of hc.2.2) (by assumption)) hr
      · cases hr
    · cases hr

/-- an array is made and copied; the copy pushes (copying the node, as it is shared, and then growing), an exception leaves it
as it was; the first is updated in place and persistently, and moved from -/
def exEvs : List (Ev Nat) :=
  [⟨.fromRange [10, 20, 30], 1, none⟩, ⟨.copyCtor 1, 2, none⟩, ⟨.pushBackMut 2 40, 3, none⟩, ⟨.pushBackMut 2 50, 4, some 0⟩,
   ⟨.pushBackMut 2 60, 4, none⟩, ⟨.setMut 1 0 11, 5, none⟩, ⟨.update 1 1 (· + 1), 5, none⟩, ⟨.updateMut 1 2 (· + 1), 6, some 0⟩,
   ⟨.moveCtor 1, 6, none⟩, ⟨.copyAssign 1 2, 6, none⟩, ⟨.take 1 2, 7, none⟩, ⟨.destroy 2, 8, none⟩, ⟨.dataMutWrite 1 0 99, 8, none⟩]

example : (run false (fun _ => 0) exEvs (start 0)).map vals =
    some [some [], some [99, 20, 30, 40, 60], none, some [11, 21, 30], some [11, 20, 0], some [10, 20]] := by decide +kernel

/-- the example is reachable: with elements that have to be destroyed -/
example : ∃ s, Reach false (fun _ => 0) s ∧ vals s =
    [some [], some [99, 20, 30, 40, 60], none, some [11, 21, 30], some [11, 20, 0], some [10, 20]] := by
  have h : ((run false (fun _ => 0) exEvs (start 0)).isSome) = true := by decide +kernel
  obtain ⟨s, hs⟩ := Option.isSome_iff_exists.mp h
  refine ⟨s, reach_run exEvs (.start 0) hs, ?_⟩
  have : (run false (fun _ => 0) exEvs (start 0)).map vals =
    some [some [], some [99, 20, 30, 40, 60], none, some [11, 21, 30], some [11, 20, 0], some [10, 20]] := by decide +kernel
  rw [hs] at this
  exact Option.some.inj this

/-- and the case of `C29_take_mut` is, too -/
example : ∃ s, Reach false id s ∧ val (vals s) 1 = some [1, 2, 3] ∧ (spec (.takeMut 1 1) (vals s)).isSome ∧
    exec false id 7 (.takeMut 1 1) s = .ub := by
  have h : ((run false id [⟨.fromRange [1, 2, 3], 1, none⟩] (start 0)).isSome) = true := by decide +kernel
  obtain ⟨s, hs⟩ := Option.isSome_iff_exists.mp h
  have hr := reach_run _ (.start 0) hs
  have k : (run false id [⟨.fromRange [1, 2, 3], 1, none⟩] (start 0)).map (fun s => (val (vals s) 1, (spec (.takeMut 1 1) (vals s)).isSome,
    s.vars, (s.mem 1).map (·.refs))) = some (some [1, 2, 3], true, [some ⟨0, 0, 1⟩, some ⟨1, 3, 3⟩], some 1) := by decide +kernel
  rw [hs] at k
  simp only [Option.map_some, Option.some.injEq, Prod.mk.injEq] at k
  obtain ⟨c, hc, hc1⟩ := Option.map_eq_some_iff.mp k.2.2.2
  refine ⟨s, hr, k.1, k.2.1, C29_take_mut hr k.1 (by decide) (p := ⟨1, 3, 3⟩) (by rw [k.2.2.1]; rfl) hc hc1⟩

/-- 5 pushes copy 1 + 2 + 4 elements, fewer than 10 -/
example : (run true id (.mk (.fromRange []) 1 none :: (List.range 5).map fun k => ⟨.pushBackMut 1 k, k + 1, none⟩) (start 0)).map
    (fun s => (s.work, val (vals s) 1)) = some (7, some [0, 1, 2, 3, 4]) := by decide +kernel

end Arr
