import Verif.Array.GcStep

/-!
# Arrays and transients under a garbage collector: theorems (C28, C11)
-/

namespace ArrGc

variable {α : Type} {triv : Bool} {mv : α → α} {ea ew a : Nat} {f : Option Nat} {s s' : St α} {e e' : Env α}

/-! ### What variables show -/

theorem allSome_map : ∀ (xs : List α), allSome (xs.map some) = some xs
  | [] => rfl
  | x :: xs => by simp [allSome, allSome_map xs]

theorem look_eq {m : Mem α} {p : Nat} {c : Cell α} {xs : List α} {rest : List (Option α)} (hm : m p = some c) (hs : c.slots = xs.map some ++ rest) :
    look m p xs.length = some xs := by
  unfold look
  rw [hm, Option.bind_some, if_pos (by rw [hs]; simp), hs, List.take_left' (by simp), allSome_map]

theorem Rep.seen {m : Mem α} {n : Nat} {o : Option Obj} {v : Option (Val α)} (h : Rep triv m n o v) : seen1 m o v = v := by
  match o, v, h with
  | none, none, _ => rfl
  | some (.tr _), some .gone, _ => rfl
  | some (.arr x), some (.arr xs), h =>
    obtain ⟨h1, c, h2, h3⟩ := h
    simp only [seen1]
    rw [h1, look_eq (rest := []) h2 (by simpa using h3)]; rfl
  | some (.tr x), some (.tr xs), h =>
    obtain ⟨_, _, c, h2, h3⟩ := h
    obtain ⟨rest, h4, _⟩ := h3.slots
    simp only [seen1]
    rw [h3.size, look_eq h2 h4]; rfl

theorem seen_inv (hi : InvS triv ea ew s e) : seen s e = e := by
  unfold seen
  apply List.ext_getElem?
  intro i
  rw [List.getElem?_mapIdx]
  by_cases hl : i < s.vars.length
  · have hle : i < e.length := by rw [← hi.len]; exact hl
    have := (hi.rep i).seen
    rw [List.getElem?_eq_getElem hl, List.getElem?_eq_getElem hle, Option.map_some]
    unfold nth at this ⊢
    rw [List.getElem?_eq_getElem hl, List.getElem?_eq_getElem hle] at this
    rw [List.getElem?_eq_getElem hle]
    exact congrArg some this
  · rw [List.getElem?_eq_none (by omega), List.getElem?_eq_none (by rw [← hi.len]; omega)]; rfl

/-- only those moved from matter -/
theorem seen_congr (h : ∀ i, nth e i = some .gone ↔ nth e' i = some .gone) : seen s e = seen s e' := by
  have key : ∀ (o : Option Obj) (v w : Option (Val α)), (v = some .gone ↔ w = some .gone) → seen1 s.mem o v = seen1 s.mem o w := by
    intro o v w hvw
    by_cases hv : v = some .gone
    · rw [hv, hvw.mp hv]
    · have hw : w ≠ some .gone := fun h => hv (hvw.mpr h)
      rcases o with _ | o <;> rcases v with _ | _ | _ | _ <;> rcases w with _ | _ | _ | _ <;>
        first | exact absurd rfl hv | exact absurd rfl hw | rfl | (cases o <;> rfl)
  unfold seen
  apply List.ext_getElem?
  intro i
  rw [List.getElem?_mapIdx, List.getElem?_mapIdx]
  cases s.vars[i]? with
  | none => rfl
  | some o => exact congrArg some (key o _ _ (h i))

theorem throw_gone {op : Op α} {e'' : Env α} (h : specThrow mv op e e'') (i : Nat) : nth e i = some .gone ↔ nth e'' i = some .gone := by
  rcases h with rfl | ⟨j, idx, g, xs, _, h1, rfl⟩
  · rfl
  · rw [nth_set (nth_lt h1)]
    by_cases hj : i = j
    · rw [if_pos hj, hj, h1]; simp
    · rw [if_neg hj]

theorem start_inv (h : ea ≠ ew) : InvS triv ea ew (start ea ew : St α) [] := by
  refine ⟨rfl, fun _ => trivial, ?_, ?_, ?_, ?_, upd_self, Nat.one_pos⟩
  · intro i j t u xs ys _ h1; simp [start, nth] at h1
  · intro i j t xs o v c _ h1; simp [start, nth] at h1
  · intro p c hc
    simp only [start, upd] at hc
    split at hc
    · cases hc; exact Nat.one_pos
    · split at hc
      · cases hc; exact Nat.one_pos
      · cases hc
  · show upd _ ew _ ea = _
    rw [upd_ne h, upd_self]

theorem reach_inv (h : Reach triv mv ea ew s e) : InvS triv ea ew s e := by
  induction h with
  | start h => exact start_inv h
  | @ok s s' e e' a f op h ha hs hsafe hr ih =>
    have hg := step_good (mv := mv) (f := f) ih ha hs hsafe
    rw [hr] at hg
    rw [seen_inv hg]; exact hg
  | @thrown s s' e e' a f op h ha hs hsafe hr ih =>
    have hg := step_good (mv := mv) (f := f) ih ha hs hsafe
    rw [hr] at hg
    obtain ⟨_, e'', h1, h2⟩ := hg
    rw [seen_congr (throw_gone h1), seen_inv h2]; exact h2

/-! ### C28 -/

/-- **C28** without reference counting: in every state that programs with arrays and transients reach, every allowed operation
does to all variables what the operation on lists does: the result, or the transient operated on, gets the new list, and all
other arrays and transients keep theirs.  If it throws, which it does only if an allocation, a copy or a user's function throws,
all variables are as before (an update of a transient may leave the element moved from).  Nothing is undefined.  The collector
may release any memory that no variable points to. -/
theorem C28_gc_operations (h : Reach triv mv ea ew s e) (ha : s.mem a = none) {op : Op α} (hs : spec op e = some e') (hsafe : Safe triv op s) :
    match step triv mv ea ew a f op s with
    | .ok s' => seen s' e' = e'
    | .thrown s' => f ≠ none ∧ specThrow mv op e (seen s' e)
    | .ub => False
    | .no => ∃ p, op = .collect p := by
  have hg := step_good (mv := mv) (f := f) (reach_inv h) ha hs hsafe
  revert hg
  cases step triv mv ea ew a f op s with
  | ok s' => exact fun hg => seen_inv hg
  | thrown s' =>
    rintro ⟨h1, e'', h2, h3⟩
    refine ⟨h1, ?_⟩
    rw [seen_congr (throw_gone h2), seen_inv h3]; exact h2
  | ub => exact id
  | no => exact id

/-- **C28** without reference counting: in every reachable state an array has exactly the memory that its elements need, and the
size of a transient is at most its capacity, which is what its node was allocated for -/
theorem C28_gc_shows (h : Reach triv mv ea ew s e) {i : Nat} :
    (∀ xs, nth e i = some (.arr xs) → ∃ x c, nth s.vars i = some (.arr x) ∧ s.mem x.ptr = some c ∧ x.size = xs.length ∧ c.slots = xs.map some) ∧
    (∀ xs, nth e i = some (.tr xs) → ∃ t c, nth s.vars i = some (.tr t) ∧ s.mem t.ptr = some c ∧ t.size = xs.length ∧ t.size ≤ t.cap ∧
      c.slots.length = t.cap ∧ c.slots.take t.size = xs.map some) := by
  have hi := reach_inv h
  constructor
  · intro xs hx
    obtain ⟨x, c, h1, h2, h3, h4⟩ := obj_arr hi hx
    exact ⟨x, c, h1, h3, h2, h4⟩
  · intro xs hx
    obtain ⟨t, c, h1, h2, h3⟩ := obj_tr hi hx
    obtain ⟨rest, h4, _⟩ := h3.slots
    refine ⟨t, c, h1, h2, h3.size, ?_, h3.cap, ?_⟩
    · rw [← h3.cap, h4, h3.size]; simp
    · rw [h4, h3.size, List.take_left' (by simp)]

/-- the elements of a variable -/
def Val.list : Val α → Option (List α)
  | .arr xs => some xs
  | .tr xs => some xs
  | .gone => none

/-- `size()` of a variable -/
def Obj.size : Obj → Nat
  | .arr x => x.size
  | .tr t => t.size

theorem reads (h : Reach triv mv ea ew s e) {i : Nat} {v : Val α} {xs : List α} (hv : nth e i = some v) (hx : v.list = some xs) :
    ∃ o c rest, nth s.vars i = some o ∧ s.mem o.ptr = some c ∧ o.size = xs.length ∧ c.slots = xs.map some ++ rest := by
  have hi := reach_inv h
  cases v with
  | arr ys =>
    cases hx
    obtain ⟨x, c, h1, h2, h3, h4⟩ := obj_arr hi hv
    exact ⟨_, c, [], h1, h3, h2, by simpa using h4⟩
  | tr ys =>
    cases hx
    obtain ⟨t, c, h1, h2, h3⟩ := obj_tr hi hv
    obtain ⟨rest, h4, _⟩ := h3.slots
    exact ⟨_, c, rest, h1, h2, h3.size, h4⟩
  | gone => cases hx

/-- `operator[]` of arrays and transients reads the element of the list -/
theorem C28_gc_get (h : Reach triv mv ea ew s e) {i idx : Nat} {v : Val α} {xs : List α} (hv : nth e i = some v) (hl : v.list = some xs)
    (hx : idx < xs.length) : ∃ o, nth s.vars i = some o ∧ o.size = xs.length ∧ get o.ptr idx s.mem f = .ok s.mem f xs[idx] := by
  obtain ⟨o, c, rest, h1, h2, h3, h4⟩ := reads h hv hl
  exact ⟨o, h1, h3, read_eq h2 h4 hx⟩

/-- **C11** for arrays and transients without reference counting: `at` throws exactly when the index is out of range -/
theorem C11_gc_array_at (h : Reach triv mv ea ew s e) {i : Nat} {v : Val α} {xs : List α} (hv : nth e i = some v) (hl : v.list = some xs) (idx : Nat) :
    ∃ o, nth s.vars i = some o ∧ getCheck o.ptr o.size idx s.mem f = .ok s.mem f xs[idx]? := by
  obtain ⟨o, c, rest, h1, h2, h3, h4⟩ := reads h hv hl
  refine ⟨o, h1, ?_⟩
  unfold getCheck
  split
  · rw [List.getElem?_eq_none (by omega)]; rfl
  · rw [bind_ok (read_eq h2 h4 (by omega)), List.getElem?_eq_getElem (by omega)]; rfl

theorem equalLoop_eq [BEq α] {m : Mem α} {p q : Nat} {c d : Cell α} {xs ys : List α} {r1 r2 : List (Option α)} (hp : m p = some c) (hq : m q = some d)
    (hc : c.slots = xs.map some ++ r1) (hd : d.slots = ys.map some ++ r2) (hl : xs.length = ys.length) :
    ∀ (n k : Nat), k + n = xs.length → equalLoop (· == ·) p q k n m f = .ok m f (xs.drop k == ys.drop k)
  | 0, k, hk => by
    rw [List.drop_of_length_le (by omega), List.drop_of_length_le (by omega)]; rfl
  | n + 1, k, hk => by
    unfold equalLoop
    rw [bind_ok (read_eq hp hc (by omega)), bind_ok (read_eq hq hd (by omega)), List.drop_eq_getElem_cons (i := k) (l := xs) (by omega),
      List.drop_eq_getElem_cons (i := k) (l := ys) (by omega)]
    split
    · next hb => rw [equalLoop_eq hp hq hc hd hl n (k + 1) (by omega)]; rw [List.cons_beq_cons, hb, Bool.true_and]
    · next hb => rw [List.cons_beq_cons, Bool.eq_false_iff.mpr hb, Bool.false_and]; rfl

/-- `operator==` of arrays compares the lists -/
theorem C28_gc_equals [BEq α] [ReflBEq α] (h : Reach triv mv ea ew s e) {i j : Nat} {xs ys : List α} (hx : nth e i = some (.arr xs))
    (hy : nth e j = some (.arr ys)) : ∃ x y, nth s.vars i = some (.arr x) ∧ nth s.vars j = some (.arr y) ∧
      A.equals (· == ·) x y s.mem f = .ok s.mem f (xs == ys) := by
  have hi := reach_inv h
  obtain ⟨x, c, h1, h2, h3, h4⟩ := obj_arr hi hx
  obtain ⟨y, d, k1, k2, k3, k4⟩ := obj_arr hi hy
  refine ⟨x, y, h1, k1, ?_⟩
  unfold A.equals
  split
  · next hp =>
    rw [hp, k3] at h3
    cases h3
    have : xs = ys := by
      have := h4.symm.trans k4
      exact List.map_injective_iff.mpr (fun _ _ h => Option.some.inj h) this
    rw [this, beq_self_eq_true]; rfl
  · split
    · rw [h2]
      simpa using equalLoop_eq (f := f) (r1 := []) (r2 := []) h3 k3 (by simpa using h4) (by simpa using k4) (by omega) xs.length 0 (by omega)
    · have : (xs == ys) = false := by
        by_contra hb
        have := List.length_eq_of_beq (by simpa using hb)
        omega
      rw [this]; rfl

/-- `set` on a transient whose node does not have its token copies all elements, and the copy does not get the token either
(`with_capacity.hpp` 246 has `copy_n` where `update_mut` has `copy_e`): the next `set` copies all elements again. -/
theorem gc_set_never_owns {t t' : Tr} {c : Cell α} {xs : List α} {m m' : Mem α} {f' : Option Nat} {idx : Nat} {v : α} (h0 : m a = none)
    (hm : m t.ptr = some c) (hh : Holds triv c t xs) (hi : idx < xs.length) (ht : 0 < t.tok) (hc : c.tok ≠ t.tok)
    (hr : Tr.assoc triv t idx v a m f = .ok m' f' t') : t'.ptr = a ∧ ∃ c', m' a = some c' ∧ c'.tok ≠ t'.tok ∧ Holds triv c' t' (xs.set idx v) := by
  have hz := hh.size
  have hle := Tr.le_cap h0 hm hh
  obtain ⟨rest, hs, _⟩ := hh.slots
  have h1 : Out f (Tr.assoc triv t idx v a m f) (fun m' b => b = { t with ptr := a } ∧ m' = upd m a (some (full 0 t.cap (xs.set idx v)))) (fun m' => m' = m) := by
    unfold Tr.assoc
    rw [bind_ok (canMutate_eq hm), if_neg (by simpa using hc)]
    refine out_bind (copyN_out h0 hm hs (by omega) (by omega)) ?_
    rintro _ _ f' rfl
    rw [List.take_of_length_le (by omega), hz]
    exact finish_out h0 hle (assigned_out hi)
  rw [hr] at h1
  obtain ⟨⟨rfl, rfl⟩, _⟩ := h1
  exact ⟨rfl, _, upd_self, by show 0 ≠ t.tok; omega, holds_full (t := { t with ptr := a }) (by simpa using hz) (by simpa using hle)⟩

/-! ### Examples -/

/-- a program: all operations succeed -/
def runs (triv : Bool) : List (Nat × Op Nat) → St Nat → Option (St Nat)
  | [], s => some s
  | (a, op) :: l, s => match step triv id 0 1 a none op s with
    | .ok s => runs triv l s
    | _ => none

/-- `array{1, 2}`, its transient, two `push_back`s, `persistent() &`, another `push_back`, `set`, the collector, `persistent() &&` -/
def prog : List (Nat × Op Nat) := [(10, .fromRange [1, 2]), (11, .transient 0), (11, .pushBack 1 3), (12, .pushBack 1 4), (12, .persistent 1),
  (12, .pushBack 1 5), (13, .set 1 0 9), (13, .copyCtor 1), (13, .take 3 1), (14, .persistentMove 1), (15, .destroy 0), (15, .collect 10)]

/-- what the lists are after a program -/
def specs : List (Nat × Op Nat) → Env Nat → Option (Env Nat)
  | [], e => some e
  | (_, op) :: l, e => (spec op e).bind (specs l)

/-- the lists, to compare -/
def shown (e : Env Nat) : List (Option (List Nat)) := e.map fun v => v.bind Val.list

example : (specs prog []).map shown = some [none, none, some [1, 2, 3, 4], some [9], some [9, 2, 3, 4, 5]] := by decide +kernel

example : ((runs false prog (start 0 1)).bind fun s => (specs prog []).map fun e => shown (seen s e)) =
    some [none, none, some [1, 2, 3, 4], some [9], some [9, 2, 3, 4, 5]] := by decide +kernel

/-- the addresses of a program are free when they are used, and `take` is safe -/
def fits (triv : Bool) : List (Nat × Op Nat) → St Nat → Bool
  | [], _ => true
  | (a, op) :: l, s => (s.mem a).isNone && (match op with
      | .take i n => match nth s.vars i with
        | some (.tr t) => match s.mem t.ptr with
          | some c => triv || n == t.size || c.tok != t.tok
          | none => true
        | _ => true
      | _ => true) && (match step triv id 0 1 a none op s with
        | .ok s => fits triv l s
        | _ => false)

theorem reach_runs {triv : Bool} : ∀ (l : List (Nat × Op Nat)) (s s' : St Nat) (e e' : Env Nat), Reach triv id 0 1 s e → fits triv l s = true →
    runs triv l s = some s' → specs l e = some e' → Reach triv id 0 1 s' e'
  | [], s, s', e, e', h, _, hr, hs => by cases hr; cases hs; exact h
  | (a, op) :: l, s, s', e, e', h, hf, hr, hs => by
    unfold runs at hr
    unfold fits at hf
    unfold specs at hs
    simp only [Bool.and_eq_true] at hf
    obtain ⟨⟨h1, h2⟩, h3⟩ := hf
    cases hsp : spec op e with
    | none => rw [hsp] at hs; cases hs
    | some e1 =>
      rw [hsp, Option.bind_some] at hs
      have ha : s.mem a = none := by simpa using h1
      have hsafe : Safe triv op s := by
        rintro i n t c rfl ht hc
        simp only [ht, hc] at h2
        simpa [or_assoc] using h2
      cases hst : step triv id 0 1 a none op s with
      | ok s1 =>
        rw [hst] at hr h3
        have hR := Reach.ok h ha hsp hsafe hst
        have := C28_gc_operations (f := none) h ha hsp hsafe
        rw [hst] at this
        rw [this] at hR
        exact reach_runs l s1 s' e1 e' hR h3 hr hs
      | thrown _ => rw [hst] at hr; cases hr
      | ub => rw [hst] at hr; cases hr
      | no => rw [hst] at hr; cases hr

theorem reach_prog {triv : Bool} {l : List (Nat × Op Nat)} (h1 : fits triv l (start 0 1) = true) (h2 : (specs l []).isSome = true)
    (h3 : (runs triv l (start 0 1)).isSome = true) : ∃ s e, runs triv l (start 0 1) = some s ∧ specs l [] = some e ∧ Reach triv id 0 1 s e := by
  obtain ⟨e, he⟩ := Option.isSome_iff_exists.mp h2
  obtain ⟨s, hs⟩ := Option.isSome_iff_exists.mp h3
  exact ⟨s, e, hs, he, reach_runs l _ s [] e (.start (by decide)) h1 hs he⟩

/-- the hypotheses of the theorems are met after this program -/
example : ∃ s e, runs false prog (start 0 1) = some s ∧ specs prog [] = some e ∧ Reach false id 0 1 s e :=
  reach_prog (by decide +kernel) (by decide +kernel) (by decide +kernel)

/-- an operation that throws: in place, the first thing that may throw in `update` is the user's function; the element is moved from -/
example : (match (runs false [(10, .fromRange [1, 2]), (11, .transient 0), (11, .pushBack 1 3)] (start 0 1)).map
      (step false (fun _ => 0) 0 1 12 (some 0) (.update 1 1 (· + 5))) with
    | some (.thrown s) => shown (seen s [some (.arr []), some (.tr [])])
    | _ => []) = [some [1, 2], some [1, 0, 3]] := by decide +kernel

/-- Why a transient must not be used after `std::move(t).persistent()`: it still has the token of the node that the array now
uses, and `set` changes the array. -/
example : ((runs false [(10, .fromRange [1, 2]), (11, .transient 0), (11, .pushBack 1 3), (12, .pushBack 1 4), (12, .persistentMove 1), (12, .set 1 0 9)]
      (start 0 1)).map fun s => shown (seen s [some (.arr []), some .gone, some (.arr [])])) =
    some [some [1, 2], none, some [9, 2, 3, 4]] := by decide +kernel

/-- two `set`s on the transient of an array copy it twice, two `update`s once -/
example : (((runs false [(10, .fromRange [1, 2]), (11, .transient 0), (11, .set 1 0 9), (12, .set 1 1 9)] (start 0 1)).bind fun s => nth s.vars 1).map Obj.ptr,
    ((runs false [(10, .fromRange [1, 2]), (11, .transient 0), (11, .update 1 0 (· + 1)), (12, .update 1 1 (· + 1))] (start 0 1)).bind fun s => nth s.vars 1).map Obj.ptr) =
    (some 12, some 11) := by decide +kernel

end ArrGc
