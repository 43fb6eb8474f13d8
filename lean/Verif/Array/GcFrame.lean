import Verif.Array.GcTokens

/-!
# Operations on transients of arrays change no node of another variable (garbage collection; C28, C57)
-/

namespace ArrGc

variable {α β γ : Type} {triv : Bool} {mv : α → α} {ea ew a p q : Nat} {f : Option Nat} {s s' : St α} {e e' : Env α}

/-- the node at `p` stays as it is, also when something throws -/
def Leaves (p : Nat) (x : M α β) : Prop := ∀ m f, match x m f with
  | .ok m' _ _ => m' p = m p
  | .thrown m' _ => m' p = m p
  | .ub => True

theorem Leaves.ret {b : β} : Leaves p (M.ret b : M α β) := fun _ _ => rfl
theorem Leaves.undef : Leaves p (undef : M α β) := fun _ _ => trivial
theorem Leaves.tick : Leaves p (tick : M α Unit) := fun m f => by
  rcases f with _ | _ | k <;> rfl
theorem Leaves.cell : Leaves p (cell q : M α (Cell α)) := fun m f => by
  unfold ArrGc.cell
  cases m q <;> trivial
theorem Leaves.put {c : Cell α} (h : p ≠ q) : Leaves p (put q c) := fun m f => by
  show upd m q (some c) p = m p
  unfold upd; rw [if_neg h]
theorem Leaves.bind {x : M α β} {k : β → M α γ} (hx : Leaves p x) (hk : ∀ b, Leaves p (k b)) : Leaves p (x.bind k) := fun m f => by
  have h1 := hx m f
  unfold M.bind
  revert h1
  cases x m f with
  | ok m' f' b =>
    intro h1
    have h2 := hk b m' f'
    revert h2
    dsimp only
    cases k b m' f' with
    | ok _ _ _ => exact fun h2 => h2.trans h1
    | thrown _ _ => exact fun h2 => h2.trans h1
    | ub => exact id
  | thrown m' f' => exact id
  | ub => exact id
theorem Leaves.guard {x : M α β} {h : M α Unit} (hx : Leaves p x) (hh : Leaves p h) : Leaves p (x.guard h) := fun m f => by
  have h1 := hx m f
  unfold M.guard
  revert h1
  cases x m f with
  | ok m' f' b => exact id
  | thrown m' f' =>
    intro h1
    have h2 := hh m' f'
    revert h2
    dsimp only
    cases h m' f' with
    | ok _ _ _ => exact fun h2 => h2.trans h1
    | thrown _ _ => exact fun _ => trivial
    | ub => exact id
  | ub => exact id

section
variable (h : p ≠ q)
include h

theorem Leaves.construct {i : Nat} {v : α} : Leaves p (construct triv q i v) := by
  refine .bind .cell fun c => ?_
  split
  · exact .put h
  · split
    · exact .put h
    · exact .undef
  · exact .undef
theorem Leaves.assign {i : Nat} {v : α} : Leaves p (assign q i v) := by
  refine .bind .cell fun c => ?_
  split
  · exact .put h
  · exact .undef
theorem Leaves.destroy1 {i : Nat} : Leaves p (destroy1 q i : M α Unit) := by
  refine .bind .cell fun c => ?_
  split
  · exact .put h
  · exact .undef
theorem Leaves.destroyLoop : ∀ (n i : Nat), Leaves p (destroyLoop q i n : M α Unit)
  | 0, _ => .ret
  | n + 1, i => .bind (.destroy1 h) fun _ => Leaves.destroyLoop n (i + 1)
theorem Leaves.destroyN {i n : Nat} : Leaves p (destroyN triv q i n : M α Unit) := by
  unfold ArrGc.destroyN
  split
  · exact .ret
  · exact .destroyLoop h _ _
theorem Leaves.dealloc {n : Nat} : Leaves p (dealloc triv q n : M α Unit) := by
  refine .bind .cell fun c => ?_
  split
  · intro m f
    show upd m q none p = m p
    unfold upd; rw [if_neg h]
  · exact .undef
theorem Leaves.deleteN {i n : Nat} : Leaves p (deleteN triv q i n : M α Unit) := .bind (.destroyN h) fun _ => .dealloc h
theorem Leaves.makeN {n : Nat} : Leaves p (makeN q n : M α Unit) := .bind .tick fun _ => .put h
theorem Leaves.uninitCopy : ∀ (xs : List α) (k : Nat), Leaves p (uninitCopy triv q k xs)
  | [], _ => .ret
  | _ :: xs, k => .bind (.guard (.bind .tick fun _ => .construct h) (.destroyN h)) fun _ => Leaves.uninitCopy xs (k + 1)
theorem Leaves.copyRange {n : Nat} {xs : List α} : Leaves p (copyRange triv q n xs) := .bind (.makeN h) fun _ => .guard (.uninitCopy h _ _) (.dealloc h)
theorem Leaves.own {t : Nat} : Leaves p (own q t : M α Unit) := .bind .cell fun _ => .put h
end

theorem Leaves.read {i : Nat} : Leaves p (read q i : M α α) := by
  refine .bind .cell fun c => ?_
  split
  · exact .ret
  · exact .undef
theorem Leaves.readN : ∀ n, Leaves p (readN q n : M α (List α))
  | 0 => .ret
  | n + 1 => .bind (Leaves.readN n) fun _ => .bind .read fun _ => .ret
theorem Leaves.copyN {n r k : Nat} (h : p ≠ q) : Leaves p (copyN triv q n r k : M α Unit) := .bind (.readN _) fun _ => .copyRange h
theorem Leaves.copyE {t n r k : Nat} (h : p ≠ q) : Leaves p (copyE triv t q n r k : M α Unit) := .bind (.copyN h) fun _ => .own h
theorem Leaves.updateElem {i : Nat} {g : α → α} (h : p ≠ q) : Leaves p (updateElem mv q i g) :=
  .bind .read fun _ => .bind (.assign h) fun _ => .bind .tick fun _ => .assign h

/-! ### Arrays -/

section
variable (h : p ≠ a)
include h
theorem Leaves.fromRange {xs : List α} : Leaves p (A.fromRange triv ea xs a) := by
  unfold A.fromRange
  split
  · exact .ret
  · exact .bind (.copyRange h) fun _ => .ret
theorem Leaves.fromFill {n : Nat} {v : α} : Leaves p (A.fromFill triv n v a) := .bind (.copyRange h) fun _ => .ret
theorem Leaves.aPush {x : A} {v : α} : Leaves p (A.pushBack triv x v a) :=
  .bind (.copyN h) fun _ => .guard (.bind (.bind .tick fun _ => .construct h) fun _ => .ret) (.deleteN h)
theorem Leaves.aAssoc {x : A} {i : Nat} {v : α} : Leaves p (A.assoc triv x i v a) :=
  .bind (.copyN h) fun _ => .guard (.bind (.bind .tick fun _ => .assign h) fun _ => .ret) (.deleteN h)
theorem Leaves.aUpdate {x : A} {i : Nat} {g : α → α} : Leaves p (A.update triv mv x i g a) :=
  .bind (.copyN h) fun _ => .guard (.bind (.updateElem h) fun _ => .ret) (.deleteN h)
theorem Leaves.aTake {x : A} {n : Nat} : Leaves p (A.take triv x n a : M α A) := .bind (.copyN h) fun _ => .ret
theorem Leaves.toA {t : Tr} : Leaves p (Tr.toA triv t a : M α A) := by
  unfold Tr.toA
  split
  · exact .ret
  · exact .bind (.copyN h) fun _ => .ret
end

/-! ### Transients: the token is looked at -/

/-- as `Leaves`, in memory `m` -/
def LeavesAt (m : Mem α) (p : Nat) (x : M α β) : Prop := ∀ f, match x m f with
  | .ok m' _ _ => m' p = m p
  | .thrown m' _ => m' p = m p
  | .ub => True

theorem LeavesAt.owned {m : Mem α} {c : Cell α} {t : Tr} {k : Bool → M α β} (hp : m p = some c) (ht : p = t.ptr → c.tok ≠ t.tok)
    (hf : Leaves p (k false)) (hk : p ≠ t.ptr → Leaves p (k true)) : LeavesAt m p ((canMutate t.ptr t.tok).bind k) := by
  intro f
  by_cases hq : p = t.ptr
  · have hc := ht hq
    subst hq
    have : ((canMutate t.ptr t.tok).bind k) m f = k false m f := by
      have hb : (c.tok == t.tok) = false := beq_false_of_ne hc
      unfold M.bind canMutate M.bind ArrGc.cell
      rw [hp]
      simp only [M.ret, hb]
    rw [this]; exact hf m f
  · refine (Leaves.bind (.bind .cell fun _ => .ret) fun b => ?_) m f
    cases b with
    | true => exact hk hq
    | false => exact hf

section
variable {m : Mem α} {c : Cell α} {t : Tr} (hp : m p = some c) (ht : p = t.ptr → c.tok ≠ t.tok) (h : p ≠ a)
include hp ht h
theorem LeavesAt.push {v : α} : LeavesAt m p (Tr.pushBack triv t v a) := by
  have hcopy : Leaves p ((copyE triv t.tok a (recommendUp (t.size + 1) t.cap) t.ptr t.size).bind fun _ =>
        ((ArrGc.tick.bind fun _ => ArrGc.construct triv a t.size v).bind fun _ => M.ret (Tr.mk a (t.size + 1) (recommendUp (t.size + 1) t.cap) t.tok)).guard
          (ArrGc.deleteN triv a t.size (recommendUp (t.size + 1) t.cap))) :=
    .bind (.copyE h) fun _ => .guard (.bind (.bind .tick fun _ => .construct h) fun _ => .ret) (.deleteN h)
  refine .owned hp ht ?_ fun hq => ?_
  · rw [if_neg (by simp)]; exact hcopy
  · split
    · exact .bind (.bind .tick fun _ => .construct hq) fun _ => .ret
    · exact hcopy
theorem LeavesAt.assoc {i : Nat} {v : α} : LeavesAt m p (Tr.assoc triv t i v a) := by
  refine .owned hp ht ?_ fun hq => ?_
  · rw [if_neg (by simp)]
    exact .bind (.copyN h) fun _ => .guard (.bind (.bind .tick fun _ => .assign h) fun _ => .ret) (.deleteN h)
  · rw [if_pos rfl]; exact .bind (.bind .tick fun _ => .assign hq) fun _ => .ret
theorem LeavesAt.update {i : Nat} {g : α → α} : LeavesAt m p (Tr.update triv mv t i g a) := by
  refine .owned hp ht ?_ fun hq => ?_
  · rw [if_neg (by simp)]
    exact .bind (.copyE h) fun _ => .guard (.bind (.updateElem h) fun _ => .ret) (.deleteN h)
  · rw [if_pos rfl]; exact .bind (.updateElem hq) fun _ => .ret
theorem LeavesAt.take {n : Nat} : LeavesAt m p (Tr.take triv t n a : M α Tr) := by
  refine .owned hp ht ?_ fun hq => ?_
  · rw [if_neg (by simp)]; exact .bind (.copyE h) fun _ => .ret
  · rw [if_pos rfl]; exact .bind (.destroyN hq) fun _ => .ret
theorem LeavesAt.dataMutWrite {i : Nat} {v : α} : LeavesAt m p (Tr.dataMutWrite triv t i v a) := by
  refine .owned hp ht ?_ fun hq => ?_
  · rw [if_neg (by simp)]; exact .bind (.copyE h) fun _ => .bind (.assign h) fun _ => .ret
  · rw [if_pos rfl]; exact .bind (.assign hq) fun _ => .ret
end

/-! ### All operations -/

/-- the variable that is changed in place if it is a transient -/
def Op.target : Op α → Option Nat
  | .pushBack i _ | .set i _ _ | .update i _ _ | .take i _ | .dataMutWrite i _ _ => some i
  | _ => none

/-- the node at `p` is the same afterwards -/
def Kept (p : Nat) (s : St α) : Done α → Prop
  | .ok s' => s'.mem p = s.mem p
  | .thrown s' => s'.mem p = s.mem p
  | _ => True

theorem run_kept {x : M α β} {k : Mem α → β → St α} (h : LeavesAt s.mem p x) (hk : ∀ m b, (k m b).mem = m) : Kept p s (s.run f x k) := by
  have h1 := h f
  unfold St.run
  revert h1
  cases x s.mem f with
  | ok m f b => intro h1; show (k m b).mem p = _; rw [hk]; exact h1
  | thrown m f => exact id
  | ub => exact id

theorem Leaves.at {x : M α β} {m : Mem α} (h : Leaves p x) : LeavesAt m p x := h m

theorem tick_mem {m m' : Mem α} {f f' : Option Nat} {u : Unit} (h : tick m f = .ok m' f' u) : m' = m := by
  rcases f with _ | _ | k
  · cases h; rfl
  · cases h
  · cases h; rfl
theorem tick_memT {m m' : Mem α} {f f' : Option Nat} (h : tick m f = .thrown m' f') : m' = m := by
  rcases f with _ | _ | k
  · cases h
  · cases h; rfl
  · cases h

theorem step_kept {op : Op α} {c : Cell α} (hp : s.mem p = some c) (ha : s.mem a = none)
    (ht : ∀ i t, op.target = some i → s.obj i = some (.tr t) → p = t.ptr → c.tok ≠ t.tok)
    (hr : p = ea ∨ p = ew ∨ ∃ o, some o ∈ s.vars ∧ o.ptr = p) : Kept p s (step triv mv ea ew a f op s) := by
  have h : p ≠ a := fun h => by rw [h, ha] at hp; cases hp
  cases op with
  | fromRange xs => exact run_kept (Leaves.fromRange h).at fun _ _ => rfl
  | fromFill n v => exact run_kept (Leaves.fromFill h).at fun _ _ => rfl
  | newTr => exact run_kept Leaves.tick.at fun _ _ => rfl
  | copyCtor i =>
    simp only [step]
    split
    · rfl
    · split
      · rename_i h1
        have := tick_mem h1; subst this
        split
        · rename_i h2; have := tick_mem h2; subst this; rfl
        · rename_i h2; have := tick_memT h2; subst this; rfl
        · trivial
      · rename_i h1; have := tick_memT h1; subst this; rfl
      · trivial
    · trivial
  | moveCtor i => simp only [step]; split <;> first | rfl | trivial
  | copyAssign i j =>
    simp only [step]
    split
    · rfl
    · split
      · rename_i h1
        have := tick_mem h1; subst this
        split
        · rename_i h2; have := tick_mem h2; subst this; rfl
        · rename_i h2; have := tick_memT h2; subst this; rfl
        · trivial
      · rename_i h1; have := tick_memT h1; subst this; rfl
      · trivial
    · trivial
  | moveAssign i j => simp only [step]; split <;> first | rfl | trivial
  | destroy i => simp only [step]; split <;> first | rfl | trivial
  | pushBack i v =>
    simp only [step]
    split
    · exact run_kept (Leaves.aPush h).at fun _ _ => rfl
    · rename_i t hi; exact run_kept (.push hp (ht i t rfl hi) h) fun _ _ => rfl
    · trivial
  | set i idx v =>
    simp only [step]
    split
    · exact run_kept (Leaves.aAssoc h).at fun _ _ => rfl
    · rename_i t hi; exact run_kept (.assoc hp (ht i t rfl hi) h) fun _ _ => rfl
    · trivial
  | update i idx g =>
    simp only [step]
    split
    · exact run_kept (Leaves.aUpdate h).at fun _ _ => rfl
    · rename_i t hi; exact run_kept (.update hp (ht i t rfl hi) h) fun _ _ => rfl
    · trivial
  | take i n =>
    simp only [step]
    split
    · exact run_kept (Leaves.aTake h).at fun _ _ => rfl
    · rename_i t hi; exact run_kept (.take hp (ht i t rfl hi) h) fun _ _ => rfl
    · trivial
  | dataMutWrite i idx v =>
    simp only [step]
    split
    · rename_i t hi; exact run_kept (.dataMutWrite hp (ht i t rfl hi) h) fun _ _ => rfl
    · trivial
  | transient i =>
    simp only [step]
    split
    · exact run_kept Leaves.tick.at fun _ _ => rfl
    · trivial
  | persistent i =>
    simp only [step]
    split
    · split
      · rename_i h1
        have := tick_mem h1; subst this
        exact run_kept (s := { s with vars := _, next := _ }) (Leaves.toA h).at fun _ _ => rfl
      · rename_i h1; have := tick_memT h1; subst this; rfl
      · trivial
    · trivial
  | persistentMove i =>
    simp only [step]
    split
    · exact run_kept (Leaves.toA h).at fun _ _ => rfl
    · trivial
  | collect q =>
    simp only [step]
    split
    · rename_i hq
      show upd s.mem q none p = s.mem p
      have : p ≠ q := by
        rintro rfl
        rcases hr with hr | hr | ⟨o, ho, hr⟩
        · exact hq.1 hr
        · exact hq.2.1 hr
        · exact hq.2.2 _ ho (by rw [Option.map_some, hr])
      unfold upd; rw [if_neg this]
    · trivial

/-- **C57**, **C28** for arrays: nodes.  Whether an allowed operation returns or throws, the node of every array, and of every
transient that is not the one the operation is called on, stays as it is: its elements, also those past the size, and its token; also
when tokens are given out again. -/
theorem C57_arrays_nodes (h : Recycled triv mv ea ew s e) (ha : s.mem a = none) {op : Op α} (hs : spec op e = some e') {j : Nat} {o : Obj} {v : Val α}
    (ho : nth s.vars j = some o) (hv : nth e j = some v) (hj : (∃ xs, v = .arr xs) ∨ (∃ xs, v = .tr xs) ∧ op.target ≠ some j) :
    match step triv mv ea ew a f op s with
    | .ok s' => s'.mem o.ptr = s.mem o.ptr
    | .thrown s' => s'.mem o.ptr = s.mem o.ptr
    | _ => True := by
  have hi := h.inv
  obtain ⟨c, hc⟩ : ∃ c, s.mem o.ptr = some c := by
    have := hi.rep j
    rw [ho, hv] at this
    rcases hj with ⟨xs, rfl⟩ | ⟨⟨xs, rfl⟩, _⟩
    · cases o with
      | arr x => obtain ⟨_, c, h2, _⟩ := this; exact ⟨c, h2⟩
      | tr t => exact absurd this id
    · cases o with
      | tr t => obtain ⟨_, _, c, h2, _⟩ := this; exact ⟨c, h2⟩
      | arr x => exact absurd this id
  have hg : v ≠ .gone := by
    rcases hj with ⟨xs, rfl⟩ | ⟨⟨xs, rfl⟩, _⟩ <;> simp
  have key : Kept o.ptr s (step triv mv ea ew a f op s) := by
    refine step_kept hc ha ?_ (.inr (.inr ⟨o, ?_, rfl⟩))
    · intro i t hop hit hpt
      have hit' : nth s.vars i = some (.tr t) := hit
      have hij : i ≠ j := by
        rintro rfl
        rcases hj with ⟨xs, rfl⟩ | ⟨_, hne⟩
        · have := hi.rep i
          rw [hit', hv] at this
          exact this
        · exact hne hop
      have hlive : ∃ xs, nth e i = some (.tr xs) := by
        have hrep := hi.rep i
        rw [hit'] at hrep
        match hn : nth e i with
        | none => rw [hn] at hrep; exact absurd hrep id
        | some (.arr xs) => rw [hn] at hrep; exact absurd hrep id
        | some (.tr xs) => exact ⟨xs, rfl⟩
        | some .gone =>
          exfalso
          cases op <;> simp only [Op.target, reduceCtorEq, Option.some.injEq] at hop <;> subst hop <;> simp [spec, hn] at hs
      obtain ⟨xs, hxs⟩ := hlive
      exact hi.sep i j t xs o v c hij hit' hxs ho hv hg hc
    · unfold nth at ho
      cases hx : s.vars[j]? with
      | none => rw [hx] at ho; cases ho
      | some o' =>
        rw [hx] at ho
        have ho' : o' = some o := ho
        exact ho' ▸ List.mem_of_getElem? hx
  revert key
  cases step triv mv ea ew a f op s <;> exact id

/-- `array{1, 2}`, its transient, and a `push_back` on this, for which `C57_arrays_nodes` is used: it returns, and the node of the
array is as before -/
example : ∃ s s' o, Recycled false id 0 1 s [some (.arr [1, 2]), some (.tr [1, 2])] ∧ nth s.vars 0 = some o ∧
    step false id 0 1 11 none (.pushBack 1 3) s = .ok s' ∧ s'.mem o.ptr = s.mem o.ptr := by
  obtain ⟨s, hr⟩ : ∃ s, runs false (progT.take 2) (start 0 1) = some s := Option.isSome_iff_exists.1 (by decide +kernel)
  have hR := Recycled.of_reach (reach_runs (progT.take 2) _ _ _ [some (.arr [1, 2]), some (.tr [1, 2])] (.start (by decide)) (by decide +kernel) hr rfl)
  have h1 : (runs false (progT.take 2) (start 0 1)).all (fun s => (s.mem 11).isNone && (nth s.vars 0).isSome &&
      match step false id 0 1 11 none (.pushBack 1 3) s with | .ok _ => true | _ => false) = true := by decide +kernel
  rw [hr] at h1
  simp only [Option.all_some, Bool.and_eq_true, Option.isNone_iff_eq_none, Option.isSome_iff_exists] at h1
  obtain ⟨⟨h2, o, h3⟩, h4⟩ := h1
  have h5 := C57_arrays_nodes (f := none) hR h2 (op := .pushBack 1 3) (e' := [some (.arr [1, 2]), some (.tr [1, 2, 3])]) (by simp [spec, nth, maxSize]) (j := 0) h3 rfl (.inl ⟨_, rfl⟩)
  cases hs : step false id 0 1 11 none (.pushBack 1 3) s with
  | ok s' => rw [hs] at h5; exact ⟨s, s', o, hR, h3, hs, h5⟩
  | thrown s' => rw [hs] at h4; cases h4
  | ub => rw [hs] at h4; cases h4
  | no => rw [hs] at h4; cases h4

end ArrGc
