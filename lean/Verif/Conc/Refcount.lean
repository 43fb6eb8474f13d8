import Mathlib.Algebra.BigOperators.Group.List.Basic

/-!
# Reference counts shared by threads: `refcount/refcount_policy.hpp`

Any number of threads, every interleaving, sequentially consistent atomics.  The count is a 32-bit machine integer
(`std::atomic<int>`, 26), whose `fetch_add`/`fetch_sub` wrap around.  `unsafe_refcount_policy.hpp` is the same with one
thread.
-/

namespace Conc.Refcount

/-- One counted object and the threads that use it. -/
structure St where
  /-- `refcount` (26) -/
  count : BitVec 32
  /-- number of references thread `i` holds -/
  held : List Nat
  /-- threads whose `dec` returned true and that have not yet deleted the object -/
  deleters : List Nat
  /-- how many times the object was deleted -/
  freed : Nat
  /-- the count was accessed, or the object deleted, after it had been deleted -/
  fault : Bool
deriving DecidableEq, Repr

/-- `refcount{1}` (29): thread 0 of `n + 1` has created the object -/
def init (n : Nat) : St := ⟨1, 1 :: List.replicate n 0, [], 0, false⟩

inductive Act where
  /-- `inc` (35) by a thread that holds a reference: it then holds one more -/
  | inc (i : Nat)
  /-- `dec` (37) of a reference that the thread holds -/
  | dec (i : Nat)
  /-- a reference is passed from one thread to another -/
  | pass (i j : Nat)
  /-- what follows `if (dec())`: destroy and deallocate -/
  | free (i : Nat)
deriving DecidableEq, Repr

/-- one atomic step; `none` if the thread may not do it: it holds no reference, or has nothing to delete -/
def step (a : Act) (s : St) : Option St :=
  match a with
  | .inc i =>
      if 0 < s.held[i]?.getD 0 then
        some { s with count := s.count + 1, held := s.held.modify i (· + 1), fault := s.fault || decide (0 < s.freed) }
      else none
  | .dec i =>
      if 0 < s.held[i]?.getD 0 then
        some { s with
          count := s.count - 1, held := s.held.modify i (· - 1),
          -- `1 == refcount.fetch_sub(1)`
          deleters := if s.count = 1 then i :: s.deleters else s.deleters,
          fault := s.fault || decide (0 < s.freed) }
      else none
  | .pass i j =>
      if 0 < s.held[i]?.getD 0 ∧ j < s.held.length then
        some { s with held := (s.held.modify i (· - 1)).modify j (· + 1) }
      else none
  | .free i =>
      if i ∈ s.deleters then
        some { s with deleters := s.deleters.erase i, freed := s.freed + 1, fault := s.fault || decide (0 < s.freed) }
      else none

/-- `unique` (39) as a thread sees it -/
def unique (s : St) : Bool := decide (s.count = 1)

def run : List Act → St → Option St
  | [], s => some s
  | a :: rest, s => (step a s).bind (run rest)

/-- at no time do more references exist than the counter can count -/
def Bounded (sched : List Act) (s : St) : Prop :=
  ∀ pre suf s', sched = pre ++ suf → run pre s = some s' → s'.held.sum < 2 ^ 32

structure Inv (s : St) : Prop where
  count : s.count = BitVec.ofNat 32 s.held.sum
  nofault : s.fault = false
  once : s.deleters.length + s.freed = if s.held.sum = 0 then 1 else 0

theorem sum_modify {f : Nat → Nat} : ∀ {l : List Nat} {i : Nat} (h : i < l.length),
    (l.modify i f).sum + l[i] = l.sum + f l[i]
  | x :: xs, 0, _ => by simp; omega
  | x :: xs, i + 1, h => by
    have := sum_modify (f := f) (l := xs) (i := i) (by simpa using h)
    simp; omega

theorem le_sum : ∀ {l : List Nat} {i : Nat} (h : i < l.length), l[i] ≤ l.sum
  | x :: xs, 0, _ => by simp
  | x :: xs, i + 1, h => by
    have := le_sum (l := xs) (i := i) (by simpa using h)
    simp; omega

theorem toNat_one : (1 : BitVec 32).toNat = 1 := rfl

theorem sum_zero : ∀ {l : List Nat}, l.sum = 0 ↔ ∀ x ∈ l, x = 0
  | [] => by simp
  | x :: xs => by
    have := sum_zero (l := xs)
    simp only [List.sum_cons, List.mem_cons, forall_eq_or_imp, ← this]; omega

theorem held_pos {l : List Nat} {i : Nat} (h : 0 < l[i]?.getD 0) : ∃ hi : i < l.length, 0 < l[i] := by
  by_cases hi : i < l.length
  · refine ⟨hi, ?_⟩
    rw [List.getElem?_eq_getElem hi] at h; exact h
  · rw [List.getElem?_eq_none (by omega)] at h; simp at h

theorem step_inv {a : Act} {s s' : St} (h : Inv s) (hb : s.held.sum < 2 ^ 32) (hs : step a s = some s') : Inv s' := by
  obtain ⟨h1, h2, h3⟩ := h
  cases a with
  | inc i =>
    simp only [step] at hs
    split at hs
    · rename_i hp
      cases hs
      obtain ⟨hi, hp⟩ := held_pos hp
      have e1 := sum_modify (f := (· + 1)) hi
      have e2 := le_sum hi
      have e3 : (s.held.modify i (· + 1)).sum = s.held.sum + 1 := by omega
      rw [if_neg (by omega)] at h3
      refine ⟨?_, ?_, ?_⟩
      · simp only [e3, h1, BitVec.ofNat_add]; rfl
      · simp [h2]; omega
      · simp only [e3]; rw [if_neg (by omega)]; exact h3
    · cases hs
  | dec i =>
    simp only [step] at hs
    split at hs
    · rename_i hp
      cases hs
      obtain ⟨hi, hp⟩ := held_pos hp
      have e1 := sum_modify (f := (· - 1)) hi
      have e2 := le_sum hi
      have e3 : (s.held.modify i (· - 1)).sum = s.held.sum - 1 := by omega
      rw [if_neg (by omega)] at h3
      have hone : s.count = 1 ↔ s.held.sum = 1 := by
        rw [h1, ← BitVec.toNat_inj, toNat_one]
        simp only [BitVec.toNat_ofNat]
        omega
      refine ⟨?_, ?_, ?_⟩
      · simp only [e3, h1]
        apply BitVec.eq_of_toNat_eq
        simp only [BitVec.toNat_sub, BitVec.toNat_ofNat, toNat_one]
        omega
      · simp [h2]; omega
      · simp only [e3]
        by_cases hc : s.count = 1
        · rw [if_pos hc, if_pos (by rw [hone] at hc; omega)]
          simp only [List.length_cons]; omega
        · rw [if_neg hc, if_neg (by rw [hone] at hc; omega)]; exact h3
    · cases hs
  | pass i j =>
    simp only [step] at hs
    split at hs
    · rename_i hp
      cases hs
      obtain ⟨hi, hp1⟩ := held_pos hp.1
      have e1 := sum_modify (f := (· - 1)) hi
      have e2 := sum_modify (f := (· + 1)) (l := s.held.modify i (· - 1)) (i := j) (by simpa using hp.2)
      have e3 := le_sum hi
      have e4 : ((s.held.modify i (· - 1)).modify j (· + 1)).sum = s.held.sum := by omega
      exact ⟨by simp only [e4]; exact h1, h2, by simp only [e4]; exact h3⟩
    · cases hs
  | free i =>
    simp only [step] at hs
    split at hs
    · rename_i hp
      cases hs
      have hl := List.length_erase_of_mem hp
      have hpos : 0 < s.deleters.length := List.length_pos_of_mem hp
      have : s.deleters.length + s.freed ≤ 1 := by rw [h3]; split <;> omega
      refine ⟨h1, ?_, ?_⟩
      · simp [h2]; omega
      · simp only [hl, ← h3]; omega
    · cases hs

theorem init_inv (n : Nat) : Inv (init n) := by
  refine ⟨?_, rfl, ?_⟩ <;> simp [init]

theorem run_inv : ∀ (sched : List Act) {s s' : St}, Inv s → Bounded sched s → run sched s = some s' → Inv s'
  | [], s, s', h, _, hr => by cases hr; exact h
  | a :: rest, s, s', h, hb, hr => by
    simp only [run, Option.bind_eq_some_iff] at hr
    obtain ⟨m, h1, h2⟩ := hr
    refine run_inv rest (step_inv h (hb [] _ s rfl rfl) h1) ?_ h2
    intro pre suf s'' he hr'
    exact hb (a :: pre) suf s'' (by rw [he]; rfl) (by simp only [run, h1, Option.bind_some]; exact hr')

/-- C33: the object is never touched after deletion, at most one `dec` ever returns true, one has exactly when no thread
holds a reference any more, and so the object is deleted at most once and only then. -/
theorem C33_frees_once {n : Nat} {sched : List Act} {s : St} (hb : Bounded sched (init n))
    (h : run sched (init n) = some s) :
    s.fault = false ∧ s.deleters.length + s.freed ≤ 1 ∧
    (s.deleters.length + s.freed = 1 ↔ ∀ x ∈ s.held, x = 0) := by
  obtain ⟨-, h2, h3⟩ := run_inv sched (init_inv n) hb h
  have hz : s.held.sum = 0 ↔ ∀ x ∈ s.held, x = 0 := sum_zero
  refine ⟨h2, by rw [h3]; split <;> omega, ?_⟩
  rw [h3, ← hz]
  split <;> omega

/-- C33: a thread that holds a reference and finds the object `unique` holds the only one, so nobody else can get at the
object (this is what in-place mutation relies on). -/
theorem C33_unique {n : Nat} {sched : List Act} {s : St} (hb : Bounded sched (init n))
    (h : run sched (init n) = some s) {i : Nat} (hi : i < s.held.length) (hheld : 0 < s.held[i]) (hu : unique s = true) :
    s.held[i] = 1 ∧ ∀ j (hj : j < s.held.length), j ≠ i → s.held[j] = 0 := by
  obtain ⟨h1, -, -⟩ := run_inv sched (init_inv n) hb h
  have hlt := hb sched [] s (by simp) h
  have hsum : s.held.sum = 1 := by
    simp only [unique, decide_eq_true_eq] at hu
    rw [h1, ← BitVec.toNat_inj, toNat_one] at hu
    simp only [BitVec.toNat_ofNat] at hu
    omega
  have e1 := le_sum hi
  refine ⟨by omega, fun j hj hne => ?_⟩
  have e2 := sum_modify (f := fun _ => 0) hi
  have e3 := le_sum (l := s.held.modify i (fun _ => 0)) (i := j) (by simpa using hj)
  rw [List.getElem_modify_ne _ _ (Ne.symm hne)] at e3
  omega

/-- two threads: 0 copies and passes the copy on, both drop theirs, the last one deletes -/
def demo : List Act := [.inc 0, .pass 0 1, .dec 0, .inc 1, .dec 1, .dec 1, .free 1]

example : run demo (init 1) = some ⟨0, [0, 0], [], 1, false⟩ := by decide

example : Bounded demo (init 1) := by
  intro pre suf s' he hr
  have hl : pre.length ≤ 7 := by
    have := congrArg List.length he
    simp [demo] at this; omega
  have hp : pre = demo.take pre.length := by rw [he]; simp
  have hall : ∀ k, k ≤ 7 → ((run (demo.take k) (init 1)).all fun s => decide (s.held.sum < 2 ^ 32)) = true := by
    decide
  have := hall _ hl
  rw [← hp, hr] at this
  simpa using this

/-- a state in which thread 1 may rely on `unique` -/
example : (run (demo.take 3) (init 1)).map (fun s => (unique s, s.held)) = some (true, [0, 1]) := by decide

/-! ### Overflow

Without the bound the claim is false: the counter is an `int`. -/

theorem run_append (a b : List Act) (s : St) : run (a ++ b) s = (run a s).bind (run b) := by
  induction a generalizing s with
  | nil => rfl
  | cons x xs ih =>
    simp only [List.cons_append, run]
    cases step x s with
    | none => rfl
    | some m => exact ih m

theorem run_incs (k : Nat) : ∀ (m : Nat) (b : BitVec 32), run (List.replicate m (.inc 0)) ⟨b, [k + 1], [], 0, false⟩ =
    some ⟨b + BitVec.ofNat 32 m, [k + 1 + m], [], 0, false⟩ := by
  intro m
  induction m generalizing k with
  | zero => intro b; simp [run]
  | succ m ih =>
    intro b
    have hs : step (.inc 0) ⟨b, [k + 1], [], 0, false⟩ = some ⟨b + 1, [k + 1 + 1], [], 0, false⟩ := by
      simp [step]
    rw [List.replicate_succ, run, hs, Option.bind_some, ih (k + 1) (b + 1)]
    congr 2
    · rw [BitVec.add_assoc, Nat.add_comm m 1, BitVec.ofNat_add]; rfl
    · congr 1; omega

/-- With `2^32 + 1` references to one object, the first `dec` deletes it although `2^32` references remain. -/
theorem C33_overflow : ∃ s, run (List.replicate (2 ^ 32) (.inc 0) ++ [.dec 0, .free 0]) (init 0) = some s ∧
    s.freed = 1 ∧ s.held = [2 ^ 32] := by
  have h := run_incs 0 (2 ^ 32) 1
  have hz : (1 : BitVec 32) + BitVec.ofNat 32 (2 ^ 32) = 1 := by decide
  rw [hz] at h
  have hr : run [.dec 0, .free 0] ⟨1, [0 + 1 + 2 ^ 32], [], 0, false⟩ = some ⟨0, [2 ^ 32], [], 1, false⟩ := by
    simp [run, step]
  exact ⟨⟨0, [2 ^ 32], [], 1, false⟩, by rw [run_append, show init 0 = ⟨1, [0 + 1], [], 0, false⟩ from rfl, h, Option.bind_some, hr], rfl, rfl⟩

end Conc.Refcount
