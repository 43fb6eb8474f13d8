import Mathlib.Logic.Function.Basic

/-!
# The spinlock of `lock/spinlock_policy.hpp`

Any number of threads, every interleaving of their atomic steps, sequentially consistent `atomic_flag`.
-/

namespace Conc.Spinlock

/-- where a thread is -/
inductive PC where
  /-- outside -/
  | idle
  /-- in the loop of `lock` (36-48), before its `k`-th `try_lock` -/
  | spin (k : Nat)
  /-- between the return of `lock` or of a successful `try_lock` and `unlock` -/
  | crit
deriving DecidableEq, Repr

/-- `v_` and the threads -/
structure St where
  flag : Bool
  pc : Nat → PC

/-- `std::atomic_flag v_{}` (31): clear -/
def init : St := ⟨false, fun _ => .idle⟩

/-- atomic steps; each thread uses the lock as `scoped_lock` does: `unlock` only after having acquired -/
inductive Act where
  | callLock
  | tryLock
  | spinOnce
  | unlock
deriving DecidableEq, Repr

/-- thread `i` does one atomic step; `none`: not something it can do where it is.
`try_lock` (33) is `!v_.test_and_set()`; `lock` (35-48) repeats it, pausing or yielding in between, which has no effect on
the state; `unlock` (50) is `v_.clear()`. -/
def step (i : Nat) (a : Act) (s : St) : Option St :=
  match a, s.pc i with
  | .callLock, .idle => some { s with pc := Function.update s.pc i (.spin 0) }
  | .tryLock, .idle => some ⟨true, Function.update s.pc i (if s.flag then .idle else .crit)⟩
  | .spinOnce, .spin k => some ⟨true, Function.update s.pc i (if s.flag then .spin (k + 1) else .crit)⟩
  | .unlock, .crit => some ⟨false, Function.update s.pc i .idle⟩
  | _, _ => none

/-- a schedule: which thread does what -/
def run : List (Nat × Act) → St → Option St
  | [], s => some s
  | (i, a) :: rest, s => (step i a s).bind (run rest)

/-- the flag says whether somebody is inside, and at most one is -/
def Inv (s : St) : Prop :=
  (s.flag = true ↔ ∃ i, s.pc i = .crit) ∧ ∀ i j, s.pc i = .crit → s.pc j = .crit → i = j

theorem upd_eq (f : Nat → PC) (i : Nat) (v : PC) (j : Nat) : Function.update f i v j = if j = i then v else f j := by
  simp [Function.update_apply]

theorem step_inv {i : Nat} {a : Act} {s s' : St} (h : Inv s) (hs : step i a s = some s') : Inv s' := by
  obtain ⟨h1, h2⟩ := h
  unfold step at hs
  have nocrit : s.flag = false → ∀ j, s.pc j ≠ .crit := by
    intro hf j hj
    have := h1.2 ⟨j, hj⟩
    rw [hf] at this; cases this
  split at hs
  · rename_i hpc
    cases hs
    refine ⟨h1.trans ⟨?_, ?_⟩, ?_⟩
    · rintro ⟨j, hj⟩
      exact ⟨j, by simp only [upd_eq]; rw [if_neg (by rintro rfl; rw [hpc] at hj; cases hj)]; exact hj⟩
    · rintro ⟨j, hj⟩
      simp only [upd_eq] at hj
      split at hj
      · cases hj
      · exact ⟨j, hj⟩
    · intro j k hj hk
      simp only [upd_eq] at hj hk
      split at hj
      · cases hj
      split at hk
      · cases hk
      exact h2 j k hj hk
  · rename_i hpc
    cases hs
    cases hf : s.flag with
    | true =>
      obtain ⟨j, hj⟩ := h1.1 hf
      refine ⟨⟨fun _ => ⟨j, ?_⟩, fun _ => rfl⟩, ?_⟩
      · simp only [upd_eq]; rw [if_neg (by rintro rfl; rw [hpc] at hj; cases hj)]; exact hj
      · intro j k hj hk
        simp only [upd_eq, if_true] at hj hk
        split at hj
        · cases hj
        split at hk
        · cases hk
        exact h2 j k hj hk
    | false =>
      refine ⟨⟨fun _ => ⟨i, by simp [upd_eq]⟩, fun _ => rfl⟩, ?_⟩
      intro j k hj hk
      simp only [upd_eq] at hj hk
      split at hj
      · split at hk
        · omega
        · exact absurd hk (nocrit hf k)
      · exact absurd hj (nocrit hf j)
  · rename_i k hpc
    cases hs
    cases hf : s.flag with
    | true =>
      obtain ⟨j, hj⟩ := h1.1 hf
      refine ⟨⟨fun _ => ⟨j, ?_⟩, fun _ => rfl⟩, ?_⟩
      · simp only [upd_eq]; rw [if_neg (by rintro rfl; rw [hpc] at hj; cases hj)]; exact hj
      · intro j k hj hk
        simp only [upd_eq, if_true] at hj hk
        split at hj
        · cases hj
        split at hk
        · cases hk
        exact h2 j k hj hk
    | false =>
      refine ⟨⟨fun _ => ⟨i, by simp [upd_eq]⟩, fun _ => rfl⟩, ?_⟩
      intro j k hj hk
      simp only [upd_eq] at hj hk
      split at hj
      · split at hk
        · omega
        · exact absurd hk (nocrit hf k)
      · exact absurd hj (nocrit hf j)
  · rename_i hpc
    cases hs
    have key : ∀ j, Function.update s.pc i PC.idle j ≠ .crit := by
      intro j hj
      rw [upd_eq] at hj
      split at hj
      · cases hj
      · rename_i hne
        exact hne (h2 j i hj hpc)
    refine ⟨⟨fun h => (Bool.false_ne_true h).elim, ?_⟩, ?_⟩
    · rintro ⟨j, hj⟩; exact absurd hj (key j)
    · intro j k hj; exact absurd hj (key j)
  · cases hs

theorem run_inv : ∀ (sched : List (Nat × Act)) {s s' : St}, Inv s → run sched s = some s' → Inv s'
  | [], s, s', h, hr => by cases hr; exact h
  | (i, a) :: rest, s, s', h, hr => by
    simp only [run, Option.bind_eq_some_iff] at hr
    obtain ⟨m, h1, h2⟩ := hr
    exact run_inv rest (step_inv h h1) h2

theorem init_inv : Inv init := ⟨⟨by simp [init], by rintro ⟨i, h⟩; simp [init] at h⟩, by simp [init]⟩

/-- C32: after any schedule of any number of threads at most one thread is between acquiring and `unlock`. -/
theorem C32_mutual_exclusion {sched : List (Nat × Act)} {s : St} (h : run sched init = some s) {i j : Nat}
    (hi : s.pc i = .crit) (hj : s.pc j = .crit) : i = j :=
  (run_inv sched init_inv h).2 i j hi hj

/-- C32: the lock is not lost: when nobody is inside, the next `try_lock` or turn of the loop of any thread acquires it;
when somebody is, it does not. -/
theorem C32_available {sched : List (Nat × Act)} {s : St} (h : run sched init = some s) {i : Nat} {a : Act}
    (ha : (a = .tryLock ∧ s.pc i = .idle) ∨ (a = .spinOnce ∧ ∃ k, s.pc i = .spin k)) :
    ∃ s', step i a s = some s' ∧ (s'.pc i = .crit ↔ ∀ j, s.pc j ≠ .crit) := by
  have hinv := (run_inv sched init_inv h).1
  have hflag : s.flag = false ↔ ∀ j, s.pc j ≠ .crit := by
    rw [← Bool.not_eq_true, hinv]; simp
  rw [← hflag]
  rcases ha with ⟨rfl, hp⟩ | ⟨rfl, k, hp⟩
  · refine ⟨⟨true, Function.update s.pc i (if s.flag then .idle else .crit)⟩, by simp only [step, hp], ?_⟩
    cases s.flag <;> simp
  · refine ⟨⟨true, Function.update s.pc i (if s.flag then .spin (k + 1) else .crit)⟩, by simp only [step, hp], ?_⟩
    cases s.flag <;> simp

/-- three threads: 0 acquires, 1 spins, 2 fails to acquire, 0 leaves, 1 acquires -/
def demo : List (Nat × Act) :=
  [(0, .callLock), (1, .callLock), (0, .spinOnce), (1, .spinOnce), (2, .tryLock), (1, .spinOnce), (0, .unlock), (1, .spinOnce)]

example : (run demo init).map (fun s => (s.flag, s.pc 0, s.pc 1, s.pc 2)) =
    some (true, .idle, .crit, .idle) := by decide

/-- hypotheses of `C32_available` met in both ways -/
example : ((run demo init).bind (step 2 .tryLock)).map (fun s => s.pc 2) = some .idle ∧
    ((run (demo ++ [(1, .unlock)]) init).bind (step 2 .tryLock)).map (fun s => s.pc 2) = some .crit := by decide

end Conc.Spinlock
