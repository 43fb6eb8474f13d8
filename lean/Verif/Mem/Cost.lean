import Verif.Mem.Elems

/-!
# What a computation uses

`fault = some (kd, n)` asks the event number `n` of kind `kd` to throw, and counts down to it.  So a computation that neither
throws nor brings the counter down by more than `k` makes at most `k` such events, whether they be allocations, copies of
elements or calls of a function.
-/

namespace Mm
variable {D T β δ : Type} {kd : Kind} {k n : Nat}

/-- without the request to throw -/
def St.calm (s : St D T) : St D T := { s with fault := none }

/-- How a computation ends that was to throw at event `m` but makes only `k`: it does not throw, the counter has gone down by at most
`k`, and all the rest is as it is when nothing is to throw (which ends as `r0`). -/
def Spent (kd : Kind) (m : Nat) (k : β → Nat) (r r0 : Res D T β) : Prop :=
  match r with
  | .ok s' b => ∃ m', s'.fault = some (kd, m') ∧ m ≤ m' + k b ∧ r0 = .ok s'.calm b
  | .thrown _ => False
  | .ub => r0 = .ub

/-- At most `k` events of kind `kd`: if the first `k` succeed, nothing throws, and the counter goes down by at most `k`. -/
def Uses (kd : Kind) (k : Nat) (x : M D T β) : Prop := ∀ s n, s.fault = some (kd, n) → k ≤ n → Spent kd n (fun _ => k) (x s) (x s.calm)

/-- numbers of allocations, of copies of elements, of calls of functions, of tables made for nodes changed in place -/
def amt (a c u t : Nat) : Kind → Nat
  | .alloc => a
  | .copy => c
  | .user => u
  | .table => t

theorem spent_mono {k k' : β → Nat} {m m' : Nat} {r r0 : Res D T β} (h : Spent kd m k r r0) (hk : ∀ b, m' + k b ≤ m + k' b) : Spent kd m' k' r r0 := by
  cases r with
  | ok s' b =>
    obtain ⟨n', h1, h2, h3⟩ := h
    exact ⟨n', h1, by have := hk b; omega, h3⟩
  | thrown _ => exact h
  | ub => exact h

theorem spent_bind {k : β → Nat} {k' : δ → Nat} {m m' : Nat} {x : M D T β} {f : β → M D T δ} {s s0 : St D T} (h : Spent kd m k (x s) (x s0))
    (hf : ∀ s' b n, s'.fault = some (kd, n) → m ≤ n + k b → Spent kd m' k' (f b s') (f b s'.calm)) : Spent kd m' k' (x.bind f s) (x.bind f s0) := by
  simp only [M.bind]
  cases hx : x s with
  | ok s' b =>
    rw [hx] at h
    obtain ⟨n', h1, h2, h3⟩ := h
    rw [h3]
    exact hf s' b n' h1 h2
  | thrown _ => rw [hx] at h; exact h.elim
  | ub =>
    rw [hx] at h
    simp only [Spent] at h ⊢
    rw [h]

theorem spent_guard {k : β → Nat} {m : Nat} {x : M D T β} {hd : M D T Unit} {s s0 : St D T} (h : Spent kd m k (x s) (x s0)) : Spent kd m k (x.guard hd s) (x.guard hd s0) := by
  simp only [M.guard]
  cases hx : x s with
  | ok s' b =>
    rw [hx] at h
    obtain ⟨n', h1, h2, h3⟩ := h
    rw [h3]
    exact ⟨n', h1, h2, rfl⟩
  | thrown _ => rw [hx] at h; exact h.elim
  | ub =>
    rw [hx] at h
    simp only [Spent] at h ⊢
    rw [h]

theorem assoc_eq {γ : Type} {x : M D T β} {f : β → M D T δ} {g : δ → M D T γ} : (x.bind f).bind g = x.bind fun b => (f b).bind g := by
  funext s
  simp only [M.bind]
  cases x s <;> rfl

theorem uses_mono {x : M D T β} (hx : Uses kd k x) (h : k ≤ n) : Uses kd n x :=
  fun s m hs hm => spent_mono (hx s m hs (by omega)) fun _ => by omega

theorem uses_ret (b : β) : Uses kd n (M.ret b : M D T β) := fun _ m hs _ => ⟨m, hs, by omega, rfl⟩

theorem uses_pure {f : St D T → St D T} {g : St D T → β} (hf : ∀ s, (f s).fault = s.fault ∧ f s.calm = (f s).calm ∧ g s.calm = g s) : Uses kd n (fun s => .ok (f s) (g s) : M D T β) :=
  fun s m hs _ => ⟨m, (hf s).1.trans hs, by omega, by show Res.ok _ _ = _; rw [(hf s).2.1, (hf s).2.2]⟩

theorem uses_undef : Uses kd n (undef : M D T β) := fun _ _ _ _ => rfl

theorem uses_bind {x : M D T β} {f : β → M D T δ} (hx : Uses kd k x) (h : k ≤ n) (hf : ∀ b, Uses kd (n - k) (f b)) : Uses kd n (x.bind f) :=
  fun s m hs hm => spent_bind (hx s m hs (by omega)) fun s' b m' hs' hm' => spent_mono (hf b s' m' hs' (by omega)) fun _ => by omega

theorem uses_assoc {γ : Type} {x : M D T β} {f : β → M D T δ} {g : δ → M D T γ} (h : Uses kd n (x.bind fun b => (f b).bind g)) : Uses kd n ((x.bind f).bind g) :=
  assoc_eq ▸ h

theorem uses_ret_bind {b : β} {f : β → M D T δ} (h : Uses kd n (f b)) : Uses kd n ((M.ret b).bind f) := h

theorem uses_undef_bind {f : β → M D T δ} : Uses kd n ((undef : M D T β).bind f) := fun _ _ _ _ => rfl

theorem uses_guard {x : M D T β} {hd : M D T Unit} (h : Uses kd n x) : Uses kd n (x.guard hd) :=
  fun s m hs hm => spent_guard (h s m hs hm)

theorem spent_thrown {k : β → Nat} {m : Nat} {r : Res D T β} {s : St D T} (h : Spent kd m k r (.thrown s)) : False := by
  cases r with
  | ok s' b => obtain ⟨_, _, _, h3⟩ := h; cases h3
  | thrown _ => exact h
  | ub => cases h

theorem spent_guard_bind {k : δ → Nat} {m : Nat} {x : M D T β} {hd : M D T Unit} {f : β → M D T δ} {s s0 : St D T} (h : Spent kd m k (x.bind f s) (x.bind f s0)) :
    Spent kd m k ((x.guard hd).bind f s) ((x.guard hd).bind f s0) := by
  simp only [M.guard, M.bind] at h ⊢
  cases hx : x s <;> cases hy : x s0 <;> rw [hx, hy] at h <;> first | exact h | exact (spent_thrown h).elim | exact h.elim

theorem uses_guard_bind {x : M D T β} {hd : M D T Unit} {f : β → M D T δ} (h : Uses kd n (x.bind f)) : Uses kd n ((x.guard hd).bind f) :=
  fun s m hs hm => spent_guard_bind (h s m hs hm)

theorem uses_ite {p : Prop} [Decidable p] {x y : M D T β} (hx : Uses kd n x) (hy : Uses kd n y) : Uses kd n (if p then x else y) := by
  split <;> assumption

theorem uses_cell (p : Nat) : Uses kd 0 (cell p : M D T (Cell D T)) := by
  intro s m hs _
  unfold cell
  rw [show s.calm.mem p = s.mem p from rfl]
  cases s.mem p with
  | some c => exact ⟨m, hs, by omega, rfl⟩
  | none => rfl

theorem uses_modify (p : Nat) (f : Cell D T → Cell D T) : Uses kd 0 (modify p f) := by
  intro s m hs _
  unfold modify
  rw [show s.calm.mem = s.mem from rfl]
  cases s.mem p with
  | some c => exact ⟨m, hs, by omega, rfl⟩
  | none => rfl

theorem uses_tick {k : Kind} : Uses kd (if k = kd then 1 else 0) (tick k : M D T Unit) := by
  intro s m hs hm
  unfold tick
  rw [hs]
  by_cases h : k = kd
  · rw [if_pos h] at hm
    obtain ⟨m, rfl⟩ : ∃ m', m = m' + 1 := ⟨m - 1, by omega⟩
    simp only [if_pos h]
    exact ⟨m, rfl, Nat.le_refl _, rfl⟩
  · simp only [if_neg h]
    exact ⟨m, hs, by omega, rfl⟩

theorem uses_tick_alloc : Uses kd (amt 1 0 0 0 kd) (tick .alloc : M D T Unit) := uses_mono uses_tick (by cases kd <;> decide)
theorem uses_tick_copy : Uses kd (amt 0 1 0 0 kd) (tick .copy : M D T Unit) := uses_mono uses_tick (by cases kd <;> decide)
theorem uses_tick_user : Uses kd (amt 0 0 1 0 kd) (tick .user : M D T Unit) := uses_mono uses_tick (by cases kd <;> decide)
theorem uses_tick_table : Uses kd (amt 0 0 0 1 kd) (tick .table : M D T Unit) := uses_mono uses_tick (by cases kd <;> decide)

/-- the arithmetic of bounds -/
macro "uses_arith" : tactic => `(tactic| first | exact Nat.zero_le _ | exact Nat.le_refl _ | omega | (unfold amt; split <;> (try simp only) <;> first | exact Nat.zero_le _ | exact Nat.le_refl _ | omega | contradiction))

/-- bounds that are known -/
syntax "uses0" : tactic
macro_rules | `(tactic| uses0) => `(tactic| with_reducible first | exact uses_cell _ | exact uses_modify _ _ | exact uses_tick_alloc | exact uses_tick_copy | exact uses_tick_user | exact uses_tick_table)

/-- one step through a computation -/
syntax "uses1" : tactic
macro_rules | `(tactic| uses1) => `(tactic| first
  | with_reducible exact uses_ret _
  | with_reducible exact uses_undef
  | with_reducible exact uses_undef_bind
  | with_reducible refine uses_ret_bind ?_
  | with_reducible refine uses_assoc ?_
  | with_reducible refine uses_guard_bind ?_
  | with_reducible refine uses_guard ?_
  | ((with_reducible eapply uses_bind); (focus uses0); (focus uses_arith); (intro _))
  | ((with_reducible eapply uses_mono); (focus uses0); (focus uses_arith))
  | split)

macro "uses" : tactic => `(tactic| repeat' uses1)

theorem uses_alloc (E : Env D T) (m : Nat) (x : D) : Uses kd (amt 1 0 0 0 kd) (alloc E m x) :=
  uses_bind uses_tick_alloc (Nat.le_refl _) fun _ => uses_pure fun _ => ⟨rfl, rfl, rfl⟩

theorem uses_dealloc (room : D → Nat) (p m k : Nat) : Uses kd 0 (dealloc room p m k : M D T Unit) :=
  uses_bind (uses_cell _) (Nat.le_refl _) fun _ => uses_ite (uses_pure fun _ => ⟨rfl, rfl, rfl⟩) uses_undef

theorem uses_inc (E : Env D T) (p : Nat) : Uses kd 0 (inc E p) := by unfold inc; uses
theorem uses_dec (E : Env D T) (p : Nat) : Uses kd 0 (dec E p) := by unfold dec; uses
theorem uses_canMutate (E : Env D T) (e p : Nat) : Uses kd 0 (canMutate E e p) := by unfold canMutate; uses
theorem uses_setTok (E : Env D T) (p e : Nat) : Uses kd 0 (setTok E p e) := by unfold setTok; uses
theorem uses_setEls (p : Nat) (l : List (Slot T)) : Uses kd 0 (setEls p l : M D T Unit) := by unfold setEls; uses
theorem uses_readEl (p i : Nat) : Uses kd 0 (readEl p i : M D T T) := by unfold readEl; uses
macro_rules | `(tactic| uses0) => `(tactic| with_reducible first | exact uses_alloc _ _ _ | exact uses_dealloc _ _ _ _ | exact uses_inc _ _ | exact uses_dec _ _ | exact uses_canMutate _ _ _ | exact uses_setTok _ _ _ | exact uses_setEls _ _ | exact uses_readEl _ _)
theorem uses_copyEl (p i : Nat) : Uses kd (amt 0 1 0 0 kd) (copyEl p i : M D T T) := by unfold copyEl; uses
theorem uses_moveEl (p i : Nat) : Uses kd 0 (moveEl p i : M D T T) := by unfold moveEl; uses
theorem uses_construct (p i : Nat) (v : T) : Uses kd 0 (construct p i v : M D T Unit) := by unfold construct; uses
theorem uses_assignEl (p i : Nat) (v : T) : Uses kd 0 (assignEl p i v : M D T Unit) := by unfold assignEl; uses
theorem uses_destroy1 (p i : Nat) : Uses kd 0 (destroy1 p i : M D T Unit) := by unfold destroy1; uses
macro_rules | `(tactic| uses0) => `(tactic| with_reducible first | exact uses_copyEl _ _ | exact uses_moveEl _ _ | exact uses_construct _ _ _ | exact uses_assignEl _ _ _ | exact uses_destroy1 _ _)
theorem uses_destroyN (p : Nat) : ∀ n i, Uses kd 0 (destroyN p i n : M D T Unit)
  | 0, _ => uses_ret _
  | n + 1, i => uses_bind (uses_destroy1 p i) (Nat.le_refl _) fun _ => uses_destroyN p n (i + 1)
theorem uses_uninitCopyLoop (src dst o : Nat) : ∀ n i k, Uses kd (amt 0 n 0 0 kd) (uninitCopyLoop src dst o i k n : M D T Unit)
  | 0, _, _ => uses_ret _
  | n + 1, i, k => by
    unfold uninitCopyLoop
    uses
    exact uses_mono (uses_uninitCopyLoop src dst o n (i + 1) (k + 1)) (by uses_arith)
theorem uses_uninitCopy (src i n dst o : Nat) : Uses kd (amt 0 n 0 0 kd) (uninitCopy src i n dst o : M D T Unit) := uses_uninitCopyLoop _ _ _ _ _ _
theorem uses_uninitMove (src dst : Nat) : ∀ n i o, Uses kd 0 (uninitMove src i n dst o : M D T Unit)
  | 0, _, _ => uses_ret _
  | n + 1, i, o => by
    unfold uninitMove
    uses
    exact uses_uninitMove src dst n (i + 1) (o + 1)
macro_rules | `(tactic| uses0) => `(tactic| with_reducible first | exact uses_destroyN _ _ _ | exact uses_uninitCopy _ _ _ _ _ | exact uses_uninitMove _ _ _ _ _)

/-! ### Bounds that depend on the result -/

/-- with `a` events before, at most `k b` altogether if the result is `b`, and never more than `n` -/
def UsesB (kd : Kind) (k : β → Nat) (n a : Nat) (x : M D T β) : Prop :=
  ∀ s m, s.fault = some (kd, m) → n ≤ m + a → Spent kd (m + a) k (x s) (x s.calm)

variable {k : β → Nat} {k1 : δ → Nat} {a j n1 : Nat}

theorem usesB_ret {b : β} (h : a ≤ k b) : UsesB kd k n a (M.ret b : M D T β) := fun _ m hs _ => ⟨m, hs, by omega, rfl⟩

theorem usesB_undef : UsesB kd k n a (undef : M D T β) := fun _ _ _ _ => rfl

theorem usesB_bindB {x : M D T δ} {f : δ → M D T β} (hx : UsesB kd k1 n1 0 x) (h : a + n1 ≤ n) (hf : ∀ b, UsesB kd k n (a + k1 b) (f b)) : UsesB kd k n a (x.bind f) :=
  fun s m hs hm => spent_bind (hx s m hs (by omega)) fun s' b m' hs' hm' => spent_mono (hf b s' m' hs' (by omega)) fun _ => by omega

theorem usesB_of {x : M D T β} (hx : Uses kd j x) (h : a + j ≤ n) (hk : ∀ b, a + j ≤ k b) : UsesB kd k n a x :=
  fun s m hs hm => spent_mono (hx s m hs (by omega)) fun b => by have := hk b; omega

theorem uses_of_usesB {x : M D T β} (hx : UsesB kd k n 0 x) (hk : ∀ b, k b ≤ n) : Uses kd n x :=
  fun s m hs hm => spent_mono (hx s m hs (by omega)) fun b => by have := hk b; omega

theorem usesB_bind {x : M D T δ} {f : δ → M D T β} (hx : Uses kd j x) (h : a + j ≤ n) (hf : ∀ b, UsesB kd k n (a + j) (f b)) : UsesB kd k n a (x.bind f) :=
  usesB_bindB (usesB_of (k := fun _ => j) hx (by omega) fun _ => by omega) h hf

theorem usesB_guard {x : M D T β} {hd : M D T Unit} (h : UsesB kd k n a x) : UsesB kd k n a (x.guard hd) :=
  fun s m hs hm => spent_guard (h s m hs hm)

theorem usesB_mono {k' : β → Nat} {n' : Nat} {x : M D T β} (hx : UsesB kd k n a x) (h : n ≤ n') (hk : ∀ b, k b ≤ k' b) : UsesB kd k' n' a x :=
  fun s m hs hm => spent_mono (hx s m hs (by omega)) fun b => by have := hk b; omega

theorem usesB_assoc {γ ε : Type} {k : γ → Nat} {x : M D T ε} {f : ε → M D T δ} {g : δ → M D T γ} (h : UsesB kd k n a (x.bind fun b => (f b).bind g)) : UsesB kd k n a ((x.bind f).bind g) :=
  assoc_eq ▸ h

theorem usesB_ret_bind {b : δ} {f : δ → M D T β} (h : UsesB kd k n a (f b)) : UsesB kd k n a ((M.ret b).bind f) := h

theorem usesB_guard_bind {x : M D T δ} {hd : M D T Unit} {f : δ → M D T β} (h : UsesB kd k n a (x.bind f)) : UsesB kd k n a ((x.guard hd).bind f) :=
  fun s m hs hm => spent_guard_bind (h s m hs hm)

/-- one step through a computation, with a bound that depends on the result -/
macro "usesB1" : tactic => `(tactic| first
  | with_reducible refine usesB_ret ?_
  | with_reducible exact usesB_undef
  | with_reducible refine usesB_ret_bind ?_
  | with_reducible refine usesB_assoc ?_
  | with_reducible refine usesB_guard_bind ?_
  | with_reducible refine usesB_guard ?_
  | ((with_reducible eapply usesB_bind); (focus uses0); (focus uses_arith); (intro _))
  | split)

macro "usesB" : tactic => `(tactic| repeat' usesB1)

/-! ### Paying from a store that depends on the state -/

/-- `n` events are paid for beforehand, and payment for `r b` of them is left if the result is `b` -/
def Pays (kd : Kind) (n : Nat) (r : β → Nat) (x : M D T β) : Prop := ∀ s m, s.fault = some (kd, m) → n ≤ m →
  match x s with
  | .ok s' b => ∃ m', s'.fault = some (kd, m') ∧ m + r b ≤ m' + n ∧ x s.calm = .ok s'.calm b
  | .thrown _ => False
  | .ub => x s.calm = .ub

variable {r : β → Nat} {r' : δ → Nat}

theorem pays_mono {r1 : β → Nat} {x : M D T β} (hx : Pays kd n r x) (h : n ≤ n1) (hr : ∀ b, r1 b + n ≤ r b + n1) : Pays kd n1 r1 x := by
  intro s m hs hm
  have h1 := hx s m hs (by omega)
  cases hc : x s with
  | ok s' b =>
    rw [hc] at h1
    obtain ⟨m', h2, h3, h4⟩ := h1
    exact ⟨m', h2, by have := hr b; omega, h4⟩
  | thrown _ => rw [hc] at h1; exact h1
  | ub => rw [hc] at h1; exact h1

theorem pays_ret {b : β} (h : r b ≤ n) : Pays kd n r (M.ret b : M D T β) := fun _ m hs _ => ⟨m, hs, by omega, rfl⟩

theorem pays_undef : Pays kd n r (undef : M D T β) := fun _ _ _ _ => rfl

theorem pays_undef_bind {f : δ → M D T β} : Pays kd n r ((undef : M D T δ).bind f) := fun _ _ _ _ => rfl

theorem pays_bindP {x : M D T β} {f : β → M D T δ} (hx : Pays kd n r x) (hf : ∀ b, Pays kd (r b) r' (f b)) : Pays kd n r' (x.bind f) := by
  intro s m hs hm
  have h1 := hx s m hs hm
  simp only [M.bind]
  cases hc : x s with
  | ok s' b =>
    rw [hc] at h1
    obtain ⟨m', h2, h3, h4⟩ := h1
    rw [h4]
    have h5 := hf b s' m' h2 (by omega)
    simp only
    cases hd : f b s' with
    | ok s'' d =>
      rw [hd] at h5
      obtain ⟨m'', h6, h7, h8⟩ := h5
      exact ⟨m'', h6, by omega, h8⟩
    | thrown _ => rw [hd] at h5; exact h5
    | ub => rw [hd] at h5; exact h5
  | thrown _ => rw [hc] at h1; exact h1.elim
  | ub => rw [hc] at h1; simp only; rw [h1]

theorem pays_of {x : M D T β} (hx : Uses kd j x) (h : j ≤ n) (hr : ∀ b, r b ≤ n - j) : Pays kd n r x := by
  intro s m hs hm
  have h1 := hx s m hs (by omega)
  cases hc : x s with
  | ok s' b =>
    rw [hc] at h1
    obtain ⟨m', h2, h3, h4⟩ := h1
    exact ⟨m', h2, by have := hr b; simp only at h3; omega, h4⟩
  | thrown _ => rw [hc] at h1; exact h1
  | ub => rw [hc] at h1; exact h1

theorem uses_of_pays {x : M D T β} (hx : Pays kd n r x) : Uses kd n x := by
  intro s m hs hm
  have h1 := hx s m hs hm
  cases hc : x s with
  | ok s' b =>
    rw [hc] at h1
    obtain ⟨m', h2, h3, h4⟩ := h1
    exact ⟨m', h2, by show m ≤ m' + n; omega, h4⟩
  | thrown _ => rw [hc] at h1; exact h1
  | ub => rw [hc] at h1; exact h1

theorem pays_bind {x : M D T β} {f : β → M D T δ} (hx : Uses kd j x) (h : j ≤ n) (hf : ∀ b, Pays kd (n - j) r' (f b)) : Pays kd n r' (x.bind f) :=
  pays_bindP (r := fun _ => n - j) (pays_of hx h fun _ => Nat.le_refl _) hf

theorem pays_assoc {γ ε : Type} {r : γ → Nat} {x : M D T ε} {f : ε → M D T δ} {g : δ → M D T γ} (h : Pays kd n r (x.bind fun b => (f b).bind g)) : Pays kd n r ((x.bind f).bind g) :=
  assoc_eq ▸ h

theorem pays_ret_bind {b : δ} {f : δ → M D T β} (h : Pays kd n r (f b)) : Pays kd n r ((M.ret b).bind f) := h

theorem pays_guard {x : M D T β} {hd : M D T Unit} (h : Pays kd n r x) : Pays kd n r (x.guard hd) := by
  intro s m hs hm
  have h1 := h s m hs hm
  simp only [M.guard]
  cases hc : x s with
  | ok s' b =>
    rw [hc] at h1
    obtain ⟨m', h2, h3, h4⟩ := h1
    rw [h4]
    exact ⟨m', h2, h3, rfl⟩
  | thrown _ => rw [hc] at h1; exact h1.elim
  | ub => rw [hc] at h1; simp only; rw [h1]

end Mm
