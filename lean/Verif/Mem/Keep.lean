import Verif.Mem.Cost

/-!
# No node has many elements (helper lemmas for C49)

What is kept by everything that does not construct elements beyond a bound, also if it throws.
-/

namespace Mm

variable {D T β δ : Type} {N : Nat}

/-- elements have small indices -/
def Few (N : Nat) (x : Cell D T) : Prop := ∀ i y, x.els[i]? = some y → y ≠ .raw → i < N

def AllFew (N : Nat) (m : Mem D T) : Prop := ∀ p x, m p = some x → Few N x

def Keep (N : Nat) (x : M D T β) : Prop := ∀ s, AllFew N s.mem →
  match x s with
  | .ok s' _ => AllFew N s'.mem
  | .thrown s' => AllFew N s'.mem
  | .ub => True

theorem keep_ret (b : β) : Keep N (M.ret b : M D T β) := fun _ h => h

theorem keep_undef : Keep N (undef : M D T β) := fun _ _ => trivial

theorem keep_bind {x : M D T β} {f : β → M D T δ} (hx : Keep N x) (hf : ∀ b, Keep N (f b)) : Keep N (x.bind f) := by
  intro s hs
  have h := hx s hs
  unfold M.bind
  cases hxs : x s with
  | ok s' b => rw [hxs] at h; exact hf b s' h
  | thrown s' => rw [hxs] at h; exact h
  | ub => trivial

theorem keep_guard {x : M D T β} {hd : M D T Unit} (hx : Keep N x) (hh : Keep N hd) : Keep N (x.guard hd) := by
  intro s hs
  have h := hx s hs
  unfold M.guard
  cases hxs : x s with
  | ok s' b => rw [hxs] at h; exact h
  | thrown s' =>
    rw [hxs] at h
    have h2 := hh s' h
    simp only
    cases hd' : hd s' with
    | ok => rw [hd'] at h2; exact h2
    | thrown => trivial
    | ub => trivial
  | ub => trivial

theorem keep_ite {p : Prop} [Decidable p] {x y : M D T β} (hx : Keep N x) (hy : Keep N y) : Keep N (if p then x else y) := by
  split <;> assumption

theorem keep_tick (k : Kind) : Keep N (tick k : M D T Unit) := by
  intro s hs
  unfold tick
  cases hf : s.fault with
  | none => exact hs
  | some f =>
    obtain ⟨k', n⟩ := f
    simp only
    by_cases h : k = k'
    · rw [if_pos h]
      cases n <;> exact hs
    · rw [if_neg h]
      exact hs

theorem allFew_upd {m : Mem D T} {p : Nat} {x : Cell D T} (h : AllFew N m) (hx : Few N x) : AllFew N (upd m p (some x)) := by
  intro q y hy
  unfold upd at hy
  split at hy
  · cases hy; exact hx
  · exact h q y hy

theorem allFew_none {m : Mem D T} {p : Nat} (h : AllFew N m) : AllFew N (upd m p none) := by
  intro q y hy
  unfold upd at hy
  split at hy
  · cases hy
  · exact h q y hy

/-- what is known of a cell that is read -/
theorem keep_cell_bind {p : Nat} {f : Cell D T → M D T δ} (hf : ∀ x, Few N x → Keep N (f x)) : Keep N ((cell p).bind f) := by
  intro s hs
  unfold M.bind cell
  cases h : s.mem p with
  | none => trivial
  | some x => exact hf x (hs p x h) s hs

theorem keep_cell (p : Nat) : Keep N (cell p : M D T (Cell D T)) := by
  intro s hs
  unfold cell
  cases s.mem p with
  | none => trivial
  | some x => exact hs

theorem keep_modify {p : Nat} {f : Cell D T → Cell D T} (hf : ∀ x, Few N x → Few N (f x)) : Keep N (modify p f) := by
  intro s hs
  unfold modify
  cases h : s.mem p with
  | none => trivial
  | some x => exact allFew_upd hs (hf x (hs p x h))

theorem few_raw {n rc tok : Nat} {x : D} : Few N (⟨rc, tok, List.replicate n .raw, x⟩ : Cell D T) := by
  intro i y h hy
  simp only [List.getElem?_replicate] at h
  split at h
  · cases h; exact absurd rfl hy
  · cases h

theorem keep_alloc (E : Env D T) (n : Nat) (x : D) : Keep N (alloc E n x) := keep_bind (keep_tick _) fun _ _ hs => allFew_upd hs few_raw

theorem keep_dealloc (room : D → Nat) (p n k : Nat) : Keep N (dealloc room p n k : M D T Unit) :=
  keep_bind (keep_cell p) fun _ => keep_ite (fun _ hs => allFew_none hs) keep_undef

theorem keep_inc (E : Env D T) (p : Nat) : Keep N (inc E p) :=
  keep_bind (keep_cell p) fun _ => keep_ite (keep_ret _) (keep_modify fun _ h => h)

theorem keep_dec (E : Env D T) (p : Nat) : Keep N (dec E p) :=
  keep_bind (keep_cell p) fun _ => keep_ite (keep_ret _) (keep_ite keep_undef (keep_bind (keep_modify fun _ h => h) fun _ => keep_ret _))

theorem keep_canMutate (E : Env D T) (e p : Nat) : Keep N (canMutate E e p) := keep_bind (keep_cell p) fun _ => keep_ret _

theorem keep_setTok (E : Env D T) (p e : Nat) : Keep N (setTok E p e) :=
  keep_bind (keep_cell p) fun _ => keep_ite (keep_modify fun _ h => h) (keep_ret _)

theorem keep_set {p i : Nat} {x : Cell D T} {y : Slot T} (h : Few N x) (hy : y ≠ .raw → i < N) : Keep N (setEls p (x.els.set i y) : M D T Unit) := by
  refine keep_modify fun _ _ j z hj hz => ?_
  simp only [List.getElem?_set] at hj
  split at hj
  · split at hj
    · rename_i he _
      simp only [Option.some.injEq] at hj
      exact he ▸ hy (hj ▸ hz)
    · cases hj
  · exact h j z hj hz

theorem keep_readEl_bind {p i : Nat} {f : T → M D T δ} (hf : ∀ v, i < N → Keep N (f v)) : Keep N ((readEl p i).bind f) := by
  unfold readEl
  rw [assoc_eq]
  refine keep_cell_bind fun x hx => ?_
  cases h : x.els[i]? with
  | none => exact keep_undef
  | some y =>
    cases y with
    | live v => exact hf v (hx i _ h (by simp))
    | raw => exact keep_undef
    | moved => exact keep_undef

theorem keep_readEl (p i : Nat) : Keep N (readEl p i : M D T T) := by
  have := keep_readEl_bind (N := N) (p := p) (i := i) (D := D) (f := fun v : T => M.ret v) fun _ _ => keep_ret _
  rwa [show (readEl p i : M D T T).bind (fun v => M.ret v) = readEl p i from by funext s; simp only [M.bind]; cases readEl p i s <;> rfl] at this

theorem keep_moveEl (p i : Nat) : Keep N (moveEl p i : M D T T) :=
  keep_cell_bind fun x hx => by
    cases h : x.els[i]? with
    | none => exact keep_undef
    | some y => cases y <;> first | exact keep_undef | exact keep_bind (keep_set hx fun _ => hx i _ h (by simp)) fun _ => keep_ret _

theorem keep_construct {p i : Nat} {v : T} (hi : i < N) : Keep N (construct p i v : M D T Unit) :=
  keep_cell_bind fun x hx => by
    cases x.els[i]? with
    | none => exact keep_undef
    | some y => cases y <;> first | exact keep_undef | exact keep_set hx fun _ => hi

theorem keep_assignEl (p i : Nat) (v : T) : Keep N (assignEl p i v : M D T Unit) :=
  keep_cell_bind fun x hx => by
    cases h : x.els[i]? with
    | none => exact keep_undef
    | some y => cases y <;> first | exact keep_undef | exact keep_set hx fun _ => hx i _ h (by simp)

theorem keep_destroy1 (p i : Nat) : Keep N (destroy1 p i : M D T Unit) :=
  keep_cell_bind fun x hx => by
    cases x.els[i]? with
    | none => exact keep_undef
    | some y => cases y <;> first | exact keep_undef | exact keep_set hx fun h => absurd rfl h

theorem keep_destroyN (p : Nat) : ∀ n i, Keep N (destroyN p i n : M D T Unit)
  | 0, _ => keep_ret _
  | n + 1, i => keep_bind (keep_destroy1 p i) fun _ => keep_destroyN p n (i + 1)

theorem keep_uninitCopyLoop (src dst o : Nat) : ∀ n i k, o + k ≤ i → Keep N (uninitCopyLoop src dst o i k n : M D T Unit)
  | 0, _, _, _ => keep_ret _
  | n + 1, i, k, h => by
    unfold uninitCopyLoop
    refine keep_bind (keep_guard ?_ (keep_destroyN _ _ _)) fun _ => keep_uninitCopyLoop src dst o n (i + 1) (k + 1) (by omega)
    unfold copyEl
    rw [assoc_eq]
    refine keep_readEl_bind fun v hi => ?_
    rw [assoc_eq]
    exact keep_bind (keep_tick _) fun _ => keep_construct (by omega)

theorem keep_uninitCopy {src i n dst o : Nat} (h : o ≤ i) : Keep N (uninitCopy src i n dst o : M D T Unit) := keep_uninitCopyLoop _ _ _ _ _ _ (by omega)

/-! ### Copies -/

/-- as `Uses`, where nodes have few elements -/
def FewUses (N : Nat) (kd : Kind) (k : Nat) (x : M D T β) : Prop :=
  ∀ s n, AllFew N s.mem → s.fault = some (kd, n) → k ≤ n → Spent kd n (fun _ => k) (x s) (x s.calm)

variable {kd : Kind} {k n : Nat}

theorem few_of {x : M D T β} (hx : Uses kd k x) : FewUses N kd k x := fun s n _ hs hn => hx s n hs hn

theorem few_mono {x : M D T β} (hx : FewUses N kd k x) (h : k ≤ n) : FewUses N kd n x :=
  fun s m hf hs hm => spent_mono (hx s m hf hs (by omega)) fun _ => by omega

theorem few_bind {x : M D T β} {f : β → M D T δ} (hx : FewUses N kd k x) (hk : Keep N x) (h : k ≤ n) (hf : ∀ b, FewUses N kd (n - k) (f b)) : FewUses N kd n (x.bind f) := by
  intro s m hs hm hn
  have h1 := hx s m hs hm (by omega)
  have h2 := hk s hs
  simp only [M.bind]
  cases hc : x s with
  | ok s' b =>
    rw [hc] at h1 h2
    obtain ⟨m', h3, h4, h5⟩ := h1
    simp only at h4
    rw [h5]
    have h6 := hf b s' m' h2 h3 (by omega)
    simp only
    cases hd : f b s' with
    | ok s'' d =>
      rw [hd] at h6
      obtain ⟨m'', h7, h8, h9⟩ := h6
      simp only at h8
      exact ⟨m'', h7, by show m ≤ m'' + n; omega, h9⟩
    | thrown _ => rw [hd] at h6; exact h6.elim
    | ub => rw [hd] at h6; exact h6
  | thrown _ => rw [hc] at h1; exact h1.elim
  | ub =>
    rw [hc] at h1
    simp only [Spent] at h1 ⊢
    rw [h1]

theorem few_guard {x : M D T β} {hd : M D T Unit} (h : FewUses N kd n x) : FewUses N kd n (x.guard hd) :=
  fun s m hf hs hm => spent_guard (h s m hf hs hm)

theorem few_guard_bind {x : M D T β} {hd : M D T Unit} {f : β → M D T δ} (h : FewUses N kd n (x.bind f)) : FewUses N kd n ((x.guard hd).bind f) :=
  fun s m hf hs hm => spent_guard_bind (h s m hf hs hm)

theorem few_assoc {γ : Type} {x : M D T β} {f : β → M D T δ} {g : δ → M D T γ} (h : FewUses N kd n (x.bind fun b => (f b).bind g)) : FewUses N kd n ((x.bind f).bind g) :=
  assoc_eq ▸ h

theorem few_readEl_bind {p i : Nat} {f : T → M D T δ} (hf : ∀ v, i < N → FewUses N kd n (f v)) : FewUses N kd n ((readEl p i).bind f) := by
  by_cases hi : i < N
  · exact few_bind (few_of (uses_readEl p i)) (keep_readEl p i) (Nat.zero_le _) fun v => hf v hi
  · intro s m hs hm _
    have h : ∀ s : St D T, AllFew N s.mem → readEl p i s = .ub := by
      intro s hs
      unfold readEl M.bind cell
      cases hp : s.mem p with
      | none => rfl
      | some x =>
        have hx := hs p x hp
        simp only
        cases he : x.els[i]? with
        | none => rfl
        | some y =>
          cases y with
          | live v => exact absurd (hx i _ he (by simp)) hi
          | raw => rfl
          | moved => rfl
    simp only [M.bind, h s hs, h s.calm hs, Spent]

theorem few_uninitCopyLoop (src dst o : Nat) : ∀ n i k, o + k ≤ i → FewUses N .copy (N - i) (uninitCopyLoop src dst o i k n : M D T Unit)
  | 0, _, _, _ => few_of (uses_ret _)
  | n + 1, i, k, h => by
    unfold uninitCopyLoop
    refine few_guard_bind (few_assoc ?_)
    unfold copyEl
    refine few_assoc (few_readEl_bind fun v hi => few_assoc (few_bind (few_of (uses_tick_copy)) (keep_tick _) (by show 1 ≤ _; omega) fun _ => ?_))
    refine few_bind (few_of (uses_ret _)) (keep_ret _) (Nat.zero_le _) fun _ => few_bind (few_of (uses_construct _ _ _)) (keep_construct (by omega)) (Nat.zero_le _) fun _ => ?_
    exact few_mono (few_uninitCopyLoop src dst o n (i + 1) (k + 1) (by omega)) (by simp only [amt]; omega)

theorem few_uninitCopy {src i n dst o : Nat} (h : o ≤ i) : FewUses N .copy N (uninitCopy src i n dst o : M D T Unit) :=
  few_mono (few_uninitCopyLoop _ _ _ _ _ _ (by omega)) (Nat.sub_le _ _)

end Mm
