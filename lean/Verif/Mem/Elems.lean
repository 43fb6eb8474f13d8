import Verif.Mem.Ghost

/-!
# Reasoning about code on memory of nodes
-/

namespace Mm

variable {D T V β δ : Type}

/-! ### Outcomes -/

/-- the result is defined, and satisfies `Q`, or `E` if it is an exception -/
def Out (r : Res D T β) (Q : St D T → β → Prop) (E : St D T → Prop) : Prop :=
  match r with
  | .ok s b => Q s b
  | .thrown s => E s
  | .ub => False

section
variable {s : St D T} {Q : St D T → β → Prop} {E E' : St D T → Prop}

theorem out_ret {b : β} (h : Q s b) : Out ((M.ret b : M D T β) s) Q E := h

theorem out_bind {x : M D T β} {f : β → M D T δ} {Q' : St D T → δ → Prop} (h : Out (x s) Q E)
    (hf : ∀ s' b, Q s' b → Out (f b s') Q' E) : Out ((x.bind f) s) Q' E := by
  unfold M.bind
  cases hx : x s with
  | ok s' b => rw [hx] at h; exact hf s' b h
  | thrown s' => rw [hx] at h; exact h
  | ub => rw [hx] at h; exact h

theorem out_guard {x : M D T β} {hd : M D T Unit} (h : Out (x s) Q E')
    (hf : ∀ s', E' s' → Out (hd s') (fun s'' _ => E s'') (fun _ => False)) : Out ((x.guard hd) s) Q E := by
  unfold M.guard
  cases hx : x s with
  | ok s' b => rw [hx] at h; exact h
  | thrown s' =>
    rw [hx] at h
    have := hf s' h
    simp only
    cases hh : hd s' with
    | ok s'' _ => rw [hh] at this; exact this
    | thrown _ => rw [hh] at this; exact this
    | ub => rw [hh] at this; exact this
  | ub => rw [hx] at h; exact h

theorem out_mono {r : Res D T β} {Q' : St D T → β → Prop} (h : Out r Q E) (h1 : ∀ s b, Q s b → Q' s b)
    (h2 : ∀ s, E s → E' s) : Out r Q' E' := by
  cases r with
  | ok s b => exact h1 s b h
  | thrown s => exact h2 s h
  | ub => exact h

theorem bind_ok {x : M D T β} {f : β → M D T δ} {s' : St D T} {b : β} (h : x s = .ok s' b) : (x.bind f) s = f b s' := by
  unfold M.bind; rw [h]

theorem guard_ok {x : M D T β} {hd : M D T Unit} {s' : St D T} {b : β} (h : x s = .ok s' b) : (x.guard hd) s = .ok s' b := by
  unfold M.guard; rw [h]

end

/-! ### Faults -/

/-- what may be left of the fault `f` -/
def Later (f f' : Option (Kind × Nat)) : Prop := f' = none ∨ f'.map Prod.fst = f.map Prod.fst

theorem Later.refl (f : Option (Kind × Nat)) : Later f f := .inr rfl

theorem Later.none {f f' : Option (Kind × Nat)} (h : Later f f') (hf : f = none) : f' = none := by
  rcases h with h | h
  · exact h
  · rw [hf] at h; simpa using h

theorem Later.trans {f f' f'' : Option (Kind × Nat)} (h : Later f f') (h' : Later f' f'') : Later f f'' := by
  rcases h' with h' | h'
  · exact .inl h'
  · rcases h with h | h
    · rw [h] at h'; exact .inl (by simpa using h')
    · exact .inr (h'.trans h)

/-- without a fault, nothing is thrown, and there are no faults but the one there was -/
def Calm (x : M D T β) : Prop := ∀ s,
  match x s with
  | .ok s' _ => Later s.fault s'.fault
  | .thrown _ => s.fault ≠ none
  | .ub => True

theorem calm_ret (b : β) : Calm (M.ret b : M D T β) := fun _ => .refl _

theorem calm_undef : Calm (undef : M D T β) := fun _ => trivial

theorem calm_bind {x : M D T β} {f : β → M D T δ} (hx : Calm x) (hf : ∀ b, Calm (f b)) : Calm (x.bind f) := by
  intro s
  have h := hx s
  unfold M.bind
  cases hxs : x s with
  | ok s' b =>
    rw [hxs] at h
    have h : Later s.fault s'.fault := h
    have h2 := hf b s'
    simp only
    cases hf' : f b s' with
    | ok s'' b' => rw [hf'] at h2; exact h.trans h2
    | thrown s'' => rw [hf'] at h2; exact fun h0 => h2 (h.none h0)
    | ub => trivial
  | thrown s' => rw [hxs] at h; exact h
  | ub => trivial

theorem calm_guard {x : M D T β} {hd : M D T Unit} (hx : Calm x) : Calm (x.guard hd) := by
  intro s
  have h := hx s
  unfold M.guard
  cases hxs : x s with
  | ok s' b => rw [hxs] at h; exact h
  | thrown s' =>
    rw [hxs] at h
    simp only
    cases hd s' with
    | ok => exact h
    | thrown => trivial
    | ub => trivial
  | ub => trivial

theorem calm_ite {p : Prop} [Decidable p] {x y : M D T β} (hx : Calm x) (hy : Calm y) : Calm (if p then x else y) := by
  split <;> assumption

theorem calm_tick (k : Kind) : Calm (tick k : M D T Unit) := by
  intro s
  obtain ⟨m, cl, f⟩ := s
  unfold tick
  cases f with
  | none => exact .refl _
  | some f =>
    obtain ⟨k', n⟩ := f
    by_cases h : k = k'
    · simp only [h, if_true]
      cases n with
      | zero => simp
      | succ n => exact .inr rfl
    · simp only [h, if_false]
      exact .refl _

theorem calm_cell (p : Nat) : Calm (cell p : M D T (Cell D T)) := by
  intro s
  unfold cell
  cases s.mem p with
  | none => trivial
  | some c => exact .refl _

theorem calm_modify (p : Nat) (f : Cell D T → Cell D T) : Calm (modify p f) := by
  intro s
  unfold modify
  cases s.mem p with
  | none => trivial
  | some c => exact .refl _

theorem calm_alloc (E : Env D T) (n : Nat) (x : D) : Calm (alloc E n x) := calm_bind (calm_tick _) fun _ _ => .refl _

theorem calm_dealloc (room : D → Nat) (p n k : Nat) : Calm (dealloc room p n k : M D T Unit) :=
  calm_bind (calm_cell p) fun _ => calm_ite (fun _ => .refl _) calm_undef

theorem calm_inc (E : Env D T) (p : Nat) : Calm (inc E p) :=
  calm_bind (calm_cell p) fun _ => calm_ite (calm_ret _) (calm_modify _ _)

theorem calm_dec (E : Env D T) (p : Nat) : Calm (dec E p) :=
  calm_bind (calm_cell p) fun _ => calm_ite (calm_ret _) (calm_ite calm_undef (calm_bind (calm_modify _ _) fun _ => calm_ret _))

theorem calm_canMutate (E : Env D T) (e p : Nat) : Calm (canMutate E e p) := calm_bind (calm_cell p) fun _ => calm_ret _

theorem calm_setTok (E : Env D T) (p e : Nat) : Calm (setTok E p e) :=
  calm_bind (calm_cell p) fun _ => calm_ite (calm_modify _ _) (calm_ret _)

theorem calm_readEl (p i : Nat) : Calm (readEl p i : M D T T) :=
  calm_bind (calm_cell p) fun c => by
    cases c.els[i]? with
    | none => exact calm_undef
    | some x => cases x <;> first | exact calm_undef | exact calm_ret _

theorem calm_copyEl (p i : Nat) : Calm (copyEl p i : M D T T) :=
  calm_bind (calm_readEl p i) fun _ => calm_bind (calm_tick _) fun _ => calm_ret _

theorem calm_moveEl (p i : Nat) : Calm (moveEl p i : M D T T) :=
  calm_bind (calm_cell p) fun c => by
    cases c.els[i]? with
    | none => exact calm_undef
    | some x => cases x <;> first | exact calm_undef | exact calm_bind (calm_modify _ _) fun _ => calm_ret _

theorem calm_construct (p i : Nat) (v : T) : Calm (construct p i v : M D T Unit) :=
  calm_bind (calm_cell p) fun c => by
    cases c.els[i]? with
    | none => exact calm_undef
    | some x => cases x <;> first | exact calm_undef | exact calm_modify _ _

theorem calm_assignEl (p i : Nat) (v : T) : Calm (assignEl p i v : M D T Unit) :=
  calm_bind (calm_cell p) fun c => by
    cases c.els[i]? with
    | none => exact calm_undef
    | some x => cases x <;> first | exact calm_undef | exact calm_modify _ _

theorem calm_destroy1 (p i : Nat) : Calm (destroy1 p i : M D T Unit) :=
  calm_bind (calm_cell p) fun c => by
    cases c.els[i]? with
    | none => exact calm_undef
    | some x => cases x <;> first | exact calm_undef | exact calm_modify _ _

theorem calm_destroyN (p : Nat) : ∀ n i, Calm (destroyN p i n : M D T Unit)
  | 0, _ => calm_ret _
  | n + 1, i => calm_bind (calm_destroy1 p i) fun _ => calm_destroyN p n (i + 1)

theorem calm_uninitCopyLoop (src dst o : Nat) : ∀ n i k, Calm (uninitCopyLoop src dst o i k n : M D T Unit)
  | 0, _, _ => calm_ret _
  | n + 1, i, k => calm_bind (calm_guard (calm_bind (calm_copyEl _ _) fun _ => calm_construct _ _ _)) fun _ =>
      calm_uninitCopyLoop src dst o n (i + 1) (k + 1)

theorem calm_uninitCopy (src i n dst o : Nat) : Calm (uninitCopy src i n dst o : M D T Unit) := calm_uninitCopyLoop _ _ _ _ _ _

theorem calm_uninitMove (src dst : Nat) : ∀ n i o, Calm (uninitMove src i n dst o : M D T Unit)
  | 0, _, _ => calm_ret _
  | n + 1, i, o => calm_bind (calm_moveEl _ _) fun _ => calm_bind (calm_construct _ _ _) fun _ =>
      calm_uninitMove src dst n (i + 1) (o + 1)

/-- without a fault, only the normal outcome is left -/
theorem out_calm {x : M D T β} {s : St D T} {Q : St D T → β → Prop} {E : St D T → Prop} (hx : Calm x) (hs : s.fault = none)
    (h : Out (x s) Q E) : Out (x s) (fun s' b => Q s' b ∧ s'.fault = none) (fun _ => False) := by
  have hc := hx s
  cases hxs : x s with
  | ok s' b =>
    rw [hxs] at h hc
    have hc : Later s.fault s'.fault := hc
    exact ⟨h, hc.none hs⟩
  | thrown s' => rw [hxs] at hc; exact hc hs
  | ub => rw [hxs] at h; exact h

/-- no copy of an element throws -/
def NoCopyFault (s : St D T) : Prop := ∀ n, s.fault ≠ some (.copy, n)

/-! ### Steps -/

section
variable {s : St D T}

theorem cell_eq {p : Nat} {c : Cell D T} (h : s.mem p = some c) : cell p s = .ok s c := by unfold cell; rw [h]

theorem modify_eq {p : Nat} {c : Cell D T} {f : Cell D T → Cell D T} (h : s.mem p = some c) :
    modify p f s = .ok { s with mem := upd s.mem p (some (f c)) } () := by unfold modify; rw [h]

/-- something that may throw changes nothing -/
theorem tick_out' {k : Kind} {Q : Mem D T → Prop} (h : Q s.mem) :
    Out (tick k s) (fun s' _ => Q s'.mem ∧ (NoCopyFault s → NoCopyFault s')) (fun s' => Q s'.mem) := by
  unfold tick
  cases hf : s.fault with
  | none => exact ⟨h, fun h => h⟩
  | some x =>
    obtain ⟨k', n⟩ := x
    simp only
    split
    · cases n with
      | zero => exact h
      | succ n =>
        refine ⟨h, fun hn m hm => ?_⟩
        simp only [Option.some.injEq, Prod.mk.injEq] at hm
        rw [hm.1] at hf
        exact hn _ hf
    · exact ⟨h, fun h => h⟩

/-- copies do not throw when the fault is of another kind -/
theorem tick_copy (h : NoCopyFault s) : tick .copy s = .ok s () := by
  unfold tick
  cases hf : s.fault with
  | none => rfl
  | some x =>
    obtain ⟨k', n⟩ := x
    simp only
    split
    · rename_i hk; subst hk; exact absurd hf (h n)
    · rfl

theorem upd_upd {γ : Type} {f : Nat → γ} {i : Nat} {v w : γ} : upd (upd f i v) i w = upd f i w := by
  funext j
  unfold upd
  split <;> rfl

theorem upd_same {γ : Type} {f : Nat → γ} {i : Nat} {v : γ} (h : f i = v) : upd f i v = f := by
  funext j
  unfold upd
  split
  · rename_i hj; rw [hj]; exact h.symm
  · rfl

theorem upd_comm {γ : Type} {f : Nat → γ} {i j : Nat} {v w : γ} (h : i ≠ j) : upd (upd f i v) j w = upd (upd f j w) i v := by
  funext k
  unfold upd
  by_cases h1 : k = j
  · by_cases h2 : k = i
    · exact absurd (h2.symm.trans h1) h
    · subst h1; rw [if_pos rfl, if_neg h2, if_pos rfl]
  · by_cases h2 : k = i
    · subst h2; rw [if_neg h1, if_pos rfl, if_pos rfl]
    · rw [if_neg h1, if_neg h2, if_neg h2, if_neg h1]

theorem setEls_eq {p : Nat} {c : Cell D T} {l : List (Slot T)} (h : s.mem p = some c) :
    setEls p l s = .ok { s with mem := upd s.mem p (some { c with els := l }) } () := modify_eq h

theorem readEl_eq {p i : Nat} {c : Cell D T} {v : T} (h : s.mem p = some c) (hi : c.els[i]? = some (.live v)) :
    readEl p i s = .ok s v := by
  unfold readEl
  rw [bind_ok (cell_eq h), hi]; rfl

theorem construct_eq {p i : Nat} {c : Cell D T} {v : T} (h : s.mem p = some c) (hi : c.els[i]? = some .raw) :
    construct p i v s = .ok { s with mem := upd s.mem p (some { c with els := c.els.set i (.live v) }) } () := by
  unfold construct
  rw [bind_ok (cell_eq h), hi]
  exact setEls_eq h

theorem moveEl_eq {p i : Nat} {c : Cell D T} {v : T} (h : s.mem p = some c) (hi : c.els[i]? = some (.live v)) :
    moveEl p i s = .ok { s with mem := upd s.mem p (some { c with els := c.els.set i .moved }) } v := by
  unfold moveEl
  rw [bind_ok (cell_eq h), hi]
  show (M.bind _ _) s = _
  rw [bind_ok (setEls_eq h)]; rfl

theorem assignEl_eq {p i : Nat} {c : Cell D T} {v w : T} (h : s.mem p = some c)
    (hi : c.els[i]? = some (.live w) ∨ c.els[i]? = some .moved) :
    assignEl p i v s = .ok { s with mem := upd s.mem p (some { c with els := c.els.set i (.live v) }) } () := by
  unfold assignEl
  rw [bind_ok (cell_eq h)]
  rcases hi with hi | hi
  · rw [hi]; exact setEls_eq h
  · rw [hi]; exact setEls_eq h

/-- an object is there -/
def Slot.there : Slot T → Bool
  | .raw => false
  | _ => true

theorem destroy1_eq {p i : Nat} {c : Cell D T} {x : Slot T} (h : s.mem p = some c) (hi : c.els[i]? = some x) (hx : x.there = true) :
    destroy1 p i s = .ok { s with mem := upd s.mem p (some { c with els := c.els.set i .raw }) } () := by
  unfold destroy1
  rw [bind_ok (cell_eq h), hi]
  cases x with
  | raw => cases hx
  | live v => exact setEls_eq h
  | moved => exact setEls_eq h

theorem set_mid {α : Type} (a : List α) (x y : α) (b : List α) (i : Nat) (hi : i = a.length) : (a ++ x :: b).set i y = a ++ y :: b := by
  subst hi; simp

theorem get_mid {α : Type} (a : List α) (x : α) (b : List α) (i : Nat) (hi : i = a.length) : (a ++ x :: b)[i]? = some x := by
  subst hi; simp

/-- `destroy_n` of objects that are there -/
theorem destroyN_eq {p : Nat} : ∀ (mid : List (Slot T)) (pre post : List (Slot T)) (i n : Nat) (s : St D T) (c : Cell D T), s.mem p = some c →
    c.els = pre ++ mid ++ post → i = pre.length → n = mid.length → (∀ x ∈ mid, x.there = true) →
    destroyN p i n s = .ok { s with mem := upd s.mem p (some { c with els := pre ++ List.replicate n .raw ++ post }) } ()
  | [], pre, post, i, n, s, c, h, he, hi, hn, _ => by
    subst hn
    simp only [List.append_nil] at he
    show Res.ok s () = _
    congr 1
    have : ({ c with els := pre ++ List.replicate ([] : List (Slot T)).length .raw ++ post } : Cell D T) = c := by
      simp only [List.length_nil, List.replicate_zero, List.append_nil, ← he]
    rw [this, upd_same h]
  | x :: mid, pre, post, i, n, s, c, h, he, hi, hn, ht => by
    subst hn
    show ((destroy1 p i).bind fun _ => destroyN p (i + 1) mid.length) s = _
    have hget : c.els[i]? = some x := by
      rw [he, List.append_assoc, List.cons_append]; exact get_mid _ _ _ _ hi
    rw [bind_ok (destroy1_eq h hget (ht x List.mem_cons_self))]
    have hset : c.els.set i .raw = (pre ++ [Slot.raw]) ++ mid ++ post := by
      rw [he, List.append_assoc, List.cons_append, set_mid _ _ _ _ _ hi]; simp
    rw [destroyN_eq mid (pre ++ [.raw]) post (i + 1) mid.length _ { c with els := c.els.set i .raw } upd_self hset (by simp [hi]) rfl
      (fun y hy => ht y (List.mem_cons_of_mem _ hy))]
    simp only [upd_upd]
    congr 4
    simp [List.replicate_succ]

theorem copyEl_out {p i : Nat} {c : Cell D T} {v : T} (h : s.mem p = some c) (hi : c.els[i]? = some (.live v)) :
    Out (copyEl p i s) (fun s' b => b = v ∧ s'.mem = s.mem ∧ (NoCopyFault s → NoCopyFault s')) (fun s' => s'.mem = s.mem ∧ ¬ NoCopyFault s) := by
  unfold copyEl
  rw [bind_ok (readEl_eq h hi)]
  by_cases hn : NoCopyFault s
  · rw [bind_ok (tick_copy hn)]
    exact ⟨rfl, rfl, fun h => h⟩
  · refine out_bind (out_mono (tick_out' (Q := fun m => m = s.mem) rfl) (fun _ _ h => h) (fun _ h => ⟨h, hn⟩)) ?_
    intro s' _ h
    exact ⟨rfl, h.1, h.2⟩

theorem uninitCopyLoop_out {src dst : Nat} (hne : src ≠ dst) {o : Nat} {m : Mem D T} {cd : Cell D T} (hd : m dst = some cd) {pre post : List (Slot T)} (ho : o = pre.length)
    {cs : Cell D T} (hsrc : m src = some cs) :
    ∀ (ys : List T) (xs : List T) (i k n : Nat) (s : St D T), n = ys.length → k = xs.length →
    (∀ j, j < n → cs.els[i + j]? = (ys[j]?).map .live) →
    cd.els = pre ++ List.replicate (k + n) .raw ++ post →
    s.mem = upd m dst (some { cd with els := pre ++ (xs.map .live ++ List.replicate n .raw) ++ post }) →
    Out (uninitCopyLoop src dst o i k n s)
      (fun s' _ => s'.mem = upd m dst (some { cd with els := pre ++ (xs ++ ys).map .live ++ post }) ∧ (NoCopyFault s → NoCopyFault s'))
      (fun s' => s'.mem = m ∧ ¬ NoCopyFault s)
  | [], xs, i, k, n, s, hn, hk, _, _, hm => by
    subst hn
    refine ⟨?_, fun h => h⟩
    rw [hm]; simp
  | y :: ys, xs, i, k, n, s, hn, hk, hy, hcd, hm => by
    subst hn
    unfold uninitCopyLoop
    have hmsrc : s.mem src = some cs := by rw [hm, upd_ne hne]; exact hsrc
    have hget : cs.els[i]? = some (.live y) := by
      have := hy 0 (by simp)
      simpa using this
    refine out_bind (Q := fun s' _ => s'.mem = upd m dst (some { cd with els := pre ++ ((xs ++ [y]).map .live ++ List.replicate ys.length .raw) ++ post }) ∧ (NoCopyFault s → NoCopyFault s')) ?_ ?_
    · refine out_guard (E' := fun s' => s'.mem = s.mem ∧ ¬ NoCopyFault s) ?_ ?_
      · refine out_bind (copyEl_out hmsrc hget) ?_
        rintro s' b ⟨rfl, hs', hnf⟩
        have hmd : s'.mem dst = some { cd with els := pre ++ (xs.map .live ++ List.replicate (b :: ys).length .raw) ++ post } := by
          rw [hs', hm, upd_self]
        have he : pre ++ (xs.map Slot.live ++ List.replicate (b :: ys).length Slot.raw) ++ post
            = (pre ++ xs.map .live) ++ .raw :: (List.replicate ys.length .raw ++ post) := by
          simp [List.replicate_succ]
        have hgd : (pre ++ (xs.map Slot.live ++ List.replicate (b :: ys).length Slot.raw) ++ post)[o + k]? = some .raw := by
          rw [he]; exact get_mid _ _ _ _ (by simp [ho, hk])
        rw [construct_eq hmd hgd]
        refine ⟨?_, hnf⟩
        show upd s'.mem dst _ = _
        rw [hs', hm, upd_upd]
        congr 2
        rw [he, set_mid _ _ _ _ _ (by simp [ho, hk])]
        simp
      · rintro s' ⟨hs', hnf⟩
        have hmd : s'.mem dst = some { cd with els := pre ++ (xs.map .live ++ List.replicate (y :: ys).length .raw) ++ post } := by
          rw [hs', hm, upd_self]
        rw [destroyN_eq (xs.map .live) pre (List.replicate (y :: ys).length .raw ++ post) o k s' _ hmd (by simp) ho (by simp [hk]) (by
          intro x hx
          obtain ⟨v, _, rfl⟩ := List.mem_map.mp hx
          rfl)]
        refine ⟨?_, hnf⟩
        show upd s'.mem dst _ = _
        rw [hs', hm, upd_upd]
        have : ({ cd with els := pre ++ List.replicate k .raw ++ (List.replicate (y :: ys).length .raw ++ post) } : Cell D T) = cd := by
          have h : pre ++ List.replicate k Slot.raw ++ (List.replicate (y :: ys).length Slot.raw ++ post) = cd.els := by
            rw [hcd, List.replicate_add]; simp only [List.append_assoc]
          rw [h]
        simp only [this]
        exact upd_same hd
    · rintro s' _ ⟨hs', hnf⟩
      have := uninitCopyLoop_out hne hd ho hsrc ys (xs ++ [y]) (i + 1) (k + 1) ys.length s' rfl (by simp [hk]) (by
          intro j hj
          have := hy (j + 1) (by simp; omega)
          rw [show i + (j + 1) = i + 1 + j by omega] at this
          simpa using this) (by
          rw [hcd]; congr 3; simp; omega) hs'
      refine out_mono this ?_ ?_
      · rintro s'' _ ⟨h1, h2⟩
        refine ⟨?_, fun h => h2 (hnf h)⟩
        rw [h1]; simp
      · rintro s'' ⟨h1, h2⟩
        exact ⟨h1, fun h => h2 (hnf h)⟩

/-- `uninitialized_copy` copies, or changes nothing -/
theorem uninitCopy_out {src i n dst o : Nat} (hne : src ≠ dst) {cd : Cell D T} (hd : s.mem dst = some cd) {pre post : List (Slot T)} (ho : o = pre.length)
    {cs : Cell D T} (hsrc : s.mem src = some cs) {ys : List T} (hn : n = ys.length) (hys : ∀ j, j < n → cs.els[i + j]? = (ys[j]?).map .live)
    (hcd : cd.els = pre ++ List.replicate n .raw ++ post) :
    Out (uninitCopy src i n dst o s)
      (fun s' _ => s'.mem = upd s.mem dst (some { cd with els := pre ++ ys.map .live ++ post }) ∧ (NoCopyFault s → NoCopyFault s'))
      (fun s' => s'.mem = s.mem ∧ ¬ NoCopyFault s) := by
  have := uninitCopyLoop_out (post := post) hne hd ho hsrc ys [] i 0 n s hn rfl hys (by rw [hcd]; simp) (by
    rw [show (List.map Slot.live ([] : List T) ++ List.replicate n (Slot.raw (T := T))) = List.replicate n Slot.raw from by simp, ← hcd]
    exact (upd_same hd).symm)
  rw [List.nil_append] at this
  exact this

/-- `uninitialized_move` -/
theorem uninitMove_eq {src dst : Nat} (hne : src ≠ dst) : ∀ (ys : List T) (i n o : Nat) (spre spost pre post : List (Slot T)) (s : St D T) (cs cd : Cell D T),
    s.mem src = some cs → s.mem dst = some cd → n = ys.length → i = spre.length → o = pre.length →
    cs.els = spre ++ ys.map .live ++ spost → cd.els = pre ++ List.replicate n .raw ++ post →
    uninitMove src i n dst o s = .ok (St.mk (upd (upd s.mem src (some { cs with els := spre ++ List.replicate n .moved ++ spost }))
      dst (some { cd with els := pre ++ ys.map .live ++ post })) s.clock s.fault) ()
  | [], i, n, o, spre, spost, pre, post, s, cs, cd, h1, h2, hn, hi, ho, hcs, hcd => by
    subst hn
    show Res.ok s () = _
    congr 1
    have e1 : ({ cs with els := spre ++ List.replicate ([] : List T).length .moved ++ spost } : Cell D T) = cs := by
      simp only [List.length_nil, List.replicate_zero, List.append_nil]
      simp only [List.map_nil, List.append_nil] at hcs
      rw [← hcs]
    have e2 : ({ cd with els := pre ++ List.map Slot.live ([] : List T) ++ post } : Cell D T) = cd := by
      simp only [List.map_nil, List.append_nil]
      simp only [List.length_nil, List.replicate_zero, List.append_nil] at hcd
      rw [← hcd]
    rw [e1, e2, upd_same h1, upd_same h2]
  | y :: ys, i, n, o, spre, spost, pre, post, s, cs, cd, h1, h2, hn, hi, ho, hcs, hcd => by
    subst hn
    show ((moveEl src i).bind fun v => (construct dst o v).bind fun _ => uninitMove src (i + 1) ys.length dst (o + 1)) s = _
    have hg1 : cs.els[i]? = some (.live y) := by
      rw [hcs, List.map_cons, List.append_assoc, List.cons_append]; exact get_mid _ _ _ _ hi
    rw [bind_ok (moveEl_eq h1 hg1)]
    have hs1 : cs.els.set i .moved = (spre ++ [Slot.moved]) ++ ys.map .live ++ spost := by
      rw [hcs, List.map_cons, List.append_assoc, List.cons_append, set_mid _ _ _ _ _ hi]; simp
    have hg2 : cd.els[o]? = some .raw := by
      rw [hcd, List.length_cons, List.replicate_succ, List.append_assoc, List.cons_append]; exact get_mid _ _ _ _ ho
    have hs2 : cd.els.set o (.live y) = (pre ++ [Slot.live y]) ++ List.replicate ys.length .raw ++ post := by
      rw [hcd, List.length_cons, List.replicate_succ, List.append_assoc, List.cons_append, set_mid _ _ _ _ _ ho]; simp
    have h2' : (upd s.mem src (some { cs with els := cs.els.set i .moved })) dst = some cd := by rw [upd_ne (Ne.symm hne)]; exact h2
    rw [bind_ok (construct_eq (s := { s with mem := upd s.mem src (some { cs with els := cs.els.set i .moved }) }) h2' hg2)]
    rw [uninitMove_eq hne ys (i + 1) ys.length (o + 1) (spre ++ [.moved]) spost (pre ++ [.live y]) post _
      { cs with els := cs.els.set i .moved } { cd with els := cd.els.set o (.live y) } (by
        show upd (upd s.mem src _) dst _ src = _
        rw [upd_ne hne, upd_self]) (by show upd _ dst _ dst = _; rw [upd_self]) rfl (by simp [hi]) (by simp [ho]) hs1 hs2]
    congr 1
    show ({ mem := _, clock := _, fault := _ } : St D T) = _
    congr 1
    show upd (upd (upd (upd s.mem src _) dst _) src _) dst _ = _
    rw [upd_comm (Ne.symm hne), upd_upd, upd_upd]
    congr 2
    · congr 2
      simp [List.replicate_succ]
    · congr 1
      simp

/-! ### Counts, tokens -/

theorem inc_eq {E : Env D T} {p : Nat} {c : Cell D T} (h : s.mem p = some c) :
    inc E p s = .ok { s with mem := incs E.gc s.mem [p] } () := by
  unfold inc
  rw [bind_ok (cell_eq h)]
  unfold incs
  cases E.gc with
  | true => rfl
  | false =>
    simp only [Bool.false_eq_true, if_false]
    rw [modify_eq h]
    simp only [List.foldl_cons, List.foldl_nil, addRc, h]

theorem dec_gc {E : Env D T} {p : Nat} {c : Cell D T} (hg : E.gc = true) (h : s.mem p = some c) : dec E p s = .ok s false := by
  unfold dec
  rw [bind_ok (cell_eq h), if_pos hg]; rfl

theorem dec_rc {E : Env D T} {p : Nat} {c : Cell D T} (hg : E.gc = false) (h : s.mem p = some c) (h0 : 0 < c.rc) :
    dec E p s = .ok { s with mem := upd s.mem p (some { c with rc := c.rc - 1 }) } (c.rc == 1) := by
  unfold dec
  rw [bind_ok (cell_eq h), hg]
  simp only [Bool.false_eq_true, if_false]
  rw [if_neg (by omega)]
  rw [bind_ok (modify_eq h)]; rfl

theorem canMutate_eq {E : Env D T} {e p : Nat} {c : Cell D T} (h : s.mem p = some c) : canMutate E e p s = .ok s (mutable E e c) := by
  unfold canMutate
  rw [bind_ok (cell_eq h)]; rfl

theorem setTok_eq {E : Env D T} {p e : Nat} {c : Cell D T} (h : s.mem p = some c) :
    setTok E p e s = .ok { s with mem := upd s.mem p (some { c with tok := if E.gc then e else c.tok }) } () := by
  unfold setTok
  rw [bind_ok (cell_eq h)]
  cases E.gc with
  | true => rw [if_pos rfl, modify_eq h]; rfl
  | false =>
    simp only [Bool.false_eq_true, if_false]
    show Res.ok s () = _
    rw [upd_same h]

theorem alloc_out {E : Env D T} {n : Nat} {x : D} (hE : E.Fresh) (hf : ∃ l : List Nat, ∀ p, s.mem p ≠ none → p ∈ l) :
    Out (alloc E n x s) (fun s' a => s.mem a = none ∧ a ≠ 0 ∧ s'.mem = upd s.mem a (some ⟨1, 0, List.replicate n .raw, x⟩) ∧ (NoCopyFault s → NoCopyFault s'))
      (fun s' => s'.mem = s.mem) := by
  unfold alloc
  refine out_bind (tick_out' (Q := fun m => m = s.mem) rfl) ?_
  rintro s' _ ⟨h, hn⟩
  obtain ⟨h1, h2⟩ := hE s'.clock s'.mem (by rw [h]; exact hf)
  exact ⟨by rw [← h]; exact h1, h2, by rw [← h], hn⟩

theorem dealloc_eq {room : D → Nat} {p n k : Nat} {c : Cell D T} (h : s.mem p = some c) (hn : c.els = List.replicate n .raw) (hk : room c.data = k) :
    dealloc room p n k s = .ok { s with mem := upd s.mem p none } () := by
  unfold dealloc
  rw [bind_ok (cell_eq h), if_pos]
  refine ⟨by rw [hn]; simp, hk, ?_⟩
  rw [hn, List.all_eq_true]
  intro x hx
  rw [(List.mem_replicate.mp hx).2]

end

end Mm
