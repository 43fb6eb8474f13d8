import Verif.Array.Gc

/-!
# What the functions of `no_capacity` and `with_capacity` do to memory (garbage collection)
-/

namespace ArrGc

variable {α β γ : Type}

/-- the result is defined and satisfies `Q`, or `E` if it is an exception; without a fault there is none -/
def Out (f0 : Option Nat) (r : Res α β) (Q : Mem α → β → Prop) (E : Mem α → Prop) : Prop :=
  match r with
  | .ok m f b => Q m b ∧ (f0 = none → f = none)
  | .thrown m _ => E m ∧ f0 ≠ none
  | .ub => False

theorem out_ret {f : Option Nat} {m : Mem α} {b : β} {Q : Mem α → β → Prop} {E : Mem α → Prop} (h : Q m b) : Out f (M.ret b m f) Q E := ⟨h, id⟩

theorem out_bind {x : M α β} {k : β → M α γ} {m : Mem α} {f0 f : Option Nat} {Q : Mem α → β → Prop} {Q' : Mem α → γ → Prop}
    {E : Mem α → Prop} (h : Out f0 (x m f) Q E) (hk : ∀ m' b f', Q m' b → Out f' (k b m' f') Q' E) : Out f0 ((x.bind k) m f) Q' E := by
  unfold M.bind
  cases hx : x m f with
  | ok m' f' b =>
    rw [hx] at h
    have h1 := hk m' b f' h.1
    show Out f0 (k b m' f') Q' E
    cases hy : k b m' f' with
    | ok m2 f2 c => rw [hy] at h1; exact ⟨h1.1, fun h0 => h1.2 (h.2 h0)⟩
    | thrown m2 f2 => rw [hy] at h1; exact ⟨h1.1, fun h0 => h1.2 (h.2 h0)⟩
    | ub => rw [hy] at h1; exact h1
  | thrown m' f' => rw [hx] at h; exact h
  | ub => rw [hx] at h; exact h

theorem out_guard {x : M α β} {hd : M α Unit} {m : Mem α} {f0 f : Option Nat} {Q : Mem α → β → Prop} {E E' : Mem α → Prop}
    (h : Out f0 (x m f) Q E') (hh : ∀ m' f', E' m' → ∃ m'' f'', hd m' f' = .ok m'' f'' () ∧ E m'') : Out f0 ((x.guard hd) m f) Q E := by
  unfold M.guard
  cases hx : x m f with
  | ok m' f' b => rw [hx] at h; exact h
  | thrown m' f' =>
    rw [hx] at h
    obtain ⟨m2, f2, h1, h2⟩ := hh m' f' h.1
    simp only [h1]
    exact ⟨h2, h.2⟩
  | ub => rw [hx] at h; exact h

theorem out_mono {f0 : Option Nat} {r : Res α β} {Q Q' : Mem α → β → Prop} {E E' : Mem α → Prop} (h : Out f0 r Q E)
    (h1 : ∀ m b, Q m b → Q' m b) (h2 : ∀ m, E m → E' m) : Out f0 r Q' E' := by
  cases r with
  | ok m f b => exact ⟨h1 m b h.1, h.2⟩
  | thrown m f => exact ⟨h2 m h.1, h.2⟩
  | ub => exact h

theorem bind_ok {x : M α β} {k : β → M α γ} {m m' : Mem α} {f f' : Option Nat} {b : β} (h : x m f = .ok m' f' b) :
    (x.bind k) m f = k b m' f' := by unfold M.bind; rw [h]

theorem tick_out {m : Mem α} {f : Option Nat} : Out f (tick m f) (fun m' _ => m' = m) (fun m' => m' = m) := by
  unfold tick
  split
  · exact ⟨rfl, id⟩
  · exact ⟨rfl, by simp⟩
  · exact ⟨rfl, by simp⟩

theorem upd_self {f : Nat → β} {i : Nat} {v : β} : upd f i v i = v := if_pos rfl

theorem upd_ne {f : Nat → β} {i j : Nat} {v : β} (h : j ≠ i) : upd f i v j = f j := if_neg h

theorem upd_upd {f : Nat → β} {i : Nat} {v w : β} : upd (upd f i v) i w = upd f i w := by
  funext j; unfold upd; split <;> rfl

theorem upd_eq {f : Nat → β} {i : Nat} {v : β} (h : f i = v) : upd f i v = f := by
  funext j; unfold upd; split
  · next h1 => rw [h1, h]
  · rfl

theorem cell_eq {m : Mem α} {f : Option Nat} {p : Nat} {c : Cell α} (h : m p = some c) : cell p m f = .ok m f c := by unfold cell; rw [h]

/-! ### Elements -/

section
variable {triv : Bool} {m : Mem α} {f : Option Nat} {p : Nat} {c : Cell α}

theorem set_end {xs : List α} {rest : List (Option α)} {v : α} {x : Option α} :
    (xs.map some ++ x :: rest).set xs.length (some v) = (xs ++ [v]).map some ++ rest := by
  rw [List.set_append_right _ _ (by simp)]
  simp

theorem set_mid {xs : List α} {rest : List (Option α)} {v : α} {k : Nat} (h : k < xs.length) :
    (xs.map some ++ rest).set k (some v) = (xs.set k v).map some ++ rest := by
  rw [List.set_append_left _ _ (by simpa using h), List.map_set]

theorem construct_eq {xs : List α} {rest : List (Option α)} {x : Option α} {v : α} (hm : m p = some c) (hs : c.slots = xs.map some ++ x :: rest)
    (hx : triv = true ∨ x = none) :
    construct triv p xs.length v m f = .ok (upd m p (some ⟨c.tok, (xs ++ [v]).map some ++ rest⟩)) f () := by
  unfold construct
  rw [bind_ok (cell_eq hm)]
  have h1 : c.slots[xs.length]? = some x := by rw [hs, List.getElem?_append_right (by simp)]; simp
  have h2 : c.slots.set xs.length (some v) = (xs ++ [v]).map some ++ rest := by rw [hs, set_end]
  cases x with
  | none => simp only [h1]; unfold put; simp only [h2]
  | some y =>
    simp only [h1]
    rw [if_pos (by simpa using hx)]
    unfold put; simp only [h2]

theorem assign_eq {xs : List α} {rest : List (Option α)} {v : α} {k : Nat} (hm : m p = some c) (hs : c.slots = xs.map some ++ rest)
    (hk : k < xs.length) : assign p k v m f = .ok (upd m p (some ⟨c.tok, (xs.set k v).map some ++ rest⟩)) f () := by
  unfold assign
  rw [bind_ok (cell_eq hm)]
  have h1 : c.slots[k]? = some (some xs[k]) := by rw [hs, List.getElem?_append_left (by simpa using hk)]; simp [hk]
  simp only [h1]
  unfold put
  rw [hs, set_mid hk]

theorem read_eq {xs : List α} {rest : List (Option α)} {k : Nat} (hm : m p = some c) (hs : c.slots = xs.map some ++ rest)
    (hk : k < xs.length) : read p k m f = .ok m f xs[k] := by
  unfold read
  rw [bind_ok (cell_eq hm)]
  have h1 : c.slots[k]? = some (some xs[k]) := by rw [hs, List.getElem?_append_left (by simpa using hk)]; simp [hk]
  simp only [h1]
  rfl

theorem readN_eq {xs : List α} {rest : List (Option α)} (hm : m p = some c) (hs : c.slots = xs.map some ++ rest) :
    ∀ {k : Nat}, k ≤ xs.length → readN p k m f = .ok m f (xs.take k)
  | 0, _ => by simp [readN, M.ret]
  | k + 1, hk => by
    unfold readN
    rw [bind_ok (readN_eq hm hs (by omega)), bind_ok (read_eq hm hs (by omega)), List.take_add_one, List.getElem?_eq_getElem (by omega)]
    rfl

theorem destroyLoop_eq {rest : List (Option α)} : ∀ (ys : List α) (k : Nat) (m : Mem α) (c : Cell α), m p = some c →
    c.slots = List.replicate k none ++ ys.map some ++ rest →
    destroyLoop p k ys.length m f = .ok (upd m p (some ⟨c.tok, List.replicate (k + ys.length) none ++ rest⟩)) f ()
  | [], k, m, c, hm, hs => by
    unfold destroyLoop
    have h1 : (⟨c.tok, List.replicate (k + ([] : List α).length) none ++ rest⟩ : Cell α) = c := by
      cases c; simp at hs; simp [hs]
    rw [h1, upd_eq hm]; rfl
  | y :: ys, k, m, c, hm, hs => by
    have h0 : c.slots[k]? = some (some y) := by rw [hs, List.append_assoc, List.getElem?_append_right (by simp)]; simp
    have h1 : destroy1 p k m f = .ok (upd m p (some ⟨c.tok, List.replicate (k + 1) none ++ ys.map some ++ rest⟩)) f () := by
      unfold destroy1
      rw [bind_ok (cell_eq hm)]
      simp only [h0]
      unfold put
      have h2 : c.slots.set k none = List.replicate (k + 1) none ++ ys.map some ++ rest := by
        rw [hs, List.append_assoc, List.set_append_right _ _ (by simp)]
        simp [List.replicate_succ']
      simp only [h2]
    show ((destroy1 p k).bind fun _ => destroyLoop p (k + 1) ys.length) m f = _
    rw [bind_ok h1, destroyLoop_eq ys (k + 1) _ _ upd_self rfl, upd_upd]
    have h3 : k + 1 + ys.length = k + (y :: ys).length := by simp; omega
    rw [h3]

/-- deleting a node that nobody knows yet -/
theorem deleteN_eq {m0 : Mem α} {xs : List α} {rest : List (Option α)} {n : Nat} {k : Nat} (h0 : m0 p = none) (hl : xs.length + rest.length = n)
    (hr : ∀ x ∈ rest, x = none) :
    deleteN triv p xs.length n (upd m0 p (some ⟨k, xs.map some ++ rest⟩)) f = .ok m0 f () := by
  unfold deleteN destroyN
  by_cases ht : triv = true
  · rw [if_pos ht]
    show ((M.ret ()).bind fun _ => dealloc triv p n) _ _ = _
    rw [bind_ok (rfl : M.ret () _ _ = .ok _ _ ())]
    unfold dealloc
    rw [bind_ok (cell_eq upd_self), if_pos ⟨by simpa using hl, .inl ht⟩, upd_upd, upd_eq h0]
  · rw [if_neg ht, bind_ok (destroyLoop_eq (rest := rest) xs 0 _ _ upd_self (by simp)), upd_upd]
    unfold dealloc
    have hd : ∀ x ∈ List.replicate (0 + xs.length) none ++ rest, x.isNone = true := by
      intro x hx
      rcases List.mem_append.mp hx with hx | hx
      · rw [(List.mem_replicate.mp hx).2]; rfl
      · rw [hr x hx]; rfl
    rw [bind_ok (cell_eq upd_self), if_pos ⟨by simpa using hl, .inr hd⟩, upd_upd, upd_eq h0]

end

/-! ### New nodes -/

section
variable {triv : Bool} {m : Mem α} {f : Option Nat} {a n : Nat}

/-- a node with the elements `xs` and room for `n` -/
def full (k n : Nat) (xs : List α) : Cell α := ⟨k, xs.map some ++ List.replicate (n - xs.length) none⟩

theorem uninitCopy_out {k : Nat} (h0 : m a = none) : ∀ (ys xs : List α) (f : Option Nat), xs.length + ys.length ≤ n →
    Out f (uninitCopy triv a xs.length ys (upd m a (some (full k n xs))) f) (fun m' _ => m' = upd m a (some (full k n (xs ++ ys))))
      (fun m' => ∃ zs : List (Option α), m' = upd m a (some ⟨k, zs⟩) ∧ zs.length = n ∧ (triv = true ∨ ∀ x ∈ zs, x = none))
  | [], xs, f, _ => by rw [List.append_nil]; exact out_ret rfl
  | y :: ys, xs, f, hn => by
    simp only [List.length_cons] at hn
    have hrep : List.replicate (n - xs.length) (none : Option α) = none :: List.replicate (n - (xs ++ [y]).length) none := by
      rw [show n - xs.length = (n - (xs ++ [y]).length) + 1 by simp; omega]; rfl
    unfold uninitCopy
    refine out_bind (Q := fun m' _ => m' = upd m a (some (full k n (xs ++ [y])))) ?_ ?_
    · refine out_guard (E' := fun m' => m' = upd m a (some (full k n xs))) ?_ ?_
      · refine out_bind tick_out ?_
        rintro _ _ f' rfl
        rw [construct_eq (xs := xs) (rest := List.replicate (n - (xs ++ [y]).length) none) (x := none) upd_self
          (by show xs.map some ++ _ = _; rw [hrep]) (.inr rfl), upd_upd]
        exact ⟨rfl, id⟩
      · rintro _ f' rfl
        unfold destroyN
        by_cases ht : triv = true
        · rw [if_pos ht]
          exact ⟨_, _, rfl, _, rfl, by simp; omega, .inl ht⟩
        · rw [if_neg ht, destroyLoop_eq (rest := List.replicate (n - xs.length) none) xs 0 _ _ upd_self (by simp [full]), upd_upd]
          refine ⟨_, _, rfl, _, rfl, by simp; omega, .inr ?_⟩
          intro x hx
          rcases List.mem_append.mp hx with hx | hx <;> exact (List.mem_replicate.mp hx).2
    · rintro _ _ f' rfl
      have := uninitCopy_out (k := k) h0 ys (xs ++ [y]) f' (by simp; omega)
      rw [List.append_assoc] at this
      simpa using this

theorem copyRange_out {xs : List α} (h0 : m a = none) (hn : xs.length ≤ n) :
    Out f (copyRange triv a n xs m f) (fun m' _ => m' = upd m a (some (full 0 n xs))) (fun m' => m' = m) := by
  unfold copyRange
  refine out_bind (Q := fun m' _ => m' = upd m a (some (full 0 n []))) ?_ ?_
  · unfold makeN
    refine out_bind tick_out ?_
    rintro _ _ f' rfl
    exact ⟨by simp [full], id⟩
  · rintro _ _ f' rfl
    refine out_guard (by simpa using uninitCopy_out (triv := triv) (k := 0) h0 xs [] f' (by simpa using hn)) ?_
    rintro _ f2 ⟨zs, rfl, hl, hz⟩
    refine ⟨m, f2, ?_, rfl⟩
    unfold dealloc
    rw [bind_ok (cell_eq upd_self), if_pos ⟨hl, hz.imp_right fun h x hx => by rw [h x hx]; rfl⟩, upd_upd, upd_eq h0]

variable {p k : Nat} {c : Cell α} {xs : List α} {rest : List (Option α)}

theorem copyN_out (h0 : m a = none) (hm : m p = some c) (hs : c.slots = xs.map some ++ rest) (hk : k ≤ xs.length) (hn : k ≤ n) :
    Out f (copyN triv a n p k m f) (fun m' _ => m' = upd m a (some (full 0 n (xs.take k)))) (fun m' => m' = m) := by
  unfold copyN
  rw [bind_ok (readN_eq hm hs hk)]
  exact copyRange_out h0 (by simp; omega)

theorem copyE_out {e : Nat} (h0 : m a = none) (hm : m p = some c) (hs : c.slots = xs.map some ++ rest) (hk : k ≤ xs.length) (hn : k ≤ n) :
    Out f (copyE triv e a n p k m f) (fun m' _ => m' = upd m a (some (full e n (xs.take k)))) (fun m' => m' = m) := by
  unfold copyE
  refine out_bind (copyN_out h0 hm hs hk hn) ?_
  rintro _ _ f' rfl
  unfold own
  rw [bind_ok (cell_eq upd_self)]
  exact ⟨upd_upd, id⟩

theorem full_len {xs : List α} {k : Nat} (h : xs.length ≤ n) : (full k n xs).slots.length = n := by simp [full]; omega

/-- the end of the operations that change a copy: `x` changes the new node; if it throws, the node is deleted -/
theorem finish_out {e : Nat} {xs ys : List α} {r : β} {x : M α Unit} (h0 : m a = none) (hn : xs.length ≤ n)
    (hx : Out f (x (upd m a (some (full e n xs))) f) (fun m' _ => m' = upd m a (some (full e n ys)))
      (fun m' => ∃ zs : List α, zs.length = xs.length ∧ m' = upd m a (some (full e n zs)))) :
    Out f (((x.bind fun _ => M.ret r).guard (deleteN triv a xs.length n)) (upd m a (some (full e n xs))) f)
      (fun m' b => b = r ∧ m' = upd m a (some (full e n ys))) (fun m' => m' = m) := by
  refine out_guard (out_bind hx ?_) ?_
  · rintro _ _ f' rfl
    exact out_ret ⟨rfl, rfl⟩
  · rintro _ f' ⟨zs, hz, rfl⟩
    refine ⟨m, f', ?_, rfl⟩
    rw [← hz]
    exact deleteN_eq h0 (by simp; omega) fun x hx => (List.mem_replicate.mp hx).2

theorem pushed_out {e : Nat} {xs : List α} {v : α} (hn : xs.length < n) :
    Out f ((tick.bind fun _ => construct triv a xs.length v) (upd m a (some (full e n xs))) f)
      (fun m' _ => m' = upd m a (some (full e n (xs ++ [v]))))
      (fun m' => ∃ zs : List α, zs.length = xs.length ∧ m' = upd m a (some (full e n zs))) := by
  refine out_bind (out_mono tick_out (fun _ _ h => h) fun _ h => ⟨xs, rfl, h⟩) ?_
  rintro _ _ f' rfl
  rw [construct_eq (xs := xs) (rest := List.replicate (n - (xs ++ [v]).length) none) (x := none) upd_self ?_ (.inr rfl), upd_upd]
  · exact ⟨rfl, id⟩
  · show xs.map some ++ List.replicate (n - xs.length) none = _
    rw [show n - xs.length = (n - (xs ++ [v]).length) + 1 by simp; omega]; rfl

theorem assigned_out {e : Nat} {xs : List α} {v : α} {i : Nat} (hi : i < xs.length) :
    Out f ((tick.bind fun _ => assign a i v) (upd m a (some (full e n xs))) f)
      (fun m' _ => m' = upd m a (some (full e n (xs.set i v))))
      (fun m' => ∃ zs : List α, zs.length = xs.length ∧ m' = upd m a (some (full e n zs))) := by
  refine out_bind (out_mono tick_out (fun _ _ h => h) fun _ h => ⟨xs, rfl, h⟩) ?_
  rintro _ _ f' rfl
  rw [assign_eq (xs := xs) upd_self rfl hi, upd_upd]
  exact ⟨by simp [full], id⟩

theorem updateElem_out {mv g : α → α} {xs : List α} {rest : List (Option α)} {i : Nat} (hm : m p = some c) (hs : c.slots = xs.map some ++ rest)
    (hi : i < xs.length) :
    Out f (updateElem mv p i g m f) (fun m' _ => m' = upd m p (some ⟨c.tok, (xs.set i (g xs[i])).map some ++ rest⟩))
      (fun m' => m' = upd m p (some ⟨c.tok, (xs.set i (mv xs[i])).map some ++ rest⟩)) := by
  unfold updateElem
  rw [bind_ok (read_eq hm hs hi), bind_ok (assign_eq hm hs hi)]
  refine out_bind tick_out ?_
  rintro _ _ f' rfl
  rw [assign_eq (xs := xs.set i (mv xs[i])) upd_self rfl (by simpa using hi), upd_upd, List.set_set]
  exact ⟨rfl, id⟩

theorem updated_out {mv g : α → α} {e : Nat} {xs : List α} {i : Nat} (hi : i < xs.length) :
    Out f (updateElem mv a i g (upd m a (some (full e n xs))) f) (fun m' _ => m' = upd m a (some (full e n (xs.set i (g xs[i])))))
      (fun m' => ∃ zs : List α, zs.length = xs.length ∧ m' = upd m a (some (full e n zs))) := by
  refine out_mono (updateElem_out (xs := xs) upd_self rfl hi) ?_ ?_
  · rintro _ _ rfl; rw [upd_upd]; simp [full]
  · rintro _ rfl; exact ⟨xs.set i (mv xs[i]), by simp, by rw [upd_upd]; simp [full]⟩

end

/-! ### Operations -/

section
variable {triv : Bool} {mv : α → α} {m : Mem α} {f : Option Nat} {a : Nat} {c : Cell α} {xs : List α}

/-- a new array with the elements `ys` at the new address -/
def NewA (m : Mem α) (a : Nat) (ys : List α) (m' : Mem α) (r : A) : Prop := r = ⟨a, ys.length⟩ ∧ m' = upd m a (some ⟨0, ys.map some⟩)

theorem newA_full {ys : List α} {n : Nat} (h : ys.length = n) : NewA m a ys (upd m a (some (full 0 n ys))) ⟨a, n⟩ := by
  subst h; exact ⟨rfl, by simp [full]⟩

namespace A

theorem fromRange_out {ea : Nat} (h0 : m a = none) (hx : xs ≠ []) :
    Out f (A.fromRange triv ea xs a m f) (NewA m a xs) (fun m' => m' = m) := by
  unfold A.fromRange
  rw [if_neg (by simpa using hx)]
  refine out_bind (copyRange_out h0 (Nat.le_refl _)) ?_
  rintro _ _ f' rfl
  exact out_ret (newA_full rfl)

theorem fromFill_out {n : Nat} {v : α} (h0 : m a = none) :
    Out f (A.fromFill triv n v a m f) (NewA m a (List.replicate n v)) (fun m' => m' = m) := by
  unfold A.fromFill
  refine out_bind (copyRange_out h0 (by simp)) ?_
  rintro _ _ f' rfl
  exact out_ret (newA_full (by simp))

variable {x : A} (h0 : m a = none) (hm : m x.ptr = some c) (hs : c.slots = xs.map some) (hz : x.size = xs.length)
include h0 hm hs hz

theorem pushBack_out {v : α} : Out f (A.pushBack triv x v a m f) (NewA m a (xs ++ [v])) (fun m' => m' = m) := by
  unfold A.pushBack
  refine out_bind (copyN_out (rest := []) h0 hm (by simpa using hs) (by omega) (by omega)) ?_
  rintro _ _ f' rfl
  rw [List.take_of_length_le (by omega), hz]
  refine out_mono (finish_out h0 (by omega) (pushed_out (by omega))) ?_ fun _ h => h
  rintro _ _ ⟨rfl, rfl⟩
  exact newA_full (by simp)

theorem assoc_out {v : α} {i : Nat} (hi : i < xs.length) : Out f (A.assoc triv x i v a m f) (NewA m a (xs.set i v)) (fun m' => m' = m) := by
  unfold A.assoc
  refine out_bind (copyN_out (rest := []) h0 hm (by simpa using hs) (by omega) (by omega)) ?_
  rintro _ _ f' rfl
  rw [List.take_of_length_le (by omega), hz]
  refine out_mono (finish_out h0 (by omega) (assigned_out hi)) ?_ fun _ h => h
  rintro _ _ ⟨rfl, rfl⟩
  exact newA_full (by simp)

theorem update_out {g : α → α} {i : Nat} (hi : i < xs.length) :
    Out f (A.update triv mv x i g a m f) (NewA m a (xs.set i (g xs[i]))) (fun m' => m' = m) := by
  unfold A.update
  refine out_bind (copyN_out (rest := []) h0 hm (by simpa using hs) (by omega) (by omega)) ?_
  rintro _ _ f' rfl
  rw [List.take_of_length_le (by omega), hz]
  refine out_mono (finish_out h0 (by omega) (updated_out hi)) ?_ fun _ h => h
  rintro _ _ ⟨rfl, rfl⟩
  exact newA_full (by simp)

theorem take_out {n : Nat} (hn : n ≤ xs.length) : Out f (A.take triv x n a m f) (NewA m a (xs.take n)) (fun m' => m' = m) := by
  unfold A.take
  refine out_bind (copyN_out (rest := []) h0 hm (by simpa using hs) hn (by omega)) ?_
  rintro _ _ f' rfl
  exact out_ret (newA_full (by simp; omega))

end A

/-- the transient `t` has the elements `xs`, in the node `c` -/
structure Holds (triv : Bool) (c : Cell α) (t : Tr) (xs : List α) : Prop where
  size : t.size = xs.length
  cap : c.slots.length = t.cap
  slots : ∃ rest, c.slots = xs.map some ++ rest ∧ (c.tok = t.tok → triv = true ∨ ∀ x ∈ rest, x = none)

/-- What operations on a transient do: it has the elements `ys` after it, in the new node or in its own one, if that has its
token.  No other memory changes. -/
def Upd (triv : Bool) (m : Mem α) (a : Nat) (t : Tr) (ys : List α) (m' : Mem α) (t' : Tr) : Prop :=
  t'.tok = t.tok ∧ ∃ c', m' = upd m t'.ptr (some c') ∧ (c'.tok = t.tok ∨ c'.tok = 0) ∧
    (t'.ptr = a ∨ t'.ptr = t.ptr ∧ ∃ c, m t.ptr = some c ∧ c.tok = t.tok) ∧ Holds triv c' t' ys

theorem recommendUp_le {sz cap : Nat} (h : sz ≤ maxSize) : sz ≤ recommendUp sz cap := by
  unfold recommendUp
  split
  · omega
  · split
    · exact h
    · omega

theorem recommendDown_le {sz cap : Nat} (h : sz ≤ cap) : sz ≤ recommendDown sz cap := by
  unfold recommendDown
  split
  · omega
  · split <;> omega

theorem holds_full {t : Tr} {ys : List α} {k : Nat} (h1 : t.size = ys.length) (h2 : ys.length ≤ t.cap) : Holds triv (full k t.cap ys) t ys :=
  ⟨h1, full_len h2, _, rfl, fun _ => .inr fun _ hx => (List.mem_replicate.mp hx).2⟩

theorem upd_full {t t' : Tr} {ys : List α} {k n : Nat} (hk : k = t.tok ∨ k = 0) (ht : t' = ⟨a, ys.length, n, t.tok⟩) (hn : ys.length ≤ n) :
    Upd triv m a t ys (upd m a (some (full k n ys))) t' := by
  subst ht; exact ⟨rfl, _, rfl, hk, .inl rfl, holds_full (t := ⟨a, ys.length, n, t.tok⟩) rfl hn⟩

theorem canMutate_eq {p e : Nat} (h : m p = some c) : canMutate p e m f = .ok m f (c.tok == e) := by
  unfold canMutate; rw [bind_ok (cell_eq h)]; rfl

namespace Tr

variable {t : Tr} (h0 : m a = none) (hm : m t.ptr = some c) (hh : Holds triv c t xs)
include h0 hm hh

theorem le_cap : xs.length ≤ t.cap := by
  obtain ⟨rest, h, _⟩ := hh.slots
  rw [← hh.cap, h]; simp

theorem pushBack_out {v : α} (hl : xs.length < maxSize) :
    Out f (Tr.pushBack triv t v a m f) (Upd triv m a t (xs ++ [v])) (fun m' => m' = m) := by
  obtain ⟨rest, hs, hr⟩ := hh.slots
  have hz := hh.size
  unfold Tr.pushBack
  rw [bind_ok (canMutate_eq hm)]
  split
  · next hb =>
    obtain ⟨hb, hc⟩ := hb
    have hb : c.tok = t.tok := by simpa using hb
    have hcap := hh.cap
    rw [hs] at hcap
    simp only [List.length_append, List.length_map] at hcap
    cases rest with
    | nil => simp at hcap; omega
    | cons x rest =>
      have hr := hr hb
      rw [hz]
      refine out_bind (out_bind tick_out ?_) ?_ (Q := fun m' _ => m' = upd m t.ptr (some ⟨c.tok, (xs ++ [v]).map some ++ rest⟩))
      · rintro _ _ f' rfl
        rw [construct_eq hm hs (hr.imp_right fun h => h x List.mem_cons_self)]
        exact ⟨rfl, id⟩
      · rintro _ _ f' rfl
        refine out_ret ⟨rfl, _, rfl, .inl hb, .inr ⟨rfl, c, hm, hb⟩, by simp, ?_, rest, rfl, fun _ => hr.imp_right fun h y hy => h y (List.mem_cons_of_mem _ hy)⟩
        simp at hcap ⊢; omega
  · have hup := recommendUp_le (sz := t.size + 1) (cap := t.cap) (by omega)
    refine out_bind (copyE_out h0 hm hs (by omega) (by omega)) ?_
    rintro _ _ f' rfl
    rw [List.take_of_length_le (by omega)]
    generalize recommendUp (t.size + 1) t.cap = n at hup ⊢
    rw [hz] at hup ⊢
    refine out_mono (finish_out h0 (by omega) (pushed_out (by omega))) ?_ fun _ h => h
    rintro _ _ ⟨rfl, rfl⟩
    exact upd_full (.inl rfl) (by simp) (by simpa using hup)

theorem assoc_out {v : α} {i : Nat} (hi : i < xs.length) : Out f (Tr.assoc triv t i v a m f) (Upd triv m a t (xs.set i v)) (fun m' => m' = m) := by
  obtain ⟨rest, hs, hr⟩ := hh.slots
  have hz := hh.size
  have hle := le_cap h0 hm hh
  unfold Tr.assoc
  rw [bind_ok (canMutate_eq hm)]
  split
  · next hb =>
    have hb : c.tok = t.tok := by simpa using hb
    refine out_bind (out_bind tick_out ?_) ?_ (Q := fun m' _ => m' = upd m t.ptr (some ⟨c.tok, (xs.set i v).map some ++ rest⟩))
    · rintro _ _ f' rfl
      rw [assign_eq hm hs hi]
      exact ⟨rfl, id⟩
    · rintro _ _ f' rfl
      refine out_ret ⟨rfl, _, rfl, .inl hb, .inr ⟨rfl, c, hm, hb⟩, by simpa using hz, ?_, rest, rfl, fun _ => hr hb⟩
      rw [← hh.cap, hs]; simp
  · refine out_bind (copyN_out h0 hm hs (by omega) (by omega)) ?_
    rintro _ _ f' rfl
    rw [List.take_of_length_le (by omega), hz]
    refine out_mono (finish_out h0 hle (assigned_out hi)) ?_ fun _ h => h
    rintro _ _ ⟨rfl, rfl⟩
    exact upd_full (.inr rfl) (by simp [← hz]) (by simpa using hle)

/-- an update in place that throws leaves the element moved from -/
theorem update_out {g : α → α} {i : Nat} (hi : i < xs.length) :
    Out f (Tr.update triv mv t i g a m f) (Upd triv m a t (xs.set i (g xs[i])))
      (fun m' => m' = m ∨ Upd triv m a t (xs.set i (mv xs[i])) m' t) := by
  obtain ⟨rest, hs, hr⟩ := hh.slots
  have hz := hh.size
  have hle := le_cap h0 hm hh
  unfold Tr.update
  rw [bind_ok (canMutate_eq hm)]
  split
  · next hb =>
    have hb : c.tok = t.tok := by simpa using hb
    have key : ∀ y : α, Upd triv m a t (xs.set i y) (upd m t.ptr (some ⟨c.tok, (xs.set i y).map some ++ rest⟩)) t := fun y =>
      ⟨rfl, _, rfl, .inl hb, .inr ⟨rfl, c, hm, hb⟩, by simpa using hz, by rw [← hh.cap, hs]; simp, rest, rfl, fun _ => hr hb⟩
    refine out_bind (out_mono (updateElem_out hm hs hi) (fun _ _ h => h) ?_) ?_
    · rintro _ rfl; exact .inr (key _)
    · rintro _ _ f' rfl; exact out_ret (key _)
  · refine out_bind (out_mono (copyE_out h0 hm hs (by omega) (by omega)) (fun _ _ h => h) fun _ h => .inl h) ?_
    rintro _ _ f' rfl
    rw [List.take_of_length_le (by omega), hz]
    refine out_mono (finish_out h0 hle (updated_out hi)) ?_ fun _ h => .inl h
    rintro _ _ ⟨rfl, rfl⟩
    exact upd_full (.inl rfl) (by simp [← hz]) (by simpa using hle)

theorem take_out {n : Nat} (hn : n ≤ xs.length) (hsafe : triv = true ∨ n = xs.length ∨ c.tok ≠ t.tok) :
    Out f (Tr.take triv t n a m f) (Upd triv m a t (xs.take n)) (fun m' => m' = m) := by
  obtain ⟨rest, hs, hr⟩ := hh.slots
  have hz := hh.size
  have hle := le_cap h0 hm hh
  unfold Tr.take
  rw [bind_ok (canMutate_eq hm)]
  split
  · next hb =>
    have hb : c.tok = t.tok := by simpa using hb
    have h1 : destroyN triv t.ptr t.size (t.size - n) m f = .ok m f () := by
      unfold destroyN
      split
      · rfl
      · next ht =>
        have hnn : n = xs.length := by rcases hsafe with h | h | h <;> [exact absurd h ht; exact h; exact absurd hb h]
        rw [show t.size - n = 0 by omega]; rfl
    rw [bind_ok h1]
    refine out_ret ⟨rfl, c, (upd_eq hm).symm, .inl hb, .inr ⟨rfl, c, hm, hb⟩, by simp; omega, hh.cap, (xs.drop n).map some ++ rest, ?_, fun _ => ?_⟩
    · rw [hs, ← List.append_assoc, ← List.map_append, List.take_append_drop]
    · rcases hsafe with h | h | h
      · exact .inl h
      · rw [h]; simpa using hr hb
      · exact absurd hb h
  · refine out_bind (copyE_out h0 hm hs hn (recommendDown_le (by omega))) ?_
    rintro _ _ f' rfl
    exact out_ret (upd_full (.inl rfl) (by simp; omega) (by have := recommendDown_le (sz := n) (cap := t.cap) (by omega); simp; omega))

theorem dataMutWrite_out {v : α} {i : Nat} (hi : i < xs.length) :
    Out f (Tr.dataMutWrite triv t i v a m f) (Upd triv m a t (xs.set i v)) (fun m' => m' = m) := by
  obtain ⟨rest, hs, hr⟩ := hh.slots
  have hz := hh.size
  have hle := le_cap h0 hm hh
  unfold Tr.dataMutWrite
  rw [bind_ok (canMutate_eq hm)]
  split
  · next hb =>
    have hb : c.tok = t.tok := by simpa using hb
    rw [bind_ok (assign_eq hm hs hi)]
    refine out_ret ⟨rfl, _, rfl, .inl hb, .inr ⟨rfl, c, hm, hb⟩, by simpa using hz, ?_, rest, rfl, fun _ => hr hb⟩
    rw [← hh.cap, hs]; simp
  · refine out_bind (copyE_out h0 hm hs (by omega) (by omega)) ?_
    rintro _ _ f' rfl
    rw [List.take_of_length_le (by omega), bind_ok (assign_eq (xs := xs) upd_self rfl hi), upd_upd]
    refine out_ret ?_
    have := upd_full (triv := triv) (m := m) (a := a) (t := t) (ys := xs.set i v) (n := t.cap) (.inl rfl) rfl (by simpa using hle)
    simpa [full, ← hz] using this

/-- `operator no_capacity_t` -/
theorem toA_out : Out f (Tr.toA triv t a m f)
    (fun m' r => NewA m a xs m' r ∨ m' = m ∧ r = ⟨t.ptr, xs.length⟩ ∧ c.slots = xs.map some) (fun m' => m' = m) := by
  obtain ⟨rest, hs, hr⟩ := hh.slots
  have hz := hh.size
  unfold Tr.toA
  split
  · next he =>
    refine out_ret (.inr ⟨rfl, by rw [hz], ?_⟩)
    have hcap := hh.cap
    rw [hs] at hcap
    simp at hcap
    have : rest = [] := List.eq_nil_of_length_eq_zero (by omega)
    rw [hs, this, List.append_nil]
  · refine out_bind (copyN_out h0 hm hs (by omega) (by omega)) ?_
    rintro _ _ f' rfl
    rw [List.take_of_length_le (by omega), hz]
    exact out_ret (.inl (newA_full rfl))

end Tr

end

end ArrGc
