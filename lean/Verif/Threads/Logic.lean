import Verif.Mem.Shared
import Verif.Threads.Prog

/-!
# Reasoning about a thread among others

`Safe p O L m Q`: a thread that runs `p`, with the open nodes `O` and the references `L` of its own and the references `G` that
are there for all, does nothing undefined, does not touch what is not its own, leaves to the other threads what is theirs, and
returns with `Q`.  This is so for every number of other threads and whatever they do to memory, as long as they leave to this
thread what it has (`Kept`).
-/

namespace Thr
open Mm

variable {D T V β δ : Type}

/-- well-formed memory, without references known to be the only ones -/
def TInv (S : Sys D T V) (m : Mem D T) (O : List Nat) (L : List (Ref V)) : Prop := Inv S m O L ∧ ∀ r ∈ L, r.uniq = false

abbrev Pred (D T V : Type) := List Nat → List (Ref V) → List Nat → List (Ref V) → Mem D T → Prop

section
variable (S : Sys D T V) (room : D → Nat) (G : List (Ref V))

/-- a node that a thread may read -/
def Mine (O : List Nat) (L : List (Ref V)) (m : Mem D T) (p : Nat) : Prop := p ∈ O ∨ Reach S m (L ++ G) p

/-- What a thread has before and after something happens.  The nodes that it alone may use are from `O` or from `N`.  All that it
may read it may still read, except for `P`.  What it may read it could read before, except for `N`. -/
def Moved (N P : Nat → Prop) (O : List Nat) (L : List (Ref V)) (m : Mem D T) (O1 : List Nat) (L1 : List (Ref V)) (m' : Mem D T) : Prop :=
  (∀ a ∈ O1, a ∈ O ∨ N a) ∧ (∀ a, Mine S G O L m a → Mine S G O1 L1 m' a ∨ P a) ∧ (∀ a, Mine S G O1 L1 m' a → Mine S G O L m a ∨ N a) ∧
    ∀ a, N a → Mine S G O1 L1 m' a

/-- none -/
abbrev no : Nat → Prop := fun _ => False

/-- after other threads had their turns; what the thread has may be counted in another way, too -/
def Pre (P : Pred D T V) (O : List Nat) (L : List (Ref V)) (m : Mem D T) : Prop :=
  ∀ m' O' L', Kept S O (L ++ G) m m' → TInv S m' (O ++ O') (L ++ (G ++ L')) →
    ∃ O1 L1, TInv S m' (O1 ++ O') (L1 ++ (G ++ L')) ∧ Moved S G no no O L m' O1 L1 m' ∧ P O1 L1 O' L' m'

/-- after a step from `m` to `m'`, that left to the others what they have -/
def Post (N P : Nat → Prop) (O : List Nat) (L : List (Ref V)) (O' : List Nat) (L' : List (Ref V)) (m m' : Mem D T) (K : List Nat → List (Ref V) → Prop) : Prop :=
  ∃ O1 L1, TInv S m' (O1 ++ O') (L1 ++ (G ++ L')) ∧ Kept S O' (G ++ L') m m' ∧ Moved S G N P O L m O1 L1 m' ∧ K O1 L1

def Body (Q : List Nat → List (Ref V) → Mem D T → β → Prop) : Prog D T β → Pred D T V
  | .ret b, O, L, _, _, m => Q O L m b
  | .undef, _, _, _, _, _ => False
  | .read p k, O, L, O', L', m => ∃ c, m p = some c ∧ Mine S G O L m p ∧
      Post S G no no O L O' L' m m fun O1 L1 => Pre S G (Body Q (k c.data c.els)) O1 L1 m
  | .write p f k, O, L, O', L', m => ∃ c r, m p = some c ∧ p ∈ O ∧ f c.data c.els = some r ∧
      Post S G no no O L O' L' m (upd m p (some { c with data := r.1, els := r.2 })) fun O1 L1 =>
        Pre S G (Body Q k) O1 L1 (upd m p (some { c with data := r.1, els := r.2 }))
  | .inc p k, O, L, O', L', m => ∃ c, m p = some c ∧ Mine S G O L m p ∧
      Post S G no no O L O' L' m (upd m p (some { c with rc := c.rc + 1 })) fun O1 L1 =>
        Pre S G (Body Q k) O1 L1 (upd m p (some { c with rc := c.rc + 1 }))
  | .dec p k, O, L, O', L', m => ∃ c, m p = some c ∧ Reach S m (L ++ G) p ∧ 0 < c.rc ∧
      Post S G (fun a => c.rc = 1 ∧ a = p) (fun a => c.rc ≠ 1 ∧ From S m p a) O L O' L' m (upd m p (some { c with rc := c.rc - 1 })) fun O1 L1 =>
        Pre S G (Body Q (k (c.rc == 1))) O1 L1 (upd m p (some { c with rc := c.rc - 1 }))
  | .unique p k, O, L, O', L', m => ∃ c, m p = some c ∧ (∃ r ∈ L, r.ptr = p) ∧ ∀ b, (b = true → c.rc = 1) →
      Post S G (fun a => b = true ∧ a = p) no O L O' L' m m fun O1 L1 => Pre S G (Body Q (k b)) O1 L1 m
  | .alloc n x k, O, L, O', L', m => ∀ p, m p = none → p ≠ 0 →
      Post S G (fun a => a = p) no O L O' L' m (upd m p (some ⟨1, 0, List.replicate n .raw, x⟩)) fun O1 L1 =>
        Pre S G (Body Q (k p)) O1 L1 (upd m p (some ⟨1, 0, List.replicate n .raw, x⟩))
  | .free p n j k, O, L, O', L', m => ∃ c, m p = some c ∧ p ∈ O ∧ c.els = List.replicate n .raw ∧ room c.data = j ∧
      Post S G no (fun a => a = p) O L O' L' m (upd m p none) fun O1 L1 => Pre S G (Body Q k) O1 L1 (upd m p none)

def Safe (p : Prog D T β) (O : List Nat) (L : List (Ref V)) (m : Mem D T) (Q : List Nat → List (Ref V) → Mem D T → β → Prop) :
    Prop := Pre S G (Body S room G Q p) O L m

end

variable {S : Sys D T V} {room : D → Nat} {G : List (Ref V)} {O : List Nat} {L : List (Ref V)} {m m' : Mem D T}
  {Q Q' : List Nat → List (Ref V) → Mem D T → β → Prop} {p : Prog D T β}

variable {N P : Nat → Prop}

theorem Mine.kept {a : Nat} (h : Mine S G O L m a) (hk : Kept S O (L ++ G) m m') : Mine S G O L m' a := h.imp id hk.reach

theorem reach_back {O0 O2 : List Nat} {L0 L' : List (Ref V)} {q : Nat} (hi : Inv S m O2 (L0 ++ (G ++ L'))) (hk : Kept S O0 (L0 ++ G) m m') (hq : Reach S m' (L0 ++ G) q) : Reach S m (L0 ++ G) q := by
  obtain ⟨r, hr, hq⟩ := hq
  refine ⟨r, hr, ?_⟩
  induction hq with
  | here => exact .here
  | next _ hc ho ih =>
    obtain ⟨c1, hc1⟩ := hi.reach_cell ⟨r, by rw [← List.append_assoc]; exact List.mem_append_left _ hr, ih⟩
    obtain ⟨c2, hc2, hs⟩ := hk.1 _ ⟨r, hr, ih⟩ c1 hc1
    rw [hc] at hc2; cases hc2
    rw [hs.1] at ho
    exact .next ih hc1 ho

theorem Moved.refl : Moved S G no P O L m O L m := ⟨fun _ h => .inl h, fun _ h => .inl h, fun _ h => .inl h, fun _ h => h.elim⟩

theorem Moved.trans {O1 O2 : List Nat} {L1 L2 : List (Ref V)} (h : Moved S G no no O L m O1 L1 m) (h' : Moved S G N P O1 L1 m O2 L2 m') : Moved S G N P O L m O2 L2 m' :=
  ⟨fun a ha => (h'.1 a ha).imp_left fun h0 => (h.1 a h0).elim id False.elim, fun a ha => h'.2.1 a ((h.2.1 a ha).elim id False.elim),
    fun a ha => (h'.2.2.1 a ha).imp_left fun h0 => (h.2.2.1 a h0).elim id False.elim, h'.2.2.2⟩

/-- the nodes that can be read stay where they are -/
theorem Moved.kept {O1 O0 O2 : List Nat} {L' : List (Ref V)} (hi : Inv S m O2 (L ++ (G ++ L'))) (h1 : ∀ a ∈ O1, a ∈ O ∨ N a) (h2 : ∀ a ∈ O, a ∈ O1 ∨ P a) (h3 : ∀ a, N a → a ∈ O1)
    (hk : Kept S O0 (L ++ G) m m') : Moved S G N P O L m O1 L m' := by
  refine ⟨h1, fun a ha => ?_, fun a ha => ?_, fun a ha => .inl (h3 a ha)⟩
  · rcases ha with ha | ha
    · exact (h2 a ha).imp_left .inl
    · exact .inl (.inr (hk.reach ha))
  · rcases ha with ha | ha
    · exact (h1 a ha).imp_left .inl
    · exact .inl (.inr (reach_back hi hk ha))

theorem Moved.same {O0 O2 : List Nat} {L' : List (Ref V)} (hi : Inv S m O2 (L ++ (G ++ L'))) (hk : Kept S O0 (L ++ G) m m') : Moved S G no P O L m O L m' :=
  .kept hi (fun _ h => .inl h) (fun _ h => .inl h) (fun _ h => h.elim) hk

theorem Post.mono {O' : List Nat} {L' : List (Ref V)} {K K' : List Nat → List (Ref V) → Prop} (h : Post S G N P O L O' L' m m' K) (hp : ∀ O L, K O L → K' O L) : Post S G N P O L O' L' m m' K' := by
  obtain ⟨O1, L1, h1, h2, h3, h4⟩ := h
  exact ⟨O1, L1, h1, h2, h3, hp _ _ h4⟩

/-- what others do -/
theorem Safe.kept (h : Safe S room G p O L m Q) (hk : Kept S O (L ++ G) m m') : Safe S room G p O L m' Q :=
  fun _ O' L' hk' hi => h _ O' L' (hk.trans hk') hi

/-- counting what the thread has in another way -/
theorem safe_ghost (h : ∀ m' O' L', Kept S O (L ++ G) m m' → TInv S m' (O ++ O') (L ++ (G ++ L')) →
    ∃ O1 L1, TInv S m' (O1 ++ O') (L1 ++ (G ++ L')) ∧ Moved S G no no O L m' O1 L1 m' ∧ Safe S room G p O1 L1 m' Q) : Safe S room G p O L m Q := by
  intro m' O' L' hk hi
  obtain ⟨O1, L1, h1, h2, h3⟩ := h m' O' L' hk hi
  obtain ⟨O2, L2, h4, h5, h6⟩ := h3 m' O' L' .refl h1
  exact ⟨O2, L2, h4, h2.trans h5, h6⟩

/-- memory is well-formed -/
theorem safe_inv (h : ∀ m' O' L', Kept S O (L ++ G) m m' → TInv S m' (O ++ O') (L ++ (G ++ L')) → Safe S room G p O L m' Q) : Safe S room G p O L m Q :=
  safe_ghost fun m' O' L' hk hi => ⟨O, L, hi, .refl, h m' O' L' hk hi⟩

theorem safe_perm {O1 : List Nat} {L1 : List (Ref V)} (hO : O.Perm O1) (hL : L.Perm L1) (h : Safe S room G p O1 L1 m Q) : Safe S room G p O L m Q := by
  refine safe_ghost fun m' O' L' hk hi => ⟨O1, L1, ⟨hi.1.perm (hO.append_right _) (hL.append_right _), ?_⟩, ?_, h.kept ?_⟩
  · intro r hr
    exact hi.2 r ((hL.append_right _).mem_iff.mpr hr)
  · exact ⟨fun a ha => .inl (hO.mem_iff.mpr ha), fun a ha => .inl (ha.imp hO.mem_iff.mp (·.mono fun r hr => (hL.append_right _).mem_iff.mp hr)),
      fun a ha => .inl (ha.imp hO.mem_iff.mpr (·.mono fun r hr => (hL.append_right _).mem_iff.mpr hr)), fun a h => h.elim⟩
  · exact hk.mono (fun r hr => (hL.append_right _).mem_iff.mpr hr) (fun a ha => hO.mem_iff.mpr ha)

theorem safe_ret {b : β} (h : ∀ m', Kept S O (L ++ G) m m' → Q O L m' b) : Safe S room G (.ret b) O L m Q :=
  fun m' O' L' hk hi => ⟨O, L, hi, .refl, h m' hk⟩

/-- one piece of code after another -/
theorem safe_bind {f : β → Prog D T δ} {Q' : List Nat → List (Ref V) → Mem D T → δ → Prop} : ∀ (p : Prog D T β) (O : List Nat) (L : List (Ref V)) (m : Mem D T),
    Safe S room G p O L m (fun O1 L1 m1 b => Safe S room G (f b) O1 L1 m1 Q') → Safe S room G (p.bind f) O L m Q' := by
  intro p
  induction p with
  | ret b =>
    intro O L m h
    refine safe_ghost fun m' O' L' hk hi => ?_
    exact h m' O' L' hk hi
  | undef =>
    intro O L m h m' O' L' hk hi
    obtain ⟨O1, L1, h1, hv, h2⟩ := h m' O' L' hk hi
    exact h2.elim
  | read p k ih =>
    intro O L m h m' O' L' hk hi
    obtain ⟨O1, L1, h1, hv, c, hc, hm, hp⟩ := h m' O' L' hk hi
    exact ⟨O1, L1, h1, hv, c, hc, hm, hp.mono fun O L h => ih _ _ _ _ _ h⟩
  | write p f k ih =>
    intro O L m h m' O' L' hk hi
    obtain ⟨O1, L1, h1, hv, c, r, hc, hm, hf, hp⟩ := h m' O' L' hk hi
    exact ⟨O1, L1, h1, hv, c, r, hc, hm, hf, hp.mono fun O L h => ih _ _ _ h⟩
  | inc p k ih =>
    intro O L m h m' O' L' hk hi
    obtain ⟨O1, L1, h1, hv, c, hc, hm, hp⟩ := h m' O' L' hk hi
    exact ⟨O1, L1, h1, hv, c, hc, hm, hp.mono fun O L h => ih _ _ _ h⟩
  | dec p k ih =>
    intro O L m h m' O' L' hk hi
    obtain ⟨O1, L1, h1, hv, c, hc, hm, h0, hp⟩ := h m' O' L' hk hi
    exact ⟨O1, L1, h1, hv, c, hc, hm, h0, hp.mono fun O L h => ih _ _ _ _ h⟩
  | unique p k ih =>
    intro O L m h m' O' L' hk hi
    obtain ⟨O1, L1, h1, hv, c, hc, hm, hp⟩ := h m' O' L' hk hi
    exact ⟨O1, L1, h1, hv, c, hc, hm, fun b hb => (hp b hb).mono fun O L h => ih _ _ _ _ h⟩
  | alloc n x k ih =>
    intro O L m h m' O' L' hk hi
    obtain ⟨O1, L1, h1, hv, hp⟩ := h m' O' L' hk hi
    exact ⟨O1, L1, h1, hv, fun p h0 h1 => (hp p h0 h1).mono fun O L h => ih _ _ _ _ h⟩
  | free p n j k ih =>
    intro O L m h m' O' L' hk hi
    obtain ⟨O1, L1, h1, hv, c, hc, hm, he, hj, hp⟩ := h m' O' L' hk hi
    exact ⟨O1, L1, h1, hv, c, hc, hm, he, hj, hp.mono fun O L h => ih _ _ _ h⟩

theorem safe_mono (hq : ∀ O L m b, Q O L m b → Q' O L m b) : ∀ (p : Prog D T β) (O : List Nat) (L : List (Ref V)) (m : Mem D T), Safe S room G p O L m Q → Safe S room G p O L m Q' := by
  intro p
  induction p with
  | ret b =>
    intro O L m h m' O' L' hk hi
    obtain ⟨O1, L1, h1, hv, h2⟩ := h m' O' L' hk hi
    exact ⟨O1, L1, h1, hv, hq _ _ _ _ h2⟩
  | undef =>
    intro O L m h m' O' L' hk hi
    obtain ⟨O1, L1, h1, hv, h2⟩ := h m' O' L' hk hi
    exact h2.elim
  | read p k ih =>
    intro O L m h m' O' L' hk hi
    obtain ⟨O1, L1, h1, hv, c, hc, hm, hp⟩ := h m' O' L' hk hi
    exact ⟨O1, L1, h1, hv, c, hc, hm, hp.mono fun O L h => ih _ _ _ _ _ h⟩
  | write p f k ih =>
    intro O L m h m' O' L' hk hi
    obtain ⟨O1, L1, h1, hv, c, r, hc, hm, hf, hp⟩ := h m' O' L' hk hi
    exact ⟨O1, L1, h1, hv, c, r, hc, hm, hf, hp.mono fun O L h => ih _ _ _ h⟩
  | inc p k ih =>
    intro O L m h m' O' L' hk hi
    obtain ⟨O1, L1, h1, hv, c, hc, hm, hp⟩ := h m' O' L' hk hi
    exact ⟨O1, L1, h1, hv, c, hc, hm, hp.mono fun O L h => ih _ _ _ h⟩
  | dec p k ih =>
    intro O L m h m' O' L' hk hi
    obtain ⟨O1, L1, h1, hv, c, hc, hm, h0, hp⟩ := h m' O' L' hk hi
    exact ⟨O1, L1, h1, hv, c, hc, hm, h0, hp.mono fun O L h => ih _ _ _ _ h⟩
  | unique p k ih =>
    intro O L m h m' O' L' hk hi
    obtain ⟨O1, L1, h1, hv, c, hc, hm, hp⟩ := h m' O' L' hk hi
    exact ⟨O1, L1, h1, hv, c, hc, hm, fun b hb => (hp b hb).mono fun O L h => ih _ _ _ _ h⟩
  | alloc n x k ih =>
    intro O L m h m' O' L' hk hi
    obtain ⟨O1, L1, h1, hv, hp⟩ := h m' O' L' hk hi
    exact ⟨O1, L1, h1, hv, fun p h0 h1 => (hp p h0 h1).mono fun O L h => ih _ _ _ _ h⟩
  | free p n j k ih =>
    intro O L m h m' O' L' hk hi
    obtain ⟨O1, L1, h1, hv, c, hc, hm, he, hj, hp⟩ := h m' O' L' hk hi
    exact ⟨O1, L1, h1, hv, c, hc, hm, he, hj, hp.mono fun O L h => ih _ _ _ h⟩

/-! ### Single steps -/

section
variable {a : Nat} {c : Cell D T} {r : Ref V}

theorem same_of_kept (hk : Kept S O (L ++ G) m m') (ha : Mine S G O L m a) (hc : m a = some c) : ∃ c', m' a = some c' ∧ Same c c' := by
  rcases ha with ha | ha
  · exact ⟨c, (hk.2 a ha).trans hc, .rfl'⟩
  · exact hk.1 a ha c hc

theorem safe_read {k : D → List (Slot T) → Prog D T β} (ha : Mine S G O L m a) (hc : m a = some c) (h : Safe S room G (k c.data c.els) O L m Q) :
    Safe S room G (.read a k) O L m Q := by
  intro m' O' L' hk hi
  obtain ⟨c', hc', hs⟩ := same_of_kept hk ha hc
  refine ⟨O, L, hi, .refl, c', hc', ha.kept hk, O, L, hi, .refl, .refl, ?_⟩
  rw [hs.1, hs.2.1]
  exact h.kept hk

/-- what others have, when this thread changes a node of its own -/
theorem kept_others {O' : List Nat} {L' L0 : List (Ref V)} (h : Inv S m (a :: O ++ O') (L0 ++ (G ++ L'))) (x : Option (Cell D T)) : Kept S O' (G ++ L') m (upd m a x) := by
  refine (Kept.upd (O := O') h (.inl ?_) ?_ x).mono (fun _ hr => List.mem_append_right _ hr) (fun _ h => h)
  · exact List.mem_cons_self
  · intro hx
    have := h.open_nodup
    rw [List.cons_append] at this
    exact (List.nodup_cons.mp this).1 (List.mem_append_right _ hx)

theorem kept_mine {O' : List Nat} {L' : List (Ref V)} (h : Inv S m (a :: O ++ O') (L ++ (G ++ L'))) (x : Option (Cell D T)) : Kept S O (L ++ G) m (upd m a x) := by
  refine (Kept.upd (O := O) h (.inl ?_) ?_ x).mono (fun r hr => ?_) (fun _ h => h)
  · exact List.mem_cons_self
  · intro hx
    have := h.open_nodup
    rw [List.cons_append] at this
    exact (List.nodup_cons.mp this).1 (List.mem_append_left _ hx)
  · rw [← List.append_assoc]; exact List.mem_append_left _ hr

theorem Kept.close' (hk : Kept S (a :: O) (L ++ G) m m') : Kept S O (L ++ G) m m' := hk.mono (fun _ h => h) (fun _ h => List.mem_cons_of_mem _ h)

theorem safe_write {f : D → List (Slot T) → Option (D × List (Slot T))} {k : Prog D T β} {x : D × List (Slot T)} (hc : m a = some c) (hf : f c.data c.els = some x)
    (h : ∀ m', Kept S O (L ++ G) m m' → m' a = some { c with data := x.1, els := x.2 } → Safe S room G k (a :: O) L m' Q) : Safe S room G (.write a f k) (a :: O) L m Q := by
  intro m' O' L' hk hi
  have hc' : m' a = some c := (hk.2 a List.mem_cons_self).trans hc
  refine ⟨_, L, hi, .refl, c, x, hc', List.mem_cons_self, hf, a :: O, L, ⟨hi.1.write List.mem_cons_self _, hi.2⟩, kept_others hi.1 _, .same hi.1 (kept_mine hi.1 _), ?_⟩
  exact h _ ((Kept.close' hk).trans (kept_mine hi.1 _)) upd_self

theorem safe_alloc {n : Nat} {x : D} {k : Nat → Prog D T β} (h : ∀ m' a, a ≠ 0 → Kept S O (L ++ G) m m' → m' a = some ⟨1, 0, List.replicate n .raw, x⟩ → Safe S room G (k a) (a :: O) L m' Q) :
    Safe S room G (.alloc n x k) O L m Q := by
  intro m' O' L' hk hi
  refine ⟨O, L, hi, .refl, ?_⟩
  intro a ha h0
  have hm : Kept S O (L ++ G) m' (upd m' a (some ⟨1, 0, List.replicate n .raw, x⟩)) := by
    refine (Kept.upd hi.1 (.inr ha) (fun hx => hi.1.fresh_notin ha (List.mem_append_left _ hx)) _).mono (fun r hr => ?_) (fun _ h => h)
    rw [← List.append_assoc]; exact List.mem_append_left _ hr
  refine ⟨a :: O, L, ⟨hi.1.alloc ha _, hi.2⟩, ?_, ?_, ?_⟩
  · exact (Kept.upd hi.1 (.inr ha) (fun hx => hi.1.fresh_notin ha (List.mem_append_right _ hx)) _).mono (fun _ hr => List.mem_append_right _ hr) (fun _ h => h)
  · exact .kept hi.1 (fun b hb => (List.mem_cons.mp hb).elim .inr .inl) (fun b hb => .inl (List.mem_cons_of_mem _ hb)) (fun b hb => hb ▸ List.mem_cons_self) hm
  · exact h _ a h0 (hk.trans hm) upd_self

theorem safe_free {n j : Nat} {k : Prog D T β} (hc : m a = some c) (he : c.els = List.replicate n .raw) (hj : room c.data = j)
    (h : ∀ m', Kept S O (L ++ G) m m' → Safe S room G k O L m' Q) : Safe S room G (.free a n j k) (a :: O) L m Q := by
  intro m' O' L' hk hi
  have hc' : m' a = some c := (hk.2 a List.mem_cons_self).trans hc
  exact ⟨_, L, hi, .refl, c, hc', List.mem_cons_self, he, hj, O, L, ⟨hi.1.free, hi.2⟩, kept_others hi.1 _,
    .kept hi.1 (fun b hb => .inl (List.mem_cons_of_mem _ hb)) (fun b hb => (List.mem_cons.mp hb).elim .inr .inl) (fun _ h => h.elim) (kept_mine hi.1 _), h _ ((Kept.close' hk).trans (kept_mine hi.1 _))⟩

theorem addRc_eq (hc : m a = some c) : addRc m a = upd m a (some { c with rc := c.rc + 1 }) := by unfold addRc; rw [hc]

/-- one more reference to a node that may be read -/
theorem TInv.dup (R : Ranked S) (hg : S.gc = false) {v : V} {L0 : List (Ref V)} (h : TInv S m O L0) (ha : At S m L0 a v) (hc : m a = some c) :
    TInv S (upd m a (some { c with rc := c.rc + 1 })) O (⟨a, v, 0, false⟩ :: L0) ∧ Kept S O L0 m (upd m a (some { c with rc := c.rc + 1 })) := by
  obtain ⟨⟨A, J, g, hJ, h⟩, hu⟩ := h
  have h1 := h.incs (Li := [⟨a, v, 0, false⟩]) (by
    intro x hx
    rw [List.mem_singleton] at hx
    subst hx
    exact ⟨h.reach ha.reach, ha.den.unique R (h.den ha.reach), ha.unowned⟩) (by
    intro x hx
    rw [List.mem_singleton] at hx
    subst hx
    rfl) (by
    intro x hx y hy hyu
    rw [hu y hy] at hyu; cases hyu)
  have he : incs S.gc m ([⟨a, v, 0, false⟩].map Ref.ptr) = upd m a (some { c with rc := c.rc + 1 }) := by
    rw [hg]
    exact addRc_eq hc
  rw [he] at h1
  refine ⟨⟨⟨A, J, g, hJ, h1⟩, ?_⟩, ?_⟩
  · intro r hr
    rcases List.mem_cons.mp hr with rfl | hr
    · rfl
    · exact hu r hr
  · rw [← he]
    refine Kept.incs ⟨A, J, g, hJ, h⟩ _ ?_
    intro b hb
    rw [List.map_singleton, List.mem_singleton] at hb
    subst hb
    exact fun hx => h.notin (List.mem_append_left _ hx) (h.reach ha.reach)

theorem safe_inc (R : Ranked S) (hg : S.gc = false) {v : V} {k : Prog D T β} (ha : At S m (L ++ G) a v)
    (h : ∀ m', Kept S O (L ++ G) m m' → Safe S room G k O (⟨a, v, 0, false⟩ :: L) m' Q) : Safe S room G (.inc a k) O L m Q := by
  intro m' O' L' hk hi
  have ha' := ha.kept hk
  have hm : ∀ r ∈ L ++ G, r ∈ L ++ (G ++ L') := fun r hr => by rw [← List.append_assoc]; exact List.mem_append_left _ hr
  obtain ⟨c, hc⟩ := hi.1.reach_cell (ha'.reach.mono hm)
  obtain ⟨h1, h2⟩ := hi.dup R hg (ha'.mono hm) hc
  refine ⟨O, L, hi, .refl, c, hc, .inr ha'.reach, O, _, h1, h2.mono (fun r hr => List.mem_append_right _ hr) (fun _ h => List.mem_append_right _ h),
    ⟨fun _ h => .inl h, fun b hb => .inl (hb.imp_right fun hb => ((h2.mono hm fun _ h => h).reach hb).mono fun r hr => List.mem_cons_of_mem _ hr), fun b hb => .inl (hb.imp_right ?_), fun _ h => h.elim⟩,
    h _ (hk.trans (h2.mono hm (fun _ h => List.mem_append_left _ h)))⟩
  rintro ⟨r, hr, hf⟩
  refine reach_back hi.1 (h2.mono hm fun _ h => h) ?_
  rcases List.mem_cons.mp hr with rfl | hr
  · obtain ⟨r, hr, hf'⟩ := (h2.mono hm fun _ h => h).reach ha'.reach
    exact ⟨r, hr, hf'.trans hf⟩
  · exact ⟨r, hr, hf⟩

/-- a node taken apart by its only owner -/
theorem TInv.open_ (hg : S.gc = false) {L0 : List (Ref V)} (h : TInv S m O (r :: L0)) (hc : m r.ptr = some c) (h1 : c.rc = 1) :
    ∃ Lo : List (Ref V), S.outs c.data = Lo.map Ref.ptr ∧ S.Ok c.data c.els (Lo.map Ref.val) r.val ∧ (∀ x ∈ Lo, x.tok = c.tok) ∧ TInv S m (r.ptr :: O) (Lo ++ L0) := by
  obtain ⟨A, J, g, hJ, h0⟩ := h.1
  have hu : ∀ x ∈ L0, x.uniq = false := fun x hx => h.2 x (List.mem_cons_of_mem _ hx)
  obtain ⟨Lo, h2, h3, h4, h5⟩ := h.1.open_ hc (.inl ⟨hg, h1⟩)
  let W : List (Ref V) := Lo.map fun x => { x with uniq := false }
  have hW : W.map Ref.ptr = Lo.map Ref.ptr := by simp [W, Function.comp_def]
  have hV : W.map Ref.val = Lo.map Ref.val := by simp [W, Function.comp_def]
  refine ⟨W, h2.trans hW.symm, by rw [hV]; exact h3, ?_, ?_, ?_⟩
  · intro x hx
    obtain ⟨y, hy, rfl⟩ := List.mem_map.mp hx
    exact h4 y hy
  · clear hW hV h2 h3 h4 h
    have key : ∀ (X Lr : List (Ref V)), Inv S m (r.ptr :: O) (X ++ Lr) → Inv S m (r.ptr :: O) (X.map (fun x => { x with uniq := false }) ++ Lr) := by
      intro X
      induction X with
      | nil => intro Lr h; exact h
      | cons x X ih =>
        intro Lr h
        have hw := Inv.weaken (b := false) (t := x.tok) h (fun c' hc' hl => by
          obtain ⟨A, J, g, hJ, h0⟩ := h
          exact h0.refTok x List.mem_cons_self c' hc' hl) (fun h => by cases h)
        have h1 : Inv S m (r.ptr :: O) (X ++ ({ x with uniq := false } :: Lr)) := hw.permL List.perm_middle.symm
        exact (ih _ h1).permL List.perm_middle
    exact key Lo L0 h5
  · intro x hx
    rcases List.mem_append.mp hx with hx | hx
    · obtain ⟨y, hy, rfl⟩ := List.mem_map.mp hx
      rfl
    · exact hu x hx

theorem head_cell {L0 : List (Ref V)} (h : TInv S m O (r :: L0)) : ∃ c, m r.ptr = some c ∧ (S.gc = false → 0 < c.rc) ∧ r.ptr ∉ O := by
  obtain ⟨c, _, hc, _, _, _, h1, h2⟩ := h.1.look (List.mem_cons_self (a := r))
  exact ⟨c, hc, h1, h2⟩

theorem mine_head : Mine S G O (r :: L) m r.ptr := .inr ⟨r, List.mem_cons_self, .here⟩

theorem Kept.head (hk : Kept S O (r :: L ++ G) m m') : Kept S O (L ++ G) m m' := hk.mono (fun _ h => List.mem_cons_of_mem _ h) (fun _ h => h)

/-- changing a count changes nothing -/
theorem kept_count {L0 : List (Ref V)} (hc : m a = some c) (ha : a ∉ O) (n : Nat) : Kept S O L0 m (upd m a (some { c with rc := n })) := by
  refine ⟨?_, ?_⟩
  · intro q _ cq hq
    by_cases he : q = a
    · subst he
      rw [hc] at hq; cases hq
      exact ⟨_, upd_self, rfl, rfl, rfl⟩
    · exact ⟨cq, by rw [upd_ne he]; exact hq, .rfl'⟩
  · intro b hb
    rw [upd_ne]
    rintro rfl
    exact ha hb

theorem from_head {q : Nat} (hc : m a = some c) (h : From S m a q) {Lo : List (Ref V)} (ho : S.outs c.data = Lo.map Ref.ptr) : q = a ∨ Reach S m Lo q := by
  rcases h.head with rfl | ⟨c', o, hc', ho', hf⟩
  · exact .inl rfl
  · rw [hc] at hc'; cases hc'
    rw [ho] at ho'
    obtain ⟨r, hr, rfl⟩ := List.mem_map.mp ho'
    exact .inr ⟨r, hr, hf⟩

/-- taking a node apart -/
theorem Moved.open_ {O' : List Nat} {L' Lo : List (Ref V)} (hi : Inv S m O' (Lo ++ (L ++ (G ++ L')))) (hc : m r.ptr = some c) (ho : S.outs c.data = Lo.map Ref.ptr) (hN : ∀ a, N a ↔ a = r.ptr)
    (hk : Kept S [] (Lo ++ (L ++ G)) m m') : Moved S G N P O (r :: L) m (r.ptr :: O) (Lo ++ L) m' := by
  refine ⟨fun b hb => (List.mem_cons.mp hb).elim (fun h => .inr ((hN _).mpr h)) .inl, ?_, ?_, fun b hb => .inl ((hN b).mp hb ▸ List.mem_cons_self)⟩
  · rintro b (hb | ⟨x, hx, hf⟩)
    · exact .inl (.inl (List.mem_cons_of_mem _ hb))
    left
    rcases List.mem_cons.mp hx with rfl | hx
    · rcases from_head hc hf ho with rfl | h
      · exact .inl List.mem_cons_self
      · right
        rw [List.append_assoc]
        exact hk.reach (h.mono fun y hy => List.mem_append_left _ hy)
    · right
      rw [List.append_assoc]
      exact hk.reach ⟨x, List.mem_append_right _ hx, hf⟩
  · rintro b (hb | hb)
    · rcases List.mem_cons.mp hb with rfl | hb
      · exact .inr ((hN _).mpr rfl)
      · exact .inl (.inl hb)
    · left; right
      rw [List.append_assoc] at hb
      rw [← List.append_assoc] at hi hk
      obtain ⟨x, hx, hf⟩ := reach_back hi hk (by rw [List.append_assoc]; exact hb)
      rw [List.append_assoc] at hx
      rcases List.mem_append.mp hx with hx | hx
      · exact ⟨r, List.mem_cons_self, (From.next .here hc (ho ▸ List.mem_map_of_mem hx)).trans hf⟩
      · exact ⟨x, List.mem_cons_of_mem _ hx, hf⟩

/-- one reference less -/
theorem safe_dec (hg : S.gc = false) {k : Bool → Prog D T β} (h1 : ∀ m', Kept S O (L ++ G) m m' → Safe S room G (k false) O L m' Q)
    (h2 : ∀ m' c Lo, Kept S O (L ++ G) m m' → m' r.ptr = some c → S.outs c.data = Lo.map Ref.ptr → S.Ok c.data c.els (Lo.map Ref.val) r.val → Safe S room G (k true) (r.ptr :: O) (Lo ++ L) m' Q) :
    Safe S room G (.dec r.ptr k) O (r :: L) m Q := by
  intro m' O' L' hk hi
  obtain ⟨c, hc, h0, hO⟩ := head_cell hi
  refine ⟨O, _, hi, .refl, c, hc, ⟨r, List.mem_cons_self, .here⟩, h0 hg, ?_⟩
  by_cases hr : c.rc = 1
  · obtain ⟨Lo, ho, hok, _, hi'⟩ := hi.open_ hg hc hr
    rw [hr]
    refine ⟨r.ptr :: O, Lo ++ L, ⟨?_, ?_⟩, ?_, .open_ hi'.1 hc ho (fun a => ⟨fun h => h.2, fun h => ⟨rfl, h⟩⟩) (kept_count hc (by simp) _), ?_⟩
    · have := hi'.1.write List.mem_cons_self { c with rc := 1 - 1 }
      rw [List.append_assoc]
      exact this
    · intro x hx
      rw [List.append_assoc] at hx
      exact hi'.2 x hx
    · exact kept_count hc (fun hx => hO (List.mem_append_right _ hx)) _
    · refine h2 _ { c with rc := 1 - 1 } Lo ((Kept.head hk).trans (kept_count hc (fun hx => hO (List.mem_append_left _ hx)) _)) upd_self ho hok
  · have := hi.1.drop hc (fun _ => by have := h0 hg; omega)
    rw [hg] at this
    simp only [Bool.false_eq_true, if_false] at this
    refine ⟨O, L, ⟨this, fun x hx => hi.2 x (List.mem_cons_of_mem _ hx)⟩, kept_count hc (fun hx => hO (List.mem_append_right _ hx)) _, ?_, ?_⟩
    · have hk0 := kept_count (S := S) (L0 := L ++ G) (O := []) hc (by simp) (c.rc - 1)
      refine ⟨fun _ h => .inl h, ?_, ?_, fun _ h => (hr h.1).elim⟩
      · rintro b (hb | ⟨x, hx, hf⟩)
        · exact .inl (.inl hb)
        rcases List.mem_cons.mp hx with rfl | hx
        · exact .inr ⟨hr, hf⟩
        · exact .inl (.inr (hk0.reach ⟨x, hx, hf⟩))
      · rintro b (hb | hb)
        · exact .inl (.inl hb)
        · have hk1 := kept_count (S := S) (L0 := r :: L ++ G) (O := []) hc (by simp) (c.rc - 1)
          exact .inl (.inr (reach_back hi.1 hk1 (hb.mono fun x hx => List.mem_cons_of_mem _ hx)))
    rw [show (c.rc == 1) = false by simpa using hr]
    exact h1 _ ((Kept.head hk).trans (kept_count hc (fun hx => hO (List.mem_append_left _ hx)) _))

/-- asking whether there is another reference -/
theorem safe_unique (hg : S.gc = false) {k : Bool → Prog D T β} (h1 : Safe S room G (k false) O (r :: L) m Q)
    (h2 : ∀ m' c Lo, Kept S O (L ++ G) m m' → m' r.ptr = some c → c.rc = 1 → S.outs c.data = Lo.map Ref.ptr → S.Ok c.data c.els (Lo.map Ref.val) r.val → Safe S room G (k true) (r.ptr :: O) (Lo ++ L) m' Q) :
    Safe S room G (.unique r.ptr k) O (r :: L) m Q := by
  intro m' O' L' hk hi
  obtain ⟨c, hc, h0, hO⟩ := head_cell hi
  refine ⟨O, _, hi, .refl, c, hc, ⟨r, List.mem_cons_self, rfl⟩, ?_⟩
  intro b hb
  cases b with
  | true =>
    have hr := hb rfl
    obtain ⟨Lo, ho, hok, _, hi'⟩ := hi.open_ hg hc hr
    refine ⟨r.ptr :: O, Lo ++ L, ⟨?_, ?_⟩, .refl, .open_ hi'.1 hc ho (fun a => ⟨fun h => h.2, fun h => ⟨rfl, h⟩⟩) .refl, ?_⟩
    · rw [List.append_assoc]; exact hi'.1
    · intro x hx
      rw [List.append_assoc] at hx
      exact hi'.2 x hx
    · exact h2 _ c Lo (Kept.head hk) hc hr ho hok
  | false => exact ⟨O, _, hi, .refl, ⟨fun _ h => .inl h, fun _ h => .inl h, fun _ h => .inl h, fun _ h => by cases h.1⟩, h1.kept hk⟩

/-- a node is finished -/
theorem safe_close (hg : S.gc = false) {v : V} {Lo : List (Ref V)} (hc : m a = some c) (hr : c.rc = 1) (ho : S.outs c.data = Lo.map Ref.ptr) (hok : S.Ok c.data c.els (Lo.map Ref.val) v)
    (htk : S.Tk c.tok c.data c.els) (h : Safe S room G p O (⟨a, v, 0, false⟩ :: L) m Q) : Safe S room G p (a :: O) (Lo ++ L) m Q := by
  refine safe_ghost fun m' O' L' hk hi => ⟨O, ⟨a, v, 0, false⟩ :: L, ⟨?_, ?_⟩, ?_, h.kept ?_⟩
  · have hi1 := hi.1
    rw [List.append_assoc] at hi1
    have := Inv.close (t := 0) (v := v) hi1 ((hk.2 a List.mem_cons_self).trans hc) (fun _ => hr) ho hok (fun hl => (S.liveGc hg _ hl).elim) (fun _ _ c' _ hl => (S.liveGc hg _ hl).elim) htk
    exact Inv.weaken this (fun c' _ hl => (S.liveGc hg _ hl).elim) (fun h => by cases h)
  · intro x hx
    rcases List.mem_cons.mp hx with rfl | hx
    · rfl
    · refine hi.2 x ?_
      rw [List.append_assoc]
      exact List.mem_append_right _ hx
  · have hc' := (hk.2 a List.mem_cons_self).trans hc
    refine ⟨fun b hb => .inl (List.mem_cons_of_mem _ hb), ?_, ?_, fun _ h => h.elim⟩
    rotate_left
    · rintro b (hb | ⟨x, hx, hf⟩)
      · exact .inl (.inl (List.mem_cons_of_mem _ hb))
      · left
        rcases List.mem_cons.mp hx with rfl | hx
        · rcases from_head hc' hf ho with rfl | h
          · exact .inl List.mem_cons_self
          · exact .inr (h.mono fun y hy => List.mem_append_left _ (List.mem_append_left _ hy))
        · right
          rw [List.append_assoc]
          exact ⟨x, List.mem_append_right _ hx, hf⟩
    rintro b (hb | ⟨x, hx, hf⟩)
    · rcases List.mem_cons.mp hb with rfl | hb
      · exact .inl (.inr ⟨_, List.mem_cons_self, .here⟩)
      · exact .inl (.inl hb)
    · left; right
      rw [List.append_assoc] at hx
      rcases List.mem_append.mp hx with hx | hx
      · exact ⟨_, List.mem_cons_self, (From.next .here hc' (ho ▸ List.mem_map_of_mem hx)).trans hf⟩
      · exact ⟨x, List.mem_cons_of_mem _ hx, hf⟩
  · rw [List.append_assoc] at hk
    exact Kept.close hk hc ho rfl
end

theorem bind_ret (p : Prog D T β) : p.bind Prog.ret = p := by
  induction p with
  | ret b => rfl
  | undef => rfl
  | read p k ih => exact congrArg _ (funext fun d => funext fun e => ih d e)
  | write p f k ih => exact congrArg _ ih
  | inc p k ih => exact congrArg _ ih
  | dec p k ih => exact congrArg _ (funext fun b => ih b)
  | unique p k ih => exact congrArg _ (funext fun b => ih b)
  | alloc n x k ih => exact congrArg _ (funext fun b => ih b)
  | free p n j k ih => exact congrArg _ ih

end Thr
