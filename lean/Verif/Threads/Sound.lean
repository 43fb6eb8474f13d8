import Verif.Threads.Logic

/-!
# Steps of a thread among others
-/

namespace Thr
open Mm

variable {D T V β : Type} {S : Sys D T V} {room : D → Nat} {G : List (Ref V)} {O O' : List Nat} {L L' : List (Ref V)} {m m' : Mem D T}
  {Q : List Nat → List (Ref V) → Mem D T → β → Prop} {p p' : Prog D T β} {o : Op} {a : Nat}

/-- nodes that a thread has for itself after a step -/
def Op.gets (o : Op) (a x : Nat) : Prop := (o = .dec true ∨ o = .unique true ∨ o = .alloc) ∧ x = a

/-- nodes that a thread may not be able to read any more after a step -/
def Op.loses (S : Sys D T V) (m : Mem D T) (o : Op) (a x : Nat) : Prop := (o = .dec false ∧ From S m a x) ∨ (o = .free ∧ x = a)

/-- what a thread needs to have for a step -/
def Op.needs (S : Sys D T V) (G : List (Ref V)) (O : List Nat) (L : List (Ref V)) (m : Mem D T) (o : Op) (a : Nat) : Prop :=
  match o with
  | .read => Mine S G O L m a
  | .write => a ∈ O
  | .inc => Mine S G O L m a
  | .dec _ => Reach S m (L ++ G) a
  | .unique _ => ∃ r ∈ L, r.ptr = a
  | .alloc => m a = none
  | .free => a ∈ O

/-- what a step does to memory -/
def Op.effect (m m' : Mem D T) (o : Op) (a : Nat) : Prop :=
  match o with
  | .read => m' = m
  | .unique _ => m' = m
  | .inc => ∃ c n, m a = some c ∧ m' = upd m a (some { c with rc := n })
  | .dec _ => ∃ c n, m a = some c ∧ m' = upd m a (some { c with rc := n })
  | .write => ∃ c, m' = upd m a (some c)
  | .alloc => ∃ c, m' = upd m a (some c)
  | .free => m' = upd m a none

theorem reach_ptr (h : ∃ r ∈ L, r.ptr = a) : Reach S m (L ++ G) a := by
  obtain ⟨r, hr, rfl⟩ := h
  exact ⟨r, List.mem_append_left _ hr, .here⟩

/-- Before a step, what a thread has may be counted in another way.  Then it has what it needs, and it leaves to others what is
theirs. -/
theorem safe_step (h : Safe S room G p O L m Q) (hi : TInv S m (O ++ O') (L ++ (G ++ L'))) (hs : Prog.Step room m p o a m' p') :
    ∃ O0 L0 O1 L1, TInv S m (O0 ++ O') (L0 ++ (G ++ L')) ∧ Moved S G no no O L m O0 L0 m ∧ o.needs S G O0 L0 m a ∧ o.effect m m' a ∧
      TInv S m' (O1 ++ O') (L1 ++ (G ++ L')) ∧ Kept S O' (G ++ L') m m' ∧ Moved S G (o.gets a) (o.loses S m a) O0 L0 m O1 L1 m' ∧ Safe S room G p' O1 L1 m' Q := by
  obtain ⟨O0, L0, hi0, hv, hb⟩ := h m O' L' .refl hi
  have mono : ∀ {N N' P P' : Nat → Prop} {O1 : List Nat} {L1 : List (Ref V)} {m' : Mem D T}, Moved S G N P O0 L0 m O1 L1 m' → (∀ x, N x ↔ N' x) → (∀ x, P x → P' x) → Moved S G N' P' O0 L0 m O1 L1 m' := by
    intro N N' P P' O1 L1 m' hm hN hP
    exact ⟨fun x hx => (hm.1 x hx).imp_right (hN x).mp, fun x hx => (hm.2.1 x hx).imp_right (hP x), fun x hx => (hm.2.2.1 x hx).imp_right (hN x).mp, fun x hx => hm.2.2.2 x ((hN x).mpr hx)⟩
  cases hs with
  | read hc =>
    obtain ⟨c', hc', hm, O1, L1, h1, h2, h3, h4⟩ := hb
    rw [hc] at hc'; cases hc'
    exact ⟨O0, L0, O1, L1, hi0, hv, hm, rfl, h1, h2, mono h3 (by simp [Op.gets]) (by simp), h4⟩
  | write hc hf =>
    obtain ⟨c', r', hc', hm, hf', O1, L1, h1, h2, h3, h4⟩ := hb
    rw [hc] at hc'; cases hc'
    rw [hf] at hf'; cases hf'
    exact ⟨O0, L0, O1, L1, hi0, hv, hm, ⟨_, rfl⟩, h1, h2, mono h3 (by simp [Op.gets]) (by simp), h4⟩
  | inc hc =>
    obtain ⟨c', hc', hm, O1, L1, h1, h2, h3, h4⟩ := hb
    rw [hc] at hc'; cases hc'
    exact ⟨O0, L0, O1, L1, hi0, hv, hm, ⟨_, _, hc, rfl⟩, h1, h2, mono h3 (by simp [Op.gets]) (by simp), h4⟩
  | dec hc h0 =>
    obtain ⟨c', hc', hm, -, O1, L1, h1, h2, h3, h4⟩ := hb
    rw [hc] at hc'; cases hc'
    refine ⟨O0, L0, O1, L1, hi0, hv, hm, ⟨_, _, hc, rfl⟩, h1, h2, mono h3 ?_ ?_, h4⟩
    · simp [Op.gets]
    · rintro x ⟨h5, h6⟩
      exact .inl ⟨by simp [h5], h6⟩
  | unique hc hbb =>
    obtain ⟨c', hc', hm, hb⟩ := hb
    rw [hc] at hc'; cases hc'
    obtain ⟨O1, L1, h1, h2, h3, h4⟩ := hb _ hbb
    exact ⟨O0, L0, O1, L1, hi0, hv, hm, rfl, h1, h2, mono h3 (by simp [Op.gets]) (by simp), h4⟩
  | alloc hp h0 =>
    obtain ⟨O1, L1, h1, h2, h3, h4⟩ := hb _ hp h0
    exact ⟨O0, L0, O1, L1, hi0, hv, hp, ⟨_, rfl⟩, h1, h2, mono h3 (by simp [Op.gets]) (by simp), h4⟩
  | free hc he hj =>
    obtain ⟨c', hc', hm, -, -, O1, L1, h1, h2, h3, h4⟩ := hb
    exact ⟨O0, L0, O1, L1, hi0, hv, hm, rfl, h1, h2, mono h3 (by simp [Op.gets]) (by intro x hx; exact .inr ⟨rfl, hx⟩), h4⟩

theorem le_sum {x : Nat} {l : List Nat} (h : x ∈ l) : x ≤ l.sum := by
  induction l with
  | nil => cases h
  | cons y l ih =>
    rw [List.sum_cons]
    rcases List.mem_cons.mp h with rfl | h
    · omega
    · have := ih h; omega

/-- a thread can always go on -/
theorem safe_progress (h : Safe S room G p O L m Q) (hi : TInv S m (O ++ O') (L ++ (G ++ L'))) : (∃ b, p = .ret b) ∨ ∃ o a m' p', Prog.Step room m p o a m' p' := by
  obtain ⟨O0, L0, hi0, hv, hb⟩ := h m O' L' .refl hi
  cases p with
  | ret b => exact .inl ⟨b, rfl⟩
  | undef => exact hb.elim
  | read p k =>
    obtain ⟨c, hc, -⟩ := hb
    exact .inr ⟨_, _, _, _, .read hc⟩
  | write p f k =>
    obtain ⟨c, r, hc, -, hf, -⟩ := hb
    exact .inr ⟨_, _, _, _, .write hc hf⟩
  | inc p k =>
    obtain ⟨c, hc, -⟩ := hb
    exact .inr ⟨_, _, _, _, .inc hc⟩
  | dec p k =>
    obtain ⟨c, hc, -, h0, -⟩ := hb
    exact .inr ⟨_, _, _, _, .dec hc h0⟩
  | unique p k =>
    obtain ⟨c, hc, -⟩ := hb
    exact .inr ⟨_, _, _, _, .unique (b := false) hc (fun h => by cases h)⟩
  | alloc n x k =>
    obtain ⟨l, hl⟩ := hi0.1.finite
    refine .inr ⟨_, l.sum + 1, _, _, .alloc ?_ (by omega)⟩
    by_contra hc
    have := le_sum (hl _ hc)
    omega
  | free p n j k =>
    obtain ⟨c, hc, -, he, hj, -⟩ := hb
    exact .inr ⟨_, _, _, _, .free hc he hj⟩

/-- what a thread is about to access is its own -/
theorem safe_next (h : Safe S room G p O L m Q) (hi : TInv S m (O ++ O') (L ++ (G ++ L'))) {k : Cls} (hn : p.next = some (a, k)) :
    ∃ O0 L0, TInv S m (O0 ++ O') (L0 ++ (G ++ L')) ∧ Moved S G no no O L m O0 L0 m ∧ (∃ c, m a = some c) ∧ Mine S G O0 L0 m a ∧ (k = .write ∨ k = .whole → a ∈ O0) := by
  obtain ⟨O0, L0, hi0, hv, hb⟩ := h m O' L' .refl hi
  refine ⟨O0, L0, hi0, hv, ?_⟩
  cases p with
  | ret b => simp [Prog.next] at hn
  | undef => simp [Prog.next] at hn
  | alloc n x k => simp [Prog.next] at hn
  | read p k =>
    obtain ⟨c, hc, hm, -⟩ := hb
    simp only [Prog.next, Option.some.injEq, Prod.mk.injEq] at hn
    obtain ⟨rfl, rfl⟩ := hn
    exact ⟨⟨c, hc⟩, hm, by simp⟩
  | write p f k =>
    obtain ⟨c, r, hc, hm, hf, -⟩ := hb
    simp only [Prog.next, Option.some.injEq, Prod.mk.injEq] at hn
    obtain ⟨rfl, rfl⟩ := hn
    exact ⟨⟨c, hc⟩, .inl hm, fun _ => hm⟩
  | inc p k =>
    obtain ⟨c, hc, hm, -⟩ := hb
    simp only [Prog.next, Option.some.injEq, Prod.mk.injEq] at hn
    obtain ⟨rfl, rfl⟩ := hn
    exact ⟨⟨c, hc⟩, hm, by simp⟩
  | dec p k =>
    obtain ⟨c, hc, hm, -⟩ := hb
    simp only [Prog.next, Option.some.injEq, Prod.mk.injEq] at hn
    obtain ⟨rfl, rfl⟩ := hn
    exact ⟨⟨c, hc⟩, .inr hm, by simp⟩
  | unique p k =>
    obtain ⟨c, hc, hm, -⟩ := hb
    simp only [Prog.next, Option.some.injEq, Prod.mk.injEq] at hn
    obtain ⟨rfl, rfl⟩ := hn
    exact ⟨⟨c, hc⟩, .inr (reach_ptr hm), by simp⟩
  | free p n j k =>
    obtain ⟨c, hc, hm, -⟩ := hb
    simp only [Prog.next, Option.some.injEq, Prod.mk.injEq] at hn
    obtain ⟨rfl, rfl⟩ := hn
    exact ⟨⟨c, hc⟩, .inl hm, fun _ => hm⟩

/-- a thread asks about references of its own only -/
theorem safe_direct {k : Bool → Prog D T β} (h : Safe S room G (.unique a k) O L m Q) (hi : TInv S m (O ++ O') (L ++ (G ++ L'))) :
    ∃ O0 L0, TInv S m (O0 ++ O') (L0 ++ (G ++ L')) ∧ Moved S G no no O L m O0 L0 m ∧ ∃ r ∈ L0, r.ptr = a := by
  obtain ⟨O0, L0, hi0, hv, c, -, hm, -⟩ := h m O' L' .refl hi
  exact ⟨O0, L0, hi0, hv, hm⟩

end Thr
