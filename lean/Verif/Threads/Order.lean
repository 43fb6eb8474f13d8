import Verif.Threads.Machine
import Verif.Threads.Sound

/-!
# What happens before what
-/

namespace Thr
open Mm

variable {D T V : Type} {S : Sys D T V} {G : List (Ref V)} {O O' O0 O1 : List Nat} {L L' L0 L1 : List (Ref V)} {m m' : Mem D T} {o : Op} {a : Nat} {k : Clk}

/-- those that have something: open nodes, references, what they know -/
abbrev Agents (V : Type) := List Nat → List (Ref V) → List Nat → Prop

/-- an access that others must know of -/
def Cls.strong : Cls → Bool
  | .write => true
  | .whole => true
  | _ => false

/-- Somebody who has the node knows of an access to it, or will get to know of it together with the last reference to a node
above it.  Those who may read a node know of all that was written to it. -/
structure Known (S : Sys D T V) (G : List (Ref V)) (m : Mem D T) (O : List Nat) (k : Clk) (A : Agents V) : Prop where
  one : ∀ a, m a ≠ none → ∀ e ∈ k.acc a, (∃ O L K, A O L K ∧ Mine S G O L m a ∧ e.1 ∈ K) ∨ ∃ q, m q ≠ none ∧ q ∉ O ∧ From S m q a ∧ e.1 ∈ k.rel q
  all : ∀ a, m a ≠ none → ∀ e ∈ k.acc a, e.2.strong = true → ∀ O L K, A O L K → Mine S G O L m a → e.1 ∈ K

/-- the same accesses, in other hands -/
theorem Known.mono {A A' : Agents V} (h : Known S G m O k A) (hO : ∀ x ∈ O1, x ∈ O) (h1 : ∀ O L K, A O L K → ∀ x, Mine S G O L m x → ∃ O' L' K', A' O' L' K' ∧ Mine S G O' L' m x ∧ ∀ e ∈ K, e ∈ K')
    (h2 : ∀ O L K, A' O L K → ∀ x, Mine S G O L m x → ∃ O' L' K', A O' L' K' ∧ Mine S G O' L' m x ∧ ∀ e ∈ K', e ∈ K) : Known S G m O1 k A' where
  one := by
    intro x hx e he
    rcases h.one x hx e he with ⟨O, L, K, hA, hm, hk⟩ | ⟨q, h3, h4, h5⟩
    · obtain ⟨O', L', K', h3, h4, h5⟩ := h1 O L K hA x hm
      exact .inl ⟨O', L', K', h3, h4, h5 _ hk⟩
    · exact .inr ⟨q, h3, fun hq => h4 (hO q hq), h5⟩
  all := by
    intro x hx e he hs O L K hA hm
    obtain ⟨O', L', K', h3, h4, h5⟩ := h2 O L K hA x hm
    exact h5 _ (h.all x hx e he hs O' L' K' h3 h4)

/-- nodes that are not open lead to such nodes only -/
theorem closed_from (hg : S.gc = false) (h : Inv S m O L) {q x : Nat} (hq : m q ≠ none) (hO : q ∉ O) (hf : From S m q x) : m x ≠ none ∧ x ∉ O := by
  obtain ⟨A, J, g, hJ, h⟩ := h
  rw [hJ hg, List.append_nil] at h
  have key : x ∈ A := by
    induction hf with
    | here => exact (List.mem_append.mp ((h.alloc q).mp hq)).resolve_right hO
    | next _ hc ho ih => exact h.mem_of_out ih hc ho
  exact ⟨(h.alloc x).mpr (List.mem_append_left _ key), fun hx => h.notin hx key⟩

/-- steps leave nodes that are not open as they are, but for the count -/
theorem effect_same (he : o.effect m m' a) (hn : o.needs S G O L m a) {x : Nat} {c : Cell D T} (hx : x ∉ O) (hc : m x = some c) : ∃ c', m' x = some c' ∧ c'.data = c.data := by
  by_cases hxa : x = a
  · subst hxa
    cases o with
    | read => exact ⟨c, by rw [show m' = m from he]; exact hc, rfl⟩
    | unique => exact ⟨c, by rw [show m' = m from he]; exact hc, rfl⟩
    | write => exact (hx hn).elim
    | free => exact (hx hn).elim
    | alloc => rw [show m x = none from hn] at hc; cases hc
    | inc =>
      obtain ⟨c', n, h1, h2⟩ := he
      rw [hc] at h1; cases h1
      exact ⟨{ c with rc := n }, by rw [h2]; exact upd_self, rfl⟩
    | dec =>
      obtain ⟨c', n, h1, h2⟩ := he
      rw [hc] at h1; cases h1
      exact ⟨{ c with rc := n }, by rw [h2]; exact upd_self, rfl⟩
  · refine ⟨c, ?_, rfl⟩
    cases o with
    | read => rw [show m' = m from he]; exact hc
    | unique => rw [show m' = m from he]; exact hc
    | free => rw [show m' = upd m a none from he, upd_ne hxa]; exact hc
    | alloc => obtain ⟨_, h2⟩ := he; rw [h2, upd_ne hxa]; exact hc
    | write => obtain ⟨_, h2⟩ := he; rw [h2, upd_ne hxa]; exact hc
    | inc => obtain ⟨_, _, _, h2⟩ := he; rw [h2, upd_ne hxa]; exact hc
    | dec => obtain ⟨_, _, _, h2⟩ := he; rw [h2, upd_ne hxa]; exact hc

theorem effect_from (hg : S.gc = false) (hi : Inv S m (O ++ O') L') (he : o.effect m m' a) (hn : o.needs S G O L m a) {q x : Nat} (hq : m q ≠ none) (hO : q ∉ O ++ O') (hf : From S m q x) : From S m' q x := by
  induction hf with
  | here => exact .here
  | next hf hc ho ih =>
    have hcl := closed_from hg hi hq hO hf
    obtain ⟨c', hc', hd⟩ := effect_same he hn (fun h => hcl.2 (List.mem_append_left _ h)) hc
    exact .next ih hc' (by rw [hd]; exact ho)

/-- what was there is there -/
theorem effect_alloc (he : o.effect m m' a) {x : Nat} (hx : m' x ≠ none) (hn : o = .alloc → x ≠ a) (hi : o.needs S G O L m a) (hO : Inv S m (O ++ O') L') : m x ≠ none ∧ (o = .free → x ≠ a) := by
  cases o with
  | read => rw [show m' = m from he] at hx; exact ⟨hx, by simp⟩
  | unique => rw [show m' = m from he] at hx; exact ⟨hx, by simp⟩
  | free =>
    rw [show m' = upd m a none from he] at hx
    by_cases hxa : x = a
    · subst hxa; rw [upd_self] at hx; exact (hx rfl).elim
    · rw [upd_ne hxa] at hx
      exact ⟨hx, fun _ => hxa⟩
  | alloc =>
    obtain ⟨_, h2⟩ := he
    rw [h2, upd_ne (hn rfl)] at hx
    exact ⟨hx, by simp⟩
  | write =>
    obtain ⟨_, h2⟩ := he
    refine ⟨?_, by simp⟩
    by_cases hxa : x = a
    · subst hxa
      obtain ⟨c, hc⟩ := hO.open_alloc (List.mem_append_left _ hi)
      rw [hc]; simp
    · rw [h2, upd_ne hxa] at hx; exact hx
  | inc =>
    obtain ⟨_, _, h1, h2⟩ := he
    refine ⟨?_, by simp⟩
    by_cases hxa : x = a
    · subst hxa; rw [h1]; simp
    · rw [h2, upd_ne hxa] at hx; exact hx
  | dec =>
    obtain ⟨_, _, h1, h2⟩ := he
    refine ⟨?_, by simp⟩
    by_cases hxa : x = a
    · subst hxa; rw [h1]; simp
    · rw [h2, upd_ne hxa] at hx; exact hx

/-- the accesses after a step -/
theorem mem_after {n : Nat} {K : List Nat} {x : Nat} {e : Nat × Cls} (h : e ∈ (k.after o a n K).acc x) : (x = a ∧ o ≠ .free ∧ e = (n, o.cls)) ∨ (e ∈ k.acc x ∧ (x = a → o ≠ .alloc ∧ o ≠ .free)) := by
  by_cases hx : x = a
  · subst hx
    unfold Clk.after at h
    simp only [upd_self] at h
    cases o with
    | alloc => exact .inl ⟨rfl, by simp, List.mem_singleton.mp h⟩
    | free => cases h
    | read => rcases List.mem_cons.mp h with h | h; exacts [.inl ⟨rfl, by simp, h⟩, .inr ⟨h, by simp⟩]
    | write => rcases List.mem_cons.mp h with h | h; exacts [.inl ⟨rfl, by simp, h⟩, .inr ⟨h, by simp⟩]
    | inc => rcases List.mem_cons.mp h with h | h; exacts [.inl ⟨rfl, by simp, h⟩, .inr ⟨h, by simp⟩]
    | dec => rcases List.mem_cons.mp h with h | h; exacts [.inl ⟨rfl, by simp, h⟩, .inr ⟨h, by simp⟩]
    | unique => rcases List.mem_cons.mp h with h | h; exacts [.inl ⟨rfl, by simp, h⟩, .inr ⟨h, by simp⟩]
  · unfold Clk.after at h
    simp only [upd_ne hx] at h
    exact .inr ⟨h, fun h => (hx h).elim⟩

theorem rel_after {n : Nat} {K : List Nat} {q e : Nat} (h : e ∈ k.rel q) (hq : q = a → o ≠ .alloc ∧ o ≠ .free) : e ∈ (k.after o a n K).rel q := by
  unfold Clk.after
  by_cases hx : q = a
  · subst hx
    simp only [upd_self]
    obtain ⟨h1, h2⟩ := hq rfl
    cases o with
    | alloc => exact (h1 rfl).elim
    | free => exact (h2 rfl).elim
    | read => exact h
    | write => exact h
    | inc => exact h
    | dec => exact List.mem_cons_of_mem _ (List.mem_append_right _ h)
    | unique => exact h
  · simp only [upd_ne hx]
    exact h

/-- a step of a thread that has `O`, `L` and knows `K`, among others -/
theorem Known.step {A : Agents V} {n : Nat} {K : List Nat} (hg : S.gc = false) (hi : TInv S m (O ++ O') (L ++ (G ++ L'))) (hn : o.needs S G O L m a) (he : o.effect m m' a)
    (hi' : TInv S m' (O1 ++ O') (L1 ++ (G ++ L'))) (hk : Kept S O' (G ++ L') m m') (hm : Moved S G (o.gets a) (o.loses S m a) O L m O1 L1 m')
    (hA : ∀ O2 L2 K2, A O2 L2 K2 → (∀ x ∈ O2, x ∈ O') ∧ ∀ r ∈ L2, r ∈ L')
    (h : Known S G m (O ++ O') k fun O2 L2 K2 => (O2 = O ∧ L2 = L ∧ K2 = K) ∨ A O2 L2 K2) :
    Known S G m' (O1 ++ O') (k.after o a n K) fun O2 L2 K2 => (O2 = O1 ∧ L2 = L1 ∧ K2 = o.know a n K k) ∨ A O2 L2 K2 := by
  have hO' : ∀ x ∈ O ++ O', x ∈ O ∨ x ∈ O' := fun x hx => List.mem_append.mp hx
  -- the others
  have hsub : ∀ {O2 L2 K2}, A O2 L2 K2 → ∀ r ∈ L2 ++ G, r ∈ G ++ L' := fun h2 r hr => (List.mem_append.mp hr).elim (fun h => List.mem_append_right _ ((hA _ _ _ h2).2 r h)) (List.mem_append_left _)
  have hfwd : ∀ {O2 L2 K2 x}, A O2 L2 K2 → Mine S G O2 L2 m x → Mine S G O2 L2 m' x := by
    intro O2 L2 K2 x h2 hx
    exact hx.imp_right fun hx => (hk.mono (hsub h2) fun _ h => h).reach hx
  have hback : ∀ {O2 L2 K2 x}, A O2 L2 K2 → Mine S G O2 L2 m' x → Mine S G O2 L2 m x := by
    intro O2 L2 K2 x h2 hx
    rcases hx with hx | ⟨r, hr, hf⟩
    · exact .inl hx
    refine .inr ⟨r, hr, ?_⟩
    have hkr : Kept S O' (L2 ++ G) m m' := hk.mono (hsub h2) fun _ h => h
    induction hf with
    | here => exact .here
    | next _ hc ho ih =>
      obtain ⟨c1, hc1⟩ := hi.1.reach_cell ⟨r, List.mem_append_right _ (hsub h2 r hr), ih⟩
      obtain ⟨c2, hc2, hs⟩ := hkr.1 _ ⟨r, hr, ih⟩ c1 hc1
      rw [hc] at hc2; cases hc2
      rw [hs.1] at ho
      exact .next ih hc1 ho
  have hown : ∀ {O2 L2 K2 x}, A O2 L2 K2 → Mine S G O2 L2 m x → x ∉ O := by
    intro O2 L2 K2 x h2 hx hxO
    rcases hx with hx | hx
    · exact hi.1.notin_open hxO ((hA _ _ _ h2).1 x hx)
    · exact hi.1.reach_notin (hx.mono fun r hr => List.mem_append_right _ (hsub h2 r hr)) (List.mem_append_left _ hxO)
  have hreal : ∀ {O2 L2 K2 x}, A O2 L2 K2 → Mine S G O2 L2 m x → m x ≠ none := by
    intro O2 L2 K2 x h2 hx
    rcases hx with hx | hx
    · obtain ⟨c, hc⟩ := hi.1.open_alloc (List.mem_append_right _ ((hA _ _ _ h2).1 x hx))
      rw [hc]; simp
    · obtain ⟨c, hc⟩ := hi.1.reach_cell (hx.mono fun r hr => List.mem_append_right _ (hsub h2 r hr))
      rw [hc]; simp
  -- what the thread itself knows
  have hK : ∀ e ∈ K, e ∈ o.know a n K k := fun e he => List.mem_cons_of_mem _ (List.mem_append_left _ he)
  -- the node of this step
  have hmine : o ≠ .alloc → Mine S G O L m a := by
    intro ho
    cases o with
    | read => exact hn
    | write => exact .inl hn
    | inc => exact hn
    | dec => exact .inr hn
    | unique => exact .inr (reach_ptr hn)
    | alloc => exact (ho rfl).elim
    | free => exact .inl hn
  refine ⟨?_, ?_⟩
  · intro x hx e hex
    rcases mem_after hex with ⟨rfl, hof, rfl⟩ | ⟨hex, hxa⟩
    · -- the access itself
      by_cases hal : o = .alloc
      · exact .inl ⟨O1, L1, _, .inl ⟨rfl, rfl, rfl⟩, hm.2.2.2 x ⟨.inr (.inr hal), rfl⟩, List.mem_cons_self⟩
      · rcases hm.2.1 x (hmine hal) with h1 | ⟨rfl, h1⟩ | ⟨h1, -⟩
        · exact .inl ⟨O1, L1, _, .inl ⟨rfl, rfl, rfl⟩, h1, List.mem_cons_self⟩
        · right
          refine ⟨x, hx, ?_, .here, ?_⟩
          · have hr : x ∉ O ++ O' := hi.1.reach_notin (Reach.mono (L := L ++ G) (fun r hr => by rw [← List.append_assoc]; exact List.mem_append_left _ hr) hn)
            intro hx1
            rcases List.mem_append.mp hx1 with hx1 | hx1
            · rcases hm.1 x hx1 with h2 | ⟨h2, -⟩
              · exact hr (List.mem_append_left _ h2)
              · simp at h2
            · exact hr (List.mem_append_right _ hx1)
          · unfold Clk.after
            simp only [upd_self]
            exact List.mem_cons_self
        · exact (hof h1).elim
    · -- an earlier access
      obtain ⟨hx0, hxf⟩ := effect_alloc he hx (fun h1 h2 => (hxa h2).1 h1) hn hi.1
      rcases h.one x hx0 e hex with ⟨O2, L2, K2, ⟨rfl, rfl, rfl⟩ | hA2, h1, h2⟩ | ⟨q, hq1, hq2, hq3, hq4⟩
      · rcases hm.2.1 x h1 with h3 | ⟨rfl, h3⟩ | ⟨h3, h4⟩
        · exact .inl ⟨O1, L1, _, .inl ⟨rfl, rfl, rfl⟩, h3, hK _ h2⟩
        · right
          have hr : a ∉ O2 ++ O' := hi.1.reach_notin (Reach.mono (L := L2 ++ G) (fun r hr => by rw [← List.append_assoc]; exact List.mem_append_left _ hr) hn)
          have ha0 : m a ≠ none := by
            obtain ⟨c, _, hc, _⟩ := he
            rw [hc]; simp
          refine ⟨a, ?_, ?_, effect_from hg hi.1 he hn ha0 hr h3, ?_⟩
          · obtain ⟨c, _, _, hc⟩ := he
            rw [hc, upd_self]; simp
          · intro hx1
            rcases List.mem_append.mp hx1 with hx1 | hx1
            · rcases hm.1 a hx1 with h2 | ⟨h2, -⟩
              · exact hr (List.mem_append_left _ h2)
              · simp at h2
            · exact hr (List.mem_append_right _ hx1)
          · unfold Clk.after
            simp only [upd_self]
            exact List.mem_cons_of_mem _ (List.mem_append_left _ h2)
        · exact (hxf h3 h4).elim
      · exact .inl ⟨O2, L2, K2, .inr hA2, hfwd hA2 h1, h2⟩
      · by_cases hqa : q ∈ O1
        · -- the last reference: what was released is acquired
          rcases hm.1 q hqa with h1 | ⟨h1, rfl⟩
          · exact (hq2 (List.mem_append_left _ h1)).elim
          · have hac : o.acquires = true := by
              rcases h1 with rfl | rfl | rfl
              · rfl
              · rfl
              · exact (hq1 hn).elim
            have hmx : Mine S G O L m x := by
              rcases h1 with rfl | rfl | rfl
              · exact .inr (Reach.from hn hq3)
              · exact .inr (Reach.from (reach_ptr hn) hq3)
              · exact (hq1 hn).elim
            rcases hm.2.1 x hmx with h3 | ⟨h3, -⟩ | ⟨h3, -⟩
            · refine .inl ⟨O1, L1, _, .inl ⟨rfl, rfl, rfl⟩, h3, ?_⟩
              unfold Op.know
              rw [if_pos hac]
              exact List.mem_cons_of_mem _ (List.mem_append_right _ hq4)
            · subst h3; simp at h1
            · subst h3; simp at h1
        · right
          have hne : q = a → o ≠ .alloc ∧ o ≠ .free := by
            rintro rfl
            refine ⟨?_, ?_⟩
            · rintro rfl; exact hq1 hn
            · rintro rfl; exact hq2 (List.mem_append_left _ hn)
          refine ⟨q, ?_, ?_, effect_from hg hi.1 he hn hq1 hq2 hq3, rel_after hq4 hne⟩
          · cases hc : m q with
            | none => exact (hq1 hc).elim
            | some c =>
              obtain ⟨c', hc', -⟩ := effect_same he hn (fun h => hq2 (List.mem_append_left _ h)) hc
              rw [hc']; simp
          · intro hx1
            rcases List.mem_append.mp hx1 with hx1 | hx1
            · exact hqa hx1
            · exact hq2 (List.mem_append_right _ hx1)
  · intro x hx e hex hs O2 L2 K2 hA2 hmx
    rcases mem_after hex with ⟨rfl, hof, rfl⟩ | ⟨hex0, hxa⟩
    · -- the access itself is known to this thread, and others cannot read the node
      rcases hA2 with ⟨rfl, rfl, rfl⟩ | hA2
      · exact List.mem_cons_self
      · have h1 := hback hA2 hmx
        cases o with
        | write => exact (hown hA2 h1 hn).elim
        | alloc => exact (hreal hA2 h1 hn).elim
        | free => exact (hof rfl).elim
        | read => cases hs
        | inc => cases hs
        | dec => cases hs
        | unique => cases hs
    · obtain ⟨hx0, -⟩ := effect_alloc he hx (fun h1 h2 => (hxa h2).1 h1) hn hi.1
      rcases hA2 with ⟨rfl, rfl, rfl⟩ | hA2
      · rcases hm.2.2.1 x hmx with h1 | ⟨h1, rfl⟩
        · exact hK _ (h.all x hx0 e hex0 hs O L K (.inl ⟨rfl, rfl, rfl⟩) h1)
        · by_cases hal : o = .alloc
          · exact ((hxa rfl).1 hal).elim
          · exact hK _ (h.all x hx0 e hex0 hs O L K (.inl ⟨rfl, rfl, rfl⟩) (hmine hal))
      · exact h.all x hx0 e hex0 hs O2 L2 K2 (.inr hA2) (hback hA2 hmx)

/-- accesses that conflict are known -/
theorem Known.safe {A : Agents V} {K : List Nat} (hg : S.gc = false) (hi : TInv S m (O ++ O') (L ++ (G ++ L'))) (hA : ∀ O2 L2 K2, A O2 L2 K2 → (∀ x ∈ O2, x ∈ O') ∧ ∀ r ∈ L2, r ∈ L')
    (h : Known S G m (O ++ O') k fun O2 L2 K2 => (O2 = O ∧ L2 = L ∧ K2 = K) ∨ A O2 L2 K2) {x : Nat} {kd : Cls} (hx : m x ≠ none) (hm : Mine S G O L m x) (hw : kd = .write ∨ kd = .whole → x ∈ O)
    {e : Nat × Cls} (he : e ∈ k.acc x) (hc : kd.conflict e.2 = true) : e.1 ∈ K := by
  by_cases hs : e.2.strong = true
  · exact h.all x hx e he hs O L K (.inl ⟨rfl, rfl, rfl⟩) hm
  · have hO : x ∈ O := by
      apply hw
      cases kd <;> cases h2 : e.2 <;> simp_all [Cls.conflict, Cls.strong]
    rcases h.one x hx e he with ⟨O2, L2, K2, ⟨rfl, rfl, rfl⟩ | hA2, h1, h2⟩ | ⟨q, hq1, hq2, hq3, hq4⟩
    · exact h2
    · exfalso
      rcases h1 with h1 | h1
      · exact hi.1.notin_open hO ((hA _ _ _ hA2).1 x h1)
      · refine hi.1.reach_notin (h1.mono fun r hr => List.mem_append_right _ ?_) (List.mem_append_left _ hO)
        exact (List.mem_append.mp hr).elim (fun h => List.mem_append_right _ ((hA _ _ _ hA2).2 r h)) (List.mem_append_left _)
    · exact ((closed_from hg hi.1 hq1 hq2 hq3).2 (List.mem_append_left _ hO)).elim

end Thr
