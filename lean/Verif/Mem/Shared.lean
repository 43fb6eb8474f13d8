import Verif.Mem.Reach

/-!
# Nodes that are shared, and nodes that are taken apart and put together again
-/

namespace Mm

variable {D T V : Type} {S : Sys D T V} {m m' : Mem D T} {O : List Nat} {L Lo : List (Ref V)} {p q : Nat} {v : V} {r : Ref V} {c : Cell D T}

theorem Inv.tk (h : Inv S m O L) (hr : r ∈ L) (hc : m r.ptr = some c) : S.Tk c.tok c.data c.els := by
  obtain ⟨A, J, g, hJ, h⟩ := h
  exact h.tk _ (h.mem_of_ref hr) c hc

/-- the first step -/
theorem From.head (h : From S m p q) : q = p ∨ ∃ c o, m p = some c ∧ o ∈ S.outs c.data ∧ From S m o q := by
  induction h with
  | here => exact .inl rfl
  | next h1 hc ho ih =>
    rcases ih with rfl | ⟨c', o', h2, h3, h4⟩
    · exact .inr ⟨_, _, hc, ho, .here⟩
    · exact .inr ⟨c', o', h2, h3, .next h4 hc ho⟩

/-- the last step -/
theorem From.last (h : From S m p q) (hne : q ≠ p) : ∃ a c, From S m p a ∧ m a = some c ∧ q ∈ S.outs c.data := by
  cases h with
  | here => exact absurd rfl hne
  | next h1 hc ho => exact ⟨_, _, h1, hc, ho⟩

theorem Inv.den_reach (h : Inv S m O L) (hq : Reach S m L q) : ∃ v, Den S m q v := by
  obtain ⟨A, J, g, hJ, h⟩ := h
  exact ⟨_, h.den hq⟩

theorem Inv.reach_notin (h : Inv S m O L) (hq : Reach S m L q) : q ∉ O := by
  obtain ⟨A, J, g, hJ, h⟩ := h
  exact fun ho => h.notin (List.mem_append_left _ ho) (h.reach hq)

theorem Inv.reach_cell (h : Inv S m O L) (hq : Reach S m L q) : ∃ c, m q = some c := by
  obtain ⟨A, J, g, hJ, h⟩ := h
  exact h.live (h.reach hq)

/-- reachable nodes other than an open one stay as they are when it is -/
theorem Kept.close (h : Kept S (p :: O) (Lo ++ L) m m') (hc : m p = some c) (ho : S.outs c.data = Lo.map Ref.ptr) (hr : r.ptr = p) : Kept S O (r :: L) m m' := by
  refine ⟨?_, fun a ha => h.2 a (List.mem_cons_of_mem _ ha)⟩
  rintro q ⟨x, hx, hq⟩ cq hcq
  rcases List.mem_cons.mp hx with rfl | hx
  · rw [hr] at hq
    rcases hq.head with rfl | ⟨c', o, hc', ho', hf⟩
    · exact ⟨cq, (h.2 q List.mem_cons_self).trans hcq, .rfl'⟩
    · rw [hc] at hc'; cases hc'
      rw [ho] at ho'
      obtain ⟨y, hy, rfl⟩ := List.mem_map.mp ho'
      exact h.1 q ⟨y, List.mem_append_left _ hy, hf⟩ cq hcq
  · exact h.1 q ⟨x, List.mem_append_right _ hx, hq⟩ cq hcq

/-- a node with more than one reference is reached by another one -/
theorem Inv.shared (R : Ranked S) (hg : S.gc = false) (h : Inv S m O (r :: L)) (hc : m r.ptr = some c) (h2 : 2 ≤ c.rc) : Reach S m L r.ptr := by
  obtain ⟨A, J, g, hJ, h⟩ := h
  have hrA := h.mem_of_ref (List.mem_cons_self (a := r) (l := L))
  -- every node above is reached, by induction from the top
  obtain ⟨B, hB⟩ : ∃ B, ∀ a ∈ A, R.rank (g a) ≤ B := by
    clear h hrA
    induction A with
    | nil => exact ⟨0, by simp⟩
    | cons a A ih =>
      obtain ⟨B, hB⟩ := ih
      refine ⟨max B (R.rank (g a)), ?_⟩
      intro b hb
      rcases List.mem_cons.mp hb with rfl | hb
      · exact Nat.le_max_right _ _
      · exact Nat.le_trans (hB b hb) (Nat.le_max_left _ _)
  have hup : ∀ a ∈ A, ∀ c, m a = some c → ∀ o ∈ S.outs c.data, R.rank (g o) < R.rank (g a) := fun a ha c hc o ho =>
    R.lt (h.ok a ha c hc) (g o) (List.mem_map_of_mem ho)
  have hsrc : ∀ a, 0 < total S m A L a → Reach S m L a ∨ ∃ b ∈ A, ∃ c, m b = some c ∧ a ∈ S.outs c.data := by
    intro a ha
    unfold total at ha
    have := List.count_pos_iff.mp ha
    unfold allRefs at this
    rcases List.mem_append.mp this with h1 | h1
    · obtain ⟨x, hx, rfl⟩ := List.mem_map.mp h1
      exact .inl ⟨x, hx, .here⟩
    · obtain ⟨b, hb, ho⟩ := List.mem_flatMap.mp h1
      obtain ⟨c, hc⟩ := h.live hb
      unfold outsAt at ho
      rw [hc] at ho
      exact .inr ⟨b, hb, c, hc, ho⟩
  have key : ∀ n, ∀ a ∈ A, R.rank (g r.ptr) < R.rank (g a) → B - R.rank (g a) < n → Reach S m L a := by
    intro n
    induction n with
    | zero => intro a _ _ h; omega
    | succ n ih =>
      intro a ha hlt hn
      have hne : r.ptr ≠ a := fun he => by rw [he] at hlt; omega
      obtain ⟨ca, hca⟩ := h.live ha
      have hpos := h.rc hg a ha ca hca
      rw [total_cons, if_neg hne] at hpos
      rcases hsrc a (by omega) with h1 | ⟨b, hb, cb, hcb, ho⟩
      · exact h1
      · have h3 := hup b hb cb hcb a ho
        have h4 := hB b hb
        exact (ih b hb (by omega) (by omega)).from (.next .here hcb ho)
  have hpos := h.rc hg _ hrA c hc
  rw [total_cons, if_pos rfl] at hpos
  rcases hsrc r.ptr (by omega) with h1 | ⟨b, hb, cb, hcb, ho⟩
  · exact h1
  · exact (key _ b hb (hup b hb cb hcb _ ho) (Nat.lt_succ_self _)).from (.next .here hcb ho)

/-- a node that is reached by another reference has more than one -/
theorem Inv.two (hg : S.gc = false) (h : Inv S m O (r :: L)) (hc : m r.ptr = some c) (hr : Reach S m L r.ptr) : 2 ≤ c.rc := by
  obtain ⟨A, J, g, hJ, h⟩ := h
  have hrA := h.mem_of_ref (List.mem_cons_self (a := r) (l := L))
  have hrc := h.rc hg _ hrA c hc
  obtain ⟨x, hx, hf⟩ := hr
  by_cases he : r.ptr = x.ptr
  · rw [total_cons, if_pos rfl] at hrc
    have : 0 < total S m A L r.ptr := by
      unfold total
      apply List.count_pos_iff.mpr
      unfold allRefs
      rw [he]
      exact List.mem_append_left _ (List.mem_map_of_mem hx)
    omega
  · obtain ⟨a, ca, h1, h2, h3⟩ := hf.last he
    have ha := h.reach ⟨x, List.mem_cons_of_mem _ hx, h1⟩
    have := ref_out (S := S) (L := r :: L) (A := A) List.mem_cons_self ha h2 h3
    omega

end Mm
