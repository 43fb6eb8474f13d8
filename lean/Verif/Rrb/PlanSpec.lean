import Verif.Rrb.Concat
import Verif.Rrb.SliceSpec

/-!
# The rebalancing plan: `concat_rebalance_plan::shuffle` (operations.hpp 1756-1792)
-/

namespace Rrb

namespace Plan

/-- slot counts of nodes with `br` slots -/
def CountsOK (br : Nat) (xs : List Nat) : Prop := ∀ x ∈ xs, 1 ≤ x ∧ x ≤ br

theorem CountsOK.sum_le {br : Nat} {xs : List Nat} (h : CountsOK br xs) : xs.sum ≤ xs.length * br := by
  induction xs with
  | nil => simp
  | cons x xs ih =>
    have h1 := (h x (by simp)).2
    have h2 := ih (fun y hy => h y (by simp [hy]))
    simp only [List.sum_cons, List.length_cons, Nat.add_mul]; omega

theorem CountsOK.len_le {br : Nat} {xs : List Nat} (h : CountsOK br xs) : xs.length ≤ xs.sum := by
  induction xs with
  | nil => simp
  | cons x xs ih =>
    have h1 := (h x (by simp)).1
    have h2 := ih (fun y hy => h y (by simp [hy]))
    simp only [List.sum_cons, List.length_cons]; omega

theorem skip_spec (br : Nat) (hbr : 1 ≤ br) : ∀ (xs : List Nat) (i : Nat), CountsOK br xs → xs.sum < xs.length * br →
    ∃ pre x post, skip br xs i = some (i + pre.length) ∧ xs = pre ++ x :: post ∧ (∀ y ∈ pre, y = br) ∧ x < br := by
  intro xs
  induction xs with
  | nil => intro i _ h; simp at h
  | cons x xs ih =>
    intro i h hs
    by_cases hx : br - 1 < x
    · have hxb : x = br := by have := (h x (by simp)).2; omega
      have hs' : xs.sum < xs.length * br := by
        simp only [List.sum_cons, List.length_cons, Nat.add_mul] at hs; omega
      obtain ⟨pre, y, post, h1, h2, h3, h4⟩ := ih (i + 1) (fun z hz => h z (by simp [hz])) hs'
      refine ⟨x :: pre, y, post, ?_, by simp [h2], ?_, h4⟩
      · simp only [skip, if_pos hx, h1, List.length_cons]; congr 1; omega
      · intro z hz; simp at hz; rcases hz with rfl | hz
        · exact hxb
        · exact h3 z hz
    · exact ⟨[], x, xs, by simp [skip, hx], rfl, by simp, by omega⟩

theorem redist_spec (br : Nat) : ∀ (xs : List Nat) (rem : Nat), CountsOK br xs → rem + xs.sum ≤ xs.length * br →
    1 ≤ xs.length →
    ∃ w r, redist br rem xs = some (w, r) ∧ w ≠ [] ∧ w.length + r.length = xs.length ∧ w.sum + r.sum = rem + xs.sum ∧
      CountsOK br w ∧ CountsOK br r ∧ ∀ y ∈ w.dropLast, y = br := by
  intro xs
  induction xs with
  | nil => intro rem _ _ h; simp at h
  | cons x xs ih =>
    intro rem h hs _
    have hx := h x (by simp)
    have h' : CountsOK br xs := fun z hz => h z (by simp [hz])
    simp only [List.sum_cons, List.length_cons, Nat.add_mul] at hs
    simp only [redist]
    by_cases hr : 0 < rem + x - min (rem + x) br
    · have hmin : min (rem + x) br = br := by omega
      rw [hmin] at hr ⊢
      simp only [if_pos hr]
      have hne : 1 ≤ xs.length := by
        rcases Nat.eq_zero_or_pos xs.length with h0 | h0
        · have : xs = [] := List.length_eq_zero_iff.1 h0
          subst this; simp at hs; omega
        · exact h0
      obtain ⟨w, r, h1, h2, h3, h4, h5, h6, h7⟩ := ih (rem + x - br) h' (by omega) hne
      refine ⟨br :: w, r, by simp [h1], by simp, by simp; omega, by simp; omega, ?_, h6, ?_⟩
      · intro y hy; simp at hy; rcases hy with rfl | hy
        · omega
        · exact h5 y hy
      · intro y hy
        rw [List.dropLast_cons_of_ne_nil h2] at hy
        simp at hy; rcases hy with rfl | hy
        · rfl
        · exact h7 y hy
    · simp only [if_neg hr]
      refine ⟨_, _, rfl, by simp, by simp; omega, by simp; omega, ?_, h', by simp⟩
      intro y hy; simp at hy; subst hy; omega

/-- the loop of `shuffle`: enough fuel, no read past the counts, the total is kept, every count stays within capacity -/
theorem loop_spec (br opt : Nat) (hbr : 1 ≤ br) : ∀ (fuel : Nat) (counts : List Nat) (i : Nat),
    counts.length < fuel → CountsOK br counts → counts.sum ≤ opt * br → i ≤ counts.length →
    (∀ y ∈ counts.take i, y = br) →
    ∃ res, loop br opt fuel counts i = some res ∧ CountsOK br res ∧ res.sum = counts.sum ∧ res.length < opt + 2 ∧
      res.length ≤ counts.length ∧ (counts.length ≤ res.length ∨ opt + 1 ≤ res.length) := by
  intro fuel
  induction fuel with
  | zero => intro counts i h; omega
  | succ fuel ih =>
    intro counts i hf hc hs hi hfull
    by_cases hn : opt + 2 ≤ counts.length
    · simp only [loop, if_pos hn]
      have hsplit : counts = counts.take i ++ counts.drop i := (List.take_append_drop i counts).symm
      have hsum1 : counts.sum = (counts.take i).sum + (counts.drop i).sum := by
        rw [← List.sum_append, ← hsplit]
      have hsumI : (counts.take i).sum = i * br := by
        have : counts.take i = List.replicate i br :=
          List.eq_replicate_iff.2 ⟨by simp [hi], hfull⟩
        rw [this]; simp
      have hbig : (opt + 2) * br ≤ counts.length * br := Nat.mul_le_mul_right _ hn
      have e1 : (opt + 2) * br = opt * br + 2 * br := by ring
      have e2 : counts.length * br = i * br + (counts.length - i) * br := by
        rw [← Nat.add_mul]; congr 1; omega
      obtain ⟨pre, x, post, h1, h2, h3, h4⟩ := skip_spec br hbr (counts.drop i) i
        (fun y hy => hc y (List.mem_of_mem_drop hy)) (by rw [List.length_drop]; omega)
      generalize hA : counts.take i ++ pre = A
      have hcounts : counts = A ++ x :: post := by rw [hsplit, h2, ← hA]; simp
      have hAl : A.length = i + pre.length := by rw [← hA]; simp [hi]
      have hAf : ∀ y ∈ A, y = br := by
        intro y hy; rw [← hA] at hy; simp only [List.mem_append] at hy
        rcases hy with hy | hy
        · exact hfull y hy
        · exact h3 y hy
      have hAs : A.sum = A.length * br := by
        have : A = List.replicate A.length br := List.eq_replicate_iff.2 ⟨rfl, hAf⟩
        rw [this]; simp
      rw [← hAl] at h1
      have hcp : CountsOK br post := fun y hy => hc y (by rw [hcounts]; simp [hy])
      have hlen : counts.length = A.length + 1 + post.length := by rw [hcounts]; simp; omega
      have hsum : counts.sum = A.length * br + (x + post.sum) := by rw [hcounts]; simp [hAs]
      have e3 : counts.length * br = A.length * br + br + post.length * br := by
        rw [hlen]; ring
      have hpl : 1 ≤ post.length := by
        by_contra h0
        have h0 : post.length = 0 := by omega
        rw [h0] at e3
        have := hcp.len_le
        have hx := hc x (by rw [hcounts]; simp)
        have : post = [] := List.length_eq_zero_iff.1 h0
        subst this
        simp at hsum e3
        omega
      obtain ⟨w, r, g1, g2, g3, g4, g5, g6, g7⟩ := redist_spec br post x hcp (by omega) hpl
      have d1 : counts[A.length]? = some x := by rw [hcounts]; simp
      have d2 : counts.drop (A.length + 1) = post := by rw [hcounts, List.drop_append]; simp
      have d3 : counts.take A.length = A := by rw [hcounts]; simp
      simp only [h1, d1, d2, d3, g1, Option.bind_eq_bind, Option.bind_some]
      have hw : 1 ≤ w.length := List.length_pos_iff.2 g2
      obtain ⟨res, r1, r2, r3, r4, r5, r6⟩ := ih (A ++ w ++ r) (A.length + w.length - 1) (by simp; omega)
        (by
          intro y hy; simp only [List.mem_append] at hy
          rcases hy with (hy | hy) | hy
          · have := hAf y hy; omega
          · exact g5 y hy
          · exact g6 y hy)
        (by simp only [List.sum_append]; omega) (by simp; omega)
        (by
          intro y hy
          rw [List.append_assoc, List.take_append, List.take_of_length_le (by omega),
            List.take_append_of_le_length (by omega)] at hy
          simp only [List.mem_append] at hy
          rcases hy with hy | hy
          · exact hAf y hy
          · apply g7; rw [List.dropLast_eq_take]
            have : A.length + w.length - 1 - A.length = w.length - 1 := by omega
            rwa [this] at hy)
      simp only [List.length_append, List.sum_append] at r3 r5 r6
      exact ⟨res, r1, r2, by omega, r4, by omega, by omega⟩
    · refine ⟨counts, by simp [loop, hn], hc, rfl, by omega, le_refl _, Or.inl (le_refl _)⟩

/-- slots per node on the level of shift `BL + B * L` -/
def slotBits (c : Cfg) (L : Nat) : Nat := if L = 0 then c.BL else c.B

theorem ceil_shift (total bits : Nat) : total ≤ (((total - 1) >>> bits) + 1) * 2 ^ bits := by
  rw [Nat.shiftRight_eq_div_pow]
  have h := Nat.div_add_mod (total - 1) (2 ^ bits)
  have h2 := Nat.mod_lt (total - 1) (Nat.two_pow_pos bits)
  rw [Nat.add_mul, Nat.mul_comm]
  generalize 2 ^ bits * ((total - 1) / 2 ^ bits) = a at *
  omega

theorem shuffle_spec {c : Cfg} (hB : 0 < c.B) {L : Nat} {counts : List Nat} (h : CountsOK (2 ^ slotBits c L) counts) :
    ∃ res, shuffle c (c.BL + c.B * L) counts = some res ∧ CountsOK (2 ^ slotBits c L) res ∧ res.sum = counts.sum ∧
      res.length < ((counts.sum - 1) >>> slotBits c L) + 1 + 2 ∧ res.length ≤ counts.length ∧
      (2 ≤ counts.length → 2 ≤ res.length) := by
  have hbits : (if c.BL + c.B * L = c.BL then c.BL else c.B) = slotBits c L := by
    unfold slotBits
    by_cases hL : L = 0
    · simp [hL]
    · have : 0 < c.B * L := Nat.mul_pos hB (by omega)
      rw [if_neg (by omega), if_neg hL]
  simp only [shuffle, hbits]
  obtain ⟨res, h1, h2, h3, h4, h5, h6⟩ := loop_spec (2 ^ slotBits c L) _ (Nat.two_pow_pos _) (counts.length + 1) counts 0
    (by omega) h (ceil_shift _ _) (by omega) (by simp)
  refine ⟨res, h1, h2, h3, h4, h5, ?_⟩
  generalize (counts.sum - 1) >>> slotBits c L = o at *
  omega

end Plan
end Rrb
