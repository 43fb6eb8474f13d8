import Verif.Mem.Lists

/-!
# References that are the only one
-/

namespace Mm

variable {D T V : Type} {S : Sys D T V} {m m' : Mem D T} {A O : List Nat} {g : Nat → V} {L : List (Ref V)} {p q t : Nat} {v : V} {b : Bool}

open Classical in
/-- only the nodes that can be reached matter; under the collector the others are left behind -/
theorem Inv.reached (R : Ranked S) (h : Inv S m O L) : ∃ A J g, (S.gc = false → J = []) ∧ Good S m A (O ++ J) g L ∧ ∀ a ∈ A, Reach S m L a := by
  obtain ⟨A, J, g, hJ, h⟩ := h
  by_cases hg : S.gc = false
  · exact ⟨A, J, g, hJ, h, good_reached R hg h⟩
  · let f : Nat → Bool := fun a => decide (Reach S m L a)
    have hperm : (A.filter f ++ A.filter fun a => !f a).Perm A := List.filter_append_perm f A
    have hle : ∀ p, total S m (A.filter f) L p ≤ total S m A L p := by
      intro p
      unfold total allRefs
      rw [List.count_append, List.count_append]
      have : (List.flatMap (outsAt S m) A).count p = (List.flatMap (outsAt S m) (A.filter f ++ A.filter fun a => !f a)).count p :=
        List.Perm.count_eq (hperm.symm.flatMap_right _) p
      rw [this, List.flatMap_append, List.count_append]
      omega
    have hsub : ∀ {a}, a ∈ A.filter f → a ∈ A := fun h => (List.mem_filter.mp h).1
    have hfull : (A.filter f ++ (O ++ (J ++ A.filter fun a => !f a))).Perm (A ++ (O ++ J)) := by
      refine List.Perm.trans ?_ (hperm.append_right _)
      rw [List.append_assoc]
      refine List.Perm.append_left _ ?_
      rw [← List.append_assoc]
      exact List.perm_append_comm
    refine ⟨A.filter f, J ++ A.filter fun a => !f a, g, fun h => absurd h hg, ?_, fun a ha => of_decide_eq_true (List.mem_filter.mp ha).2⟩
    exact {
      nodup := hfull.nodup_iff.mpr h.nodup
      alloc := fun p => (h.alloc p).trans hfull.mem_iff.symm
      ok := fun a ha => h.ok a (hsub ha)
      refs := by
        intro p hp
        by_contra hne
        have hpos : p ∈ allRefs S m (A.filter f) L := List.count_pos_iff.mp (Nat.pos_of_ne_zero hne)
        refine hp (List.mem_filter.mpr ⟨h.mem_of_pos (Nat.lt_of_lt_of_le (Nat.pos_of_ne_zero hne) (hle p)), decide_eq_true ?_⟩)
        rcases List.mem_append.mp hpos with h1 | h1
        · obtain ⟨r, hr, rfl⟩ := List.mem_map.mp h1
          exact ⟨r, hr, .here⟩
        · obtain ⟨a, ha, ho⟩ := List.mem_flatMap.mp h1
          obtain ⟨c, hc⟩ := h.live (hsub ha)
          unfold outsAt at ho
          rw [hc] at ho
          exact Reach.from (of_decide_eq_true (List.mem_filter.mp ha).2) (.next .here hc ho)
      rc := fun h => absurd h hg
      own := fun a ha c hc hl => Nat.le_trans (hle a) (h.own a (hsub ha) c hc hl)
      outTok := fun a ha => h.outTok a (hsub ha)
      val := h.val
      refTok := h.refTok
      uniq := fun r hr hu => Nat.le_trans (hle _) (h.uniq r hr hu)
      tk := fun a ha => h.tk a (hsub ha) }

theorem Good.rank_from (R : Ranked S) (h : Good S m A O g L) (hp : p ∈ A) (hq : From S m p q) : q ∈ A ∧ R.rank (g q) ≤ R.rank (g p) := by
  induction hq with
  | here => exact ⟨hp, Nat.le_refl _⟩
  | next _ hc ho ih =>
    refine ⟨h.mem_of_out ih.1 hc ho, ?_⟩
    have := R.lt (h.ok _ ih.1 _ hc) (g _) (List.mem_map_of_mem ho)
    omega

/-- a reference to a node that cannot be reached otherwise is the only one -/
theorem Inv.claim (R : Ranked S) (h : Inv S m O (⟨p, v, t, b⟩ :: L)) (hp : ¬ Reach S m L p) : Inv S m O (⟨p, v, t, true⟩ :: L) := by
  obtain ⟨A, J, g, hJ, h, hr⟩ := h.reached R
  refine ⟨A, J, g, hJ, ?_⟩
  have htot : ∀ q, total S m A (⟨p, v, t, true⟩ :: L) q = total S m A (⟨p, v, t, b⟩ :: L) q := fun q => by rw [total_cons, total_cons]
  have hone : total S m A (⟨p, v, t, true⟩ :: L) p ≤ 1 := by
    rw [total_cons, if_pos rfl]
    have : total S m A L p = 0 := by
      by_contra hne
      have hpos : p ∈ allRefs S m A L := List.count_pos_iff.mp (Nat.pos_of_ne_zero hne)
      rcases List.mem_append.mp hpos with h1 | h1
      · obtain ⟨r, hr, he⟩ := List.mem_map.mp h1
        exact hp ⟨r, hr, by rw [he]; exact .here⟩
      · obtain ⟨a, ha, ho⟩ := List.mem_flatMap.mp h1
        obtain ⟨c, hc⟩ := h.live ha
        unfold outsAt at ho
        rw [hc] at ho
        obtain ⟨r, hr', hf⟩ := hr a ha
        rcases List.mem_cons.mp hr' with rfl | hr'
        · have h1 := (h.rank_from R (h.mem_of_ref List.mem_cons_self) hf).2
          have h2 := R.lt (h.ok a ha c hc) (g p) (List.mem_map_of_mem ho)
          simp only at h1
          omega
        · exact hp (Reach.from ⟨r, hr', hf⟩ (.next .here hc ho))
    omega
  exact {
    nodup := h.nodup
    alloc := h.alloc
    ok := h.ok
    refs := fun q hq => by rw [htot]; exact h.refs q hq
    rc := fun hg a ha c hc => by rw [htot]; exact h.rc hg a ha c hc
    own := fun a ha c hc hl => by rw [htot]; exact h.own a ha c hc hl
    outTok := h.outTok
    val := fun r hr => by
      rcases List.mem_cons.mp hr with rfl | hr
      · exact h.val ⟨p, v, t, b⟩ List.mem_cons_self
      · exact h.val r (List.mem_cons_of_mem _ hr)
    refTok := fun r hr => by
      rcases List.mem_cons.mp hr with rfl | hr
      · exact h.refTok ⟨p, v, t, b⟩ List.mem_cons_self
      · exact h.refTok r (List.mem_cons_of_mem _ hr)
    uniq := fun r hr hu => by
      rcases List.mem_cons.mp hr with rfl | hr
      · exact hone
      · rw [htot]; exact h.uniq r (List.mem_cons_of_mem _ hr) hu
    tk := h.tk }

/-- nothing else becomes reachable -/
theorem Kept.back {O' : List Nat} (h : Inv S m O' L) (hk : Kept S O L m m') (hq : Reach S m' L q) : Reach S m L q := by
  obtain ⟨r, hr, hq⟩ := hq
  induction hq with
  | here => exact ⟨r, hr, .here⟩
  | next _ hc ho ih =>
    obtain ⟨c, hc'⟩ := h.reach_cell ih
    obtain ⟨c', hc'', hs⟩ := hk.1 _ ih c hc'
    rw [hc] at hc''; cases hc''
    exact ih.from (.next .here hc' (by rw [← hs.1]; exact ho))

end Mm
