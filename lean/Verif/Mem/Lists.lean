import Verif.Mem.Shared

/-!
# Lists of objects, and what can be reached from them (helper lemmas for C22-C25, C27)
-/

namespace Mm

theorem at_perm {α : Type} : ∀ {G : List α} {i : Nat} {g : α}, G[i]? = some g → G.Perm (g :: G.eraseIdx i) ∧ ∀ y, (G.set i y).Perm (y :: G.eraseIdx i)
  | [], _, _, h => by simp at h
  | x :: G, 0, g, h => by
    simp only [List.getElem?_cons_zero, Option.some.injEq] at h
    subst h
    exact ⟨.refl _, fun y => .refl _⟩
  | x :: G, i + 1, g, h => by
    simp only [List.getElem?_cons_succ] at h
    obtain ⟨h1, h2⟩ := at_perm h
    exact ⟨(h1.cons x).trans (.swap _ _ _), fun y => ((h2 y).cons x).trans (.swap _ _ _)⟩

theorem modify_set {α : Type} {l : List α} {i : Nat} {h : α} {f : α → α} (hi : l[i]? = some h) : l.modify i f = l.set i (f h) := by
  apply List.ext_getElem?
  intro j
  rw [List.getElem?_modify, List.getElem?_set]
  by_cases hj : i = j
  · subst hj
    obtain ⟨hlt, hx⟩ := List.getElem?_eq_some_iff.mp hi
    simp [hlt, hx]
  · simp [hj]

theorem map_set {α β : Type} {f : α → β} {l : List α} {i : Nat} {x : α} : (l.map f).set i (f x) = (l.set i x).map f := List.map_set.symm

section forall₂
variable {α β : Type} {R : α → β → Prop}

theorem f2_get : ∀ {G : List α} {M : List β}, List.Forall₂ R G M → ∀ {i : Nat} {g : α}, G[i]? = some g → ∃ s, M[i]? = some s ∧ R g s
  | _, _, .nil, i, g, h => by simp at h
  | _, _, .cons h1 h2, 0, g, h => by
    simp only [List.getElem?_cons_zero, Option.some.injEq] at h
    subst h
    exact ⟨_, rfl, h1⟩
  | _, _, .cons h1 h2, i + 1, g, h => by
    simp only [List.getElem?_cons_succ] at h
    obtain ⟨s, h3, h4⟩ := f2_get h2 h
    exact ⟨s, by simpa using h3, h4⟩

theorem f2_none {G : List α} {M : List β} (h : List.Forall₂ R G M) {i : Nat} (hi : G[i]? = none) : M[i]? = none := by
  rw [List.getElem?_eq_none_iff] at hi ⊢
  rw [← h.length_eq]
  exact hi

theorem f2_set : ∀ {G : List α} {M : List β}, List.Forall₂ R G M → ∀ (i : Nat) {g : α} {s : β}, R g s → List.Forall₂ R (G.set i g) (M.set i s)
  | _, _, .nil, i, g, s, h => .nil
  | _, _, .cons h1 h2, 0, g, s, h => .cons h h2
  | _, _, .cons h1 h2, i + 1, g, s, h => .cons h1 (f2_set h2 i h)

theorem f2_erase : ∀ {G : List α} {M : List β}, List.Forall₂ R G M → ∀ (i : Nat), List.Forall₂ R (G.eraseIdx i) (M.eraseIdx i)
  | _, _, .nil, i => .nil
  | _, _, .cons h1 h2, 0 => h2
  | _, _, .cons h1 h2, i + 1 => .cons h1 (f2_erase h2 i)

theorem f2_push : ∀ {G : List α} {M : List β}, List.Forall₂ R G M → ∀ {g : α} {s : β}, R g s → List.Forall₂ R (G ++ [g]) (M ++ [s])
  | _, _, .nil, g, s, h => .cons h .nil
  | _, _, .cons h1 h2, g, s, h => .cons h1 (f2_push h2 h)

end forall₂

theorem getElem?_lt {α : Type} {l : List α} {i : Nat} {x : α} (h : l[i]? = some x) : i < l.length := (List.getElem?_eq_some_iff.mp h).1

theorem set_get {α : Type} {l : List α} {i : Nat} {x y : α} (h : l[i]? = some x) : (l.set i y)[i]? = some y := by
  rw [List.getElem?_set_self (getElem?_lt h)]

theorem set_same {α : Type} {l : List α} {i : Nat} {x : α} (h : l[i]? = some x) : l.set i x = l := by
  obtain ⟨h1, h2⟩ := List.getElem?_eq_some_iff.mp h
  subst h2
  exact List.set_getElem_self h1

theorem move_perm {α : Type} {i : Nat} {G : List α} {g : α} (hg : G[i]? = some g) (y : α) : (y :: G).Perm (g :: y :: G.eraseIdx i) ∧ ∀ g', (G.set i y ++ [g']).Perm (g' :: y :: G.eraseIdx i) := by
  obtain ⟨h1, h2⟩ := at_perm hg
  exact ⟨(h1.cons y).trans (.swap _ _ _), fun g' => (List.perm_append_singleton g' _).trans ((h2 y).cons g')⟩

theorem swap_perm {α : Type} {i j : Nat} {G : List α} {x y : α} (hij : i ≠ j) (hi : G[i]? = some x) (hj : G[j]? = some y) : G.Perm ((G.set i y).set j x) := by
  have hj' : (G.set i y)[j]? = some y := by rw [List.getElem?_set_ne hij]; exact hj
  have h1 := at_perm hi
  have h2 := at_perm hj'
  have h3 : (G.eraseIdx i).Perm ((G.set i y).eraseIdx j) := ((h1.2 y).symm.trans h2.1).cons_inv
  exact (h1.1.trans (h3.cons x)).trans (h2.2 x).symm

theorem f2_get' {α β : Type} {R : α → β → Prop} : ∀ {G : List α} {M : List β}, List.Forall₂ R G M → ∀ {i : Nat} {s : β}, M[i]? = some s → ∃ g, G[i]? = some g ∧ R g s
  | _, _, .nil, i, s, h => by cases h
  | _, _, .cons h1 h2, 0, s, h => by cases h; exact ⟨_, rfl, h1⟩
  | _, _, .cons h1 h2, i + 1, s, h => f2_get' h2 (i := i) h

/-! ### Nodes -/

section tok
variable {D S V : Type} {Y : Sys D S V} {m : Mem D S} {B O : List Nat} {g : Nat → V} {L : List (Ref V)}

/-- a node of a transient in use is reached through nodes of the same transient -/
theorem good_chain (h : Good Y m B O g L) {r p : Nat} (hr : r ∈ B) (hp : From Y m r p) : ∀ c, m p = some c → Y.live c.tok → ∃ c', m r = some c' ∧ c'.tok = c.tok := by
  have : p ∈ B ∧ ∀ c, m p = some c → Y.live c.tok → ∃ c', m r = some c' ∧ c'.tok = c.tok := by
    induction hp with
    | here => exact ⟨hr, fun c hc _ => ⟨c, hc, rfl⟩⟩
    | next h1 hc ho ih =>
      refine ⟨h.mem_of_out ih.1 hc ho, fun c' hc' hl => ?_⟩
      have := h.outTok _ ih.1 _ hc _ ho c' hc' hl
      obtain ⟨c'', h2, h3⟩ := ih.2 _ hc (by rw [← this]; exact hl)
      exact ⟨c'', h2, h3.trans this.symm⟩
  exact this.2

/-- under the collector one may look at any node of no transient -/
theorem inv_watch (hgc : Y.gc = true) (h : Inv Y m O L) (hu : ∀ r ∈ L, r.uniq = false) {p : Nat} (hp : Reach Y m L p) (hl : ∀ c, m p = some c → ¬ Y.live c.tok) :
    ∃ v, Inv Y m O (⟨p, v, 0, false⟩ :: L) := by
  obtain ⟨B, J, g, hJ, h⟩ := h
  refine ⟨g p, B, J, g, hJ, { h with refs := ?_, rc := ?_, own := ?_, val := ?_, refTok := ?_, uniq := ?_ }⟩
  · intro q hq
    rw [total_cons, h.refs q hq, if_neg]
    rintro rfl
    exact hq (h.reach hp)
  · intro hg; rw [hgc] at hg; cases hg
  · intro a ha c hc hlv
    rw [total_cons, if_neg, Nat.zero_add]
    · exact h.own a ha c hc hlv
    · rintro rfl; exact hl c hc hlv
  · intro r hr
    rcases List.mem_cons.mp hr with rfl | hr
    · rfl
    · exact h.val r hr
  · intro r hr c hc hlv
    rcases List.mem_cons.mp hr with rfl | hr
    · exact absurd hlv (hl c hc)
    · exact h.refTok r hr c hc hlv
  · intro r hr hur
    rcases List.mem_cons.mp hr with rfl | hr
    · cases hur
    · rw [hu r hr] at hur; cases hur

end tok

section reach
variable {D S V : Type} {Y : Sys D S V} {m : Mem D S} {B O : List Nat} {g : Nat → V} {L : List (Ref V)}

/-- with exact counts, everything can be reached -/
theorem good_reached (R : Ranked Y) (hgc : Y.gc = false) (h : Good Y m B O g L) : ∀ p ∈ B, Reach Y m L p := by
  obtain ⟨n, hn⟩ : ∃ n, ∀ p ∈ B, R.rank (g p) < n := by
    clear h
    induction B with
    | nil => exact ⟨0, fun p hp => by cases hp⟩
    | cons b B ih =>
      obtain ⟨n, hn⟩ := ih
      refine ⟨max n (R.rank (g b) + 1), fun p hp => ?_⟩
      rcases List.mem_cons.mp hp with rfl | hp
      · omega
      · have := hn p hp; omega
  have key : ∀ k p, p ∈ B → n ≤ R.rank (g p) + k → Reach Y m L p := by
    intro k
    induction k with
    | zero => intro p hp hk; have := hn p hp; omega
    | succ k ih =>
      intro p hp hk
      obtain ⟨c, hc⟩ := h.live hp
      have := h.rc hgc p hp c hc
      have hpos : 0 < (allRefs Y m B L).count p := by unfold total at this; omega
      have hin := List.count_pos_iff.mp hpos
      unfold allRefs at hin
      rcases List.mem_append.mp hin with hin | hin
      · obtain ⟨r, hr, rfl⟩ := List.mem_map.mp hin
        exact ⟨r, hr, .here⟩
      · obtain ⟨a, ha, ho⟩ := List.mem_flatMap.mp hin
        obtain ⟨ca, hca⟩ := h.live ha
        unfold outsAt at ho
        rw [hca] at ho
        have hlt := R.lt (h.ok a ha ca hca) (g p) (List.mem_map_of_mem ho)
        obtain ⟨r, hr, hf⟩ := ih a ha (by omega)
        exact ⟨r, hr, .next hf hca ho⟩
  intro p hp
  exact key n p hp (by omega)

end reach

end Mm
