import Verif.ChampHeap.Value

/-!
# Tries that differ in the order of collisions only

Changing an element of a collision node in place keeps its position, whereas copying the node puts it first.
-/

namespace ChampHeap
open Mm Champ

variable {w : Nat} {K T : Type} {c : Cfg K T}

/-- the same trie up to the order within collision nodes -/
def Like : Nat → Node w T → Node w T → Prop
  | 0, .collision xs, .collision ys => xs.Perm ys
  | d + 1, .inner nm dm xs Ns, .inner nm' dm' xs' Ns' => nm = nm' ∧ dm = dm' ∧ xs = xs' ∧ List.Forall₂ (Like d) Ns Ns'
  | _, _, _ => False

theorem forall₂_refl {α : Type} {R : α → α → Prop} : ∀ {l : List α}, (∀ x ∈ l, R x x) → List.Forall₂ R l l
  | [], _ => .nil
  | x :: l, h => .cons (h x List.mem_cons_self) (forall₂_refl fun y hy => h y (List.mem_cons_of_mem _ hy))

theorem Like.refl : ∀ {d : Nat} {N : Node w T}, Shape d N → Like d N N
  | 0, .collision xs, _ => List.Perm.refl xs
  | 0, .inner .., h => h.elim
  | _ + 1, .collision _, h => h.elim
  | _ + 1, .inner .., h => ⟨rfl, rfl, rfl, forall₂_refl fun N hN => Like.refl (h N hN)⟩

theorem forall₂_set {α : Type} {R : α → α → Prop} {l : List α} (h : ∀ x ∈ l, R x x) {i : Nat} {x y : α} (hxy : R x y) : List.Forall₂ R (l.set i x) (l.set i y) := by
  induction l generalizing i with
  | nil => exact .nil
  | cons z l ih =>
    cases i with
    | zero => exact .cons hxy (forall₂_refl fun a ha => h a (List.mem_cons_of_mem _ ha))
    | succ i => exact .cons (h z List.mem_cons_self) (ih fun a ha => h a (List.mem_cons_of_mem _ ha))

theorem like_set {d : Nat} {nm dm : BitVec w} {xs : List T} {Ns : List (Node w T)} (h : Shape (d + 1) (.inner nm dm xs Ns)) {i : Nat} {N N' : Node w T} (hl : Like d N N') :
    Like (d + 1) (.inner nm dm xs (Ns.set i N)) (.inner nm dm xs (Ns.set i N')) :=
  ⟨rfl, rfl, rfl, forall₂_set (fun x hx => Like.refl (h x hx)) hl⟩

theorem Like.shape : ∀ {d : Nat} {N N' : Node w T}, Like d N N' → Shape d N'
  | 0, .collision _, .collision _, _ => trivial
  | 0, .collision _, .inner .., h => h.elim
  | 0, .inner .., .collision _, h => h.elim
  | 0, .inner .., .inner .., h => h.elim
  | _ + 1, .collision _, .collision _, h => h.elim
  | _ + 1, .collision _, .inner .., h => h.elim
  | _ + 1, .inner .., .collision _, h => h.elim
  | _ + 1, .inner _ _ _ Ns, .inner _ _ _ Ns', h => by
    intro N hN
    have h4 := h.2.2.2
    clear h
    induction h4 with
    | nil => cases hN
    | cons h _ ih =>
      rcases List.mem_cons.mp hN with rfl | hN
      · exact h.shape
      · exact ih hN

theorem Like.elems : ∀ {d : Nat} {N N' : c.N}, Like d N N' → (Champ.elems c d N).Perm (Champ.elems c d N')
  | 0, .collision _, .collision _, h => h
  | 0, .collision _, .inner .., h => h.elim
  | 0, .inner .., .collision _, h => h.elim
  | 0, .inner .., .inner .., h => h.elim
  | _ + 1, .collision _, .collision _, h => h.elim
  | _ + 1, .collision _, .inner .., h => h.elim
  | _ + 1, .inner .., .collision _, h => h.elim
  | d + 1, .inner _ _ xs Ns, .inner _ _ xs' Ns', h => by
    obtain ⟨_, _, rfl, h⟩ := h
    refine List.Perm.append_left xs ?_
    induction h with
    | nil => exact .nil
    | cons h _ ih => exact h.elems.append ih

theorem forall₂_get {α : Type} {R : α → α → Prop} {l l' : List α} (h : List.Forall₂ R l l') : ∀ {i : Nat} {y : α}, l'[i]? = some y → ∃ x, l[i]? = some x ∧ R x y := by
  induction h with
  | nil => intro i y h; cases h
  | cons h _ ih =>
    intro i y hy
    cases i with
    | zero => cases hy; exact ⟨_, rfl, h⟩
    | succ i => exact ih (i := i) hy

theorem Like.wf (hc : c.Lawful) : ∀ {d shift p : Nat} {N N' : c.N}, Like d N N' → WF c d shift p N → WF c d shift p N'
  | 0, _, _, .collision xs, .collision ys, h, hw => by
    have h : xs.Perm ys := h
    refine ⟨h.length_eq ▸ hw.1, fun x hx => hw.2.1 x (h.mem_iff.mpr hx), h.pairwise hw.2.2 fun {a b} hab => ?_⟩
    rw [Bool.eq_false_iff] at hab ⊢
    exact fun hba => hab (hc.symm _ _ hba)
  | 0, _, _, .collision _, .inner .., h, _ => h.elim
  | 0, _, _, .inner .., .collision _, h, _ => h.elim
  | 0, _, _, .inner .., .inner .., h, _ => h.elim
  | _ + 1, _, _, .collision _, .collision _, h, _ => h.elim
  | _ + 1, _, _, .collision _, .inner .., h, _ => h.elim
  | _ + 1, _, _, .inner .., .collision _, h, _ => h.elim
  | d + 1, shift, p, .inner _ _ xs Ns, .inner _ _ xs' Ns', h, hw => by
    obtain ⟨rfl, rfl, rfl, h⟩ := h
    obtain ⟨h1, h2, h3, h4, h5⟩ := hw
    refine ⟨h1, h2, h.length_eq ▸ h3, h4, ?_⟩
    intro i ch hs
    unfold sget at hs
    split at hs
    · next hb =>
      obtain ⟨N, hN, hl⟩ := forall₂_get h hs
      obtain ⟨hw, hl2⟩ := h5 i N (by unfold sget; rw [if_pos hb]; exact hN)
      exact ⟨hl.wf hc hw, hl.elems.length_eq ▸ hl2⟩
    · cases hs

end ChampHeap
