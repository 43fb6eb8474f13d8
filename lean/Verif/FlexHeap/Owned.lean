import Verif.FlexHeap.GrownGc
import Verif.FlexHeap.GcOthers

/-!
# Whose nodes are whose (invariant for C54)

Nodes that have the token of a transient, or one that a transient may get, are nodes of this transient only.  Nothing is said about
what is in the nodes.
-/

namespace FlexHeap
open Mm Rrb VecHeap
open VecHeap.Spec (SKd)

/-- an object and its kind -/
abbrev OK := Obj × SKd

variable {T : Type} {c : Cfg} {E : Env Dat T} {er et : Nat} {m m' : Mem Dat T} {next : Nat} {F F' : List Nat} {G : List OK} {i j k t : Nat} {g g' : OK} {S A B : Nat → Prop} {p : Nat} {v : Vc}

/-- tokens that a transient has or may get; `F` are made but not used yet -/
def LiveT (next : Nat) (F : List Nat) (G : List OK) (t : Nat) : Prop := next ≤ t ∨ t ∈ F ∨ ∃ (k : Nat) (g : OK), G[k]? = some g ∧ g.2 = .transient ∧ g.1.tok = t

/-- tokens of nodes of an object -/
def OkT (next : Nat) (F : List Nat) (G : List OK) (g : OK) (t : Nat) : Prop := ¬ LiveT next F G t ∨ (g.2 = .transient ∧ t = g.1.tok)

structure OwnG (er et : Nat) (m : Mem Dat T) (next : Nat) (F : List Nat) (G : List OK) : Prop where
  fin : Fin' m
  pos : 0 < next
  fresh : ∀ t ∈ F, 0 < t ∧ t < next ∧ ∀ (k : Nat) (g : OK), G[k]? = some g → g.2 = .transient → g.1.tok ≠ t
  kd : ∀ (k : Nat) (g : OK), G[k]? = some g → g.1.kd = g.2.kd
  inj : ∀ (k k' : Nat) (g g' : OK), G[k]? = some g → G[k']? = some g' → g.2 = .transient → g'.2 = .transient → g.1.tok = g'.1.tok → k = k'
  tok : ∀ (k : Nat) (g : OK), G[k]? = some g → g.2 = .transient → 0 < g.1.tok ∧ g.1.tok < next
  obj : ∀ (k : Nat) (g : OK), G[k]? = some g → Gc.VGd (OkT next F G g) m g.1.v
  stat : Gd (fun t => ¬ LiveT next F G t) m er ∧ Gd (fun t => ¬ LiveT next F G t) m et

theorem Gd.mono (h : Gd A m p) (hab : ∀ t, A t → B t) : Gd B m p := fun q hq => by
  obtain ⟨x, h1, h2⟩ := h q hq
  exact ⟨x, h1, hab _ h2⟩

theorem vgd_mono (h : Gc.VGd A m v) (hab : ∀ t, A t → B t) : Gc.VGd B m v := ⟨h.1.mono hab, h.2.mono hab⟩

/-- trees of other nodes stay as they are -/
theorem Gd.held (h : Gd A m p) (hH : Held m S m') (hA : ∀ t, A t → ¬ S t) : Gd A m' p := by
  have key : ∀ q, VecHeap.Below m' p q → VecHeap.Below m p q := by
    intro q hq
    induction hq with
    | here => exact .here
    | next _ h1 h2 ih =>
      obtain ⟨x, hx, hx2⟩ := h _ ih
      rw [hH.2 _ ⟨x, hx, hA _ hx2⟩] at h1
      exact .next ih h1 h2
  intro q hq
  obtain ⟨x, hx, hx2⟩ := h q (key q hq)
  exact ⟨x, by rw [hH.2 _ ⟨x, hx, hA _ hx2⟩]; exact hx, hx2⟩

theorem Gd.held2 (h1 : Gd A m p) (h2 : Gd (fun t => ¬ S t) m p) (hH : Held m S m') : Gd A m' p := by
  have : Gd (fun t => A t ∧ ¬ S t) m p := fun q hq => by
    obtain ⟨x, h3, h4⟩ := h1 q hq
    obtain ⟨y, h5, h6⟩ := h2 q hq
    rw [h3] at h5; cases h5
    exact ⟨x, h3, h4, h6⟩
  exact (this.held hH fun t ht => ht.2).mono fun t ht => ht.1

namespace OwnG

theorem live0 (h : OwnG er et m next F G) : ¬ LiveT next F G 0 := by
  rintro (h1 | h1 | ⟨k, g, h1, h2, h3⟩)
  · have := h.pos; omega
  · have := h.fresh 0 h1; omega
  · have := h.tok k g h1 h2; omega

/-- nodes of other objects do not have the token of a transient -/
theorem other (h : OwnG er et m next F G) (hi : G[i]? = some g) (hg : g.2 = .transient) (hk : G[k]? = some g') (hne : k ≠ i) : OkT next F G g' t → t ≠ g.1.tok := by
  rintro (h1 | ⟨h1, h2⟩) h3
  · exact h1 (.inr (.inr ⟨i, g, hi, hg, h3.symm⟩))
  · exact hne (h.inj _ _ _ _ hk hi h1 hg (h2.symm.trans h3))

/-- memory changes, but not the nodes of objects -/
theorem keep (h : OwnG er et m next F G) (hH : Held m S m') (hS : ∀ (k : Nat) (g : OK), G[k]? = some g → Gc.VGd (fun t => ¬ S t) m g.1.v)
    (hr : Gd (fun t => ¬ S t) m er) (ht : Gd (fun t => ¬ S t) m et) : OwnG er et m' next F G where
  fin := hH.1
  pos := h.pos
  fresh := h.fresh
  kd := h.kd
  inj := h.inj
  tok := h.tok
  obj k g hk := by
    exact ⟨(h.obj k g hk).1.held2 (hS k g hk).1 hH, (h.obj k g hk).2.held2 (hS k g hk).2 hH⟩
  stat := ⟨h.stat.1.held2 hr hH, h.stat.2.held2 ht hH⟩

theorem weak (h : OwnG er et m next F G) (hF : ∀ t ∈ F', t ∈ F) : OwnG er et m next F' G := by
  have hL : ∀ t, LiveT next F' G t → LiveT next F G t := fun t ht => ht.imp_right (Or.imp_left (hF t))
  exact ⟨h.fin, h.pos, fun t ht => h.fresh t (hF t ht), h.kd, h.inj, h.tok, fun k g hk => vgd_mono (h.obj k g hk) fun t ht => ht.imp_left (mt (hL t)), h.stat.1.mono fun t => mt (hL t), h.stat.2.mono fun t => mt (hL t)⟩

/-- a new token -/
theorem bump (h : OwnG er et m next F G) : OwnG er et m (next + 1) (next :: F) G := by
  have hL : ∀ t, LiveT (next + 1) (next :: F) G t → LiveT next F G t := by
    rintro t (h1 | h1 | h1)
    · exact .inl (by omega)
    · rcases List.mem_cons.mp h1 with rfl | h1
      · exact .inl (Nat.le_refl _)
      · exact .inr (.inl h1)
    · exact .inr (.inr h1)
  refine ⟨h.fin, by omega, fun t ht => ?_, h.kd, h.inj, fun k g hk hg => ?_, fun k g hk => vgd_mono (h.obj k g hk) fun t ht => ht.imp_left (mt (hL t)), h.stat.1.mono fun t => mt (hL t), h.stat.2.mono fun t => mt (hL t)⟩
  · rcases List.mem_cons.mp ht with rfl | ht
    · exact ⟨h.pos, by omega, fun k g hk hg => by have := h.tok k g hk hg; omega⟩
    · have := h.fresh t ht
      exact ⟨this.1, by omega, this.2.2⟩
  · have := h.tok k g hk hg; omega

theorem get_set {g' x : OK} (hx : (G.set i g')[k]? = some x) : (k = i ∧ x = g') ∨ (k ≠ i ∧ G[k]? = some x) := by
  rw [List.getElem?_set] at hx
  split at hx
  · split at hx
    · cases hx; exact .inl ⟨by omega, rfl⟩
    · cases hx
  · exact .inr ⟨by omega, hx⟩

theorem get_push {g' x : OK} (hx : (G ++ [g'])[k]? = some x) : (k = G.length ∧ x = g') ∨ (k < G.length ∧ G[k]? = some x) := by
  by_cases hl : k < G.length
  · rw [List.getElem?_append_left hl] at hx; exact .inr ⟨hl, hx⟩
  · rw [List.getElem?_append_right (by omega)] at hx
    obtain ⟨h1, h2⟩ := List.getElem?_eq_some_iff.mp hx
    simp at h1 h2
    exact .inl ⟨by omega, h2.symm⟩

theorem live_set (hi : G[i]? = some g) (hF : ∀ t ∈ F', t ∈ F ∨ (g.2 = .transient ∧ t = g.1.tok)) (ht : g'.2 = .transient → (g.2 = .transient ∧ g'.1.tok = g.1.tok) ∨ g'.1.tok ∈ F) :
    ∀ t, LiveT next F' (G.set i g') t → LiveT next F G t := by
  rintro t (h1 | h1 | ⟨k, x, h1, h2, rfl⟩)
  · exact .inl h1
  · rcases hF t h1 with h1 | ⟨h2, rfl⟩
    · exact .inr (.inl h1)
    · exact .inr (.inr ⟨i, g, hi, h2, rfl⟩)
  · rcases get_set h1 with ⟨rfl, rfl⟩ | ⟨h3, h3'⟩
    · rcases ht h2 with ⟨h4, h5⟩ | h4
      · exact .inr (.inr ⟨_, g, hi, h4, h5.symm⟩)
      · exact .inr (.inl h4)
    · exact .inr (.inr ⟨k, x, h3', h2, rfl⟩)

theorem live_push (hF : ∀ t ∈ F', t ∈ F) (ht : g'.2 = .transient → g'.1.tok ∈ F) : ∀ t, LiveT next F' (G ++ [g']) t → LiveT next F G t := by
  rintro t (h1 | h1 | ⟨k, x, h1, h2, rfl⟩)
  · exact .inl h1
  · exact .inr (.inl (hF t h1))
  · rcases get_push h1 with ⟨rfl, rfl⟩ | ⟨h3, h3'⟩
    · exact .inr (.inl (ht h2))
    · exact .inr (.inr ⟨k, x, h3', h2, rfl⟩)

/-- one object becomes another -/
theorem set (h : OwnG er et m next F G) (hi : G[i]? = some g) (hF : ∀ t ∈ F', t ∈ F ∨ (g.2 = .transient ∧ t = g.1.tok)) (hk : g'.1.kd = g'.2.kd)
    (ht : g'.2 = .transient → ((g.2 = .transient ∧ g'.1.tok = g.1.tok) ∨ g'.1.tok ∈ F) ∧ g'.1.tok ∉ F') (hv : Gc.VGd (OkT next F' (G.set i g') g') m g'.1.v) :
    OwnG er et m next F' (G.set i g') := by
  have hset : ∀ {k x}, (G.set i g')[k]? = some x → (k = i ∧ x = g') ∨ (k ≠ i ∧ G[k]? = some x) := get_set
  have hL := live_set (next := next) hi hF fun h => (ht h).1
  have ne : ∀ k x, k ≠ i → G[k]? = some x → x.2 = .transient → g'.2 = .transient → g'.1.tok ≠ x.1.tok := by
    intro k x hki hx hx2 hg heq
    rcases (ht hg).1 with ⟨h4, h5⟩ | h4
    · exact hki (h.inj _ _ _ _ hx hi hx2 h4 (heq ▸ h5))
    · exact (h.fresh _ h4).2.2 k x hx hx2 heq.symm
  refine ⟨h.fin, h.pos, fun t htF => ?_, fun k x hx => ?_, fun k k' x y hx hy hx2 hy2 heq => ?_, fun k x hx hx2 => ?_, fun k x hx => ?_, h.stat.1.mono fun t => mt (hL t), h.stat.2.mono fun t => mt (hL t)⟩
  · rcases hF t htF with h1 | ⟨h1, rfl⟩
    · have := h.fresh t h1
      refine ⟨this.1, this.2.1, fun k x hx hx2 => ?_⟩
      rcases hset hx with ⟨rfl, rfl⟩ | ⟨h3, h3'⟩
      · rintro rfl; exact (ht hx2).2 htF
      · exact this.2.2 k x h3' hx2
    · have := h.tok i g hi h1
      refine ⟨this.1, this.2, fun k x hx hx2 heq => ?_⟩
      rcases hset hx with ⟨rfl, rfl⟩ | ⟨h3, h3'⟩
      · exact (ht hx2).2 (heq ▸ htF)
      · exact h3 (h.inj _ _ _ _ h3' hi hx2 h1 heq)
  · rcases hset hx with ⟨rfl, rfl⟩ | ⟨h3, h3'⟩
    · exact hk
    · exact h.kd k x h3'
  · rcases hset hx with ⟨rfl, rfl⟩ | ⟨h3, h3'⟩ <;> rcases hset hy with ⟨rfl, rfl⟩ | ⟨h4, h4'⟩
    · rfl
    · exact absurd heq (ne _ _ h4 h4' hy2 hx2)
    · exact absurd heq.symm (ne _ _ h3 h3' hx2 hy2)
    · exact h.inj _ _ _ _ h3' h4' hx2 hy2 heq
  · rcases hset hx with ⟨rfl, rfl⟩ | ⟨h3, h3'⟩
    · rcases (ht hx2).1 with ⟨h4, h5⟩ | h4
      · rw [h5]; exact h.tok _ _ hi h4
      · exact ⟨(h.fresh _ h4).1, (h.fresh _ h4).2.1⟩
    · exact h.tok k x h3' hx2
  · rcases hset hx with ⟨rfl, rfl⟩ | ⟨h3, h3'⟩
    · exact hv
    · exact vgd_mono (h.obj k x h3') fun t ht => ht.imp_left (mt (hL t))

/-- a new object -/
theorem push (h : OwnG er et m next F G) (hF : ∀ t ∈ F', t ∈ F) (hk : g'.1.kd = g'.2.kd) (ht : g'.2 = .transient → g'.1.tok ∈ F ∧ g'.1.tok ∉ F') (hv : Gc.VGd (OkT next F' (G ++ [g']) g') m g'.1.v) :
    OwnG er et m next F' (G ++ [g']) := by
  have hset : ∀ {k x}, (G ++ [g'])[k]? = some x → (k = G.length ∧ x = g') ∨ (k < G.length ∧ G[k]? = some x) := get_push
  have hL := live_push (next := next) (G := G) hF fun h => (ht h).1
  refine ⟨h.fin, h.pos, fun t htF => ?_, fun k x hx => ?_, fun k k' x y hx hy hx2 hy2 heq => ?_, fun k x hx hx2 => ?_, fun k x hx => ?_, h.stat.1.mono fun t => mt (hL t), h.stat.2.mono fun t => mt (hL t)⟩
  · have := h.fresh t (hF t htF)
    refine ⟨this.1, this.2.1, fun k x hx hx2 => ?_⟩
    rcases hset hx with ⟨rfl, rfl⟩ | ⟨h3, h3'⟩
    · rintro rfl; exact (ht hx2).2 htF
    · exact this.2.2 k x h3' hx2
  · rcases hset hx with ⟨rfl, rfl⟩ | ⟨h3, h3'⟩
    · exact hk
    · exact h.kd k x h3'
  · rcases hset hx with ⟨rfl, rfl⟩ | ⟨h3, h3'⟩ <;> rcases hset hy with ⟨rfl, rfl⟩ | ⟨h4, h4'⟩
    · rfl
    · exact absurd heq.symm ((h.fresh _ (ht hx2).1).2.2 _ _ h4' hy2)
    · exact absurd heq ((h.fresh _ (ht hy2).1).2.2 _ _ h3' hx2)
    · exact h.inj _ _ _ _ h3' h4' hx2 hy2 heq
  · rcases hset hx with ⟨rfl, rfl⟩ | ⟨h3, h3'⟩
    · exact ⟨(h.fresh _ (ht hx2).1).1, (h.fresh _ (ht hx2).1).2.1⟩
    · exact h.tok k x h3' hx2
  · rcases hset hx with ⟨rfl, rfl⟩ | ⟨h3, h3'⟩
    · exact hv
    · exact vgd_mono (h.obj k x h3') fun t ht => ht.imp_left (mt (hL t))

/-- an object goes -/
theorem erase (h : OwnG er et m next F G) (i : Nat) : OwnG er et m next F (G.eraseIdx i) := by
  have hset : ∀ {k x}, (G.eraseIdx i)[k]? = some x → G[if k < i then k else k + 1]? = some x := by
    intro k x hx
    rw [List.getElem?_eraseIdx] at hx
    split at hx
    · rw [if_pos ‹_›]; exact hx
    · rw [if_neg ‹_›]; exact hx
  have hL : ∀ t, LiveT next F (G.eraseIdx i) t → LiveT next F G t := fun t => Or.imp_right (Or.imp_right fun ⟨k, x, h1, h2⟩ => ⟨_, x, hset h1, h2⟩)
  refine ⟨h.fin, h.pos, fun t ht => ?_, fun k x hx => h.kd _ x (hset hx), fun k k' x y hx hy hx2 hy2 heq => ?_, fun k x hx => h.tok _ x (hset hx), fun k x hx => vgd_mono (h.obj _ x (hset hx)) fun t ht => ht.imp_left (mt (hL t)),
    h.stat.1.mono fun t => mt (hL t), h.stat.2.mono fun t => mt (hL t)⟩
  · have := h.fresh t ht
    exact ⟨this.1, this.2.1, fun k x hx => this.2.2 _ x (hset hx)⟩
  · have := h.inj _ _ _ _ (hset hx) (hset hy) hx2 hy2 heq
    split at this <;> split at this <;> omega

/-- the token of an object that gets another is no transient's -/
theorem dead (h : OwnG er et m next F G) (hi : G[i]? = some g) (hg : g.2 = .transient) (hF : ∀ t ∈ F', t ∈ F) (hn : g'.2 = .transient → g'.1.tok ≠ g.1.tok) : ¬ LiveT next F' (G.set i g') g.1.tok := by
  have := h.tok i g hi hg
  rintro (h1 | h1 | ⟨k, x, h1, h2, h3⟩)
  · omega
  · exact (h.fresh _ (hF _ h1)).2.2 i g hi hg rfl
  · rcases get_set h1 with ⟨rfl, rfl⟩ | ⟨h4, h4'⟩
    · exact hn h2 h3
    · exact h4 (h.inj _ _ _ _ h4' hi h2 hg h3)

/-- nodes of an object that gets another token, or is moved from, are nobody's -/
theorem loose (h : OwnG er et m next F G) (hi : G[i]? = some g) (hF : ∀ t ∈ F', t ∈ F) (hn : g'.2 = .transient → g'.1.tok ≠ g.1.tok) (ht : g'.2 = .transient → g'.1.tok ∈ F) :
    Gc.VGd (fun t => ¬ LiveT next F' (G.set i g') t) m g.1.v :=
  vgd_mono (h.obj i g hi) fun t => by
    rintro (h1 | ⟨h1, rfl⟩)
    · exact mt (live_set hi (fun t ht => .inl (hF t ht)) (fun h => .inr (ht h)) t) h1
    · exact h.dead hi h1 hF hn

/-- an object gets a new token -/
theorem retoken (h : OwnG er et m next F G) (hi : G[i]? = some g) (ht : t ∈ F) (hF : ∀ x ∈ F', x ∈ F ∧ x ≠ t) :
    OwnG er et m next F' (G.set i ({ g.1 with tok := t }, g.2)) ∧ Gc.VGd (fun x => ¬ LiveT next F' (G.set i ({ g.1 with tok := t }, g.2)) x) m g.1.v := by
  have hl := h.loose (g' := ({ g.1 with tok := t }, g.2)) (F' := F') hi (fun x hx => (hF x hx).1) (fun hg => ((h.fresh t ht).2.2 i g hi hg).symm) fun _ => ht
  exact ⟨h.set hi (fun x hx => .inl (hF x hx).1) (h.kd i g hi) (fun _ => ⟨.inr ht, fun h => (hF _ h).2 rfl⟩) (vgd_mono hl fun _ => .inl), hl⟩

/-- an operation in place -/
theorem inPlace (h : OwnG er et m next F G) (hi : G[i]? = some g) (hH : Held m S m') (hS : ∀ (k : Nat) (g : OK), k ≠ i → G[k]? = some g → Gc.VGd (fun t => ¬ S t) m g.1.v) (hr : Gd (fun t => ¬ S t) m er) (ht : Gd (fun t => ¬ S t) m et)
    (hv : Gc.VGd (OkT next F G g) m' v) : OwnG er et m' next F (G.set i ({ g.1 with v := v }, g.2)) := by
  have same : ∀ u t, LiveT next F (G.set i ({ g.1 with v := u }, g.2)) t → LiveT next F G t := fun u => live_set hi (fun t ht => .inl ht) fun hg => .inl ⟨hg, rfl⟩
  have hnF : g.2 = .transient → g.1.tok ∉ F := fun hg hF => (h.fresh _ hF).2.2 i g hi hg rfl
  have h1 : OwnG er et m next F (G.set i ({ g.1 with v := ⟨0, 0, er, et⟩ }, g.2)) := h.set hi (fun t ht => .inl ht) (h.kd i g hi) (fun hg => ⟨.inl ⟨hg, rfl⟩, hnF hg⟩)
    ⟨h.stat.1.mono fun t ht => .inl (mt (same _ t) ht), h.stat.2.mono fun t ht => .inl (mt (same _ t) ht)⟩
  have h2 : OwnG er et m' next F (G.set i ({ g.1 with v := ⟨0, 0, er, et⟩ }, g.2)) := h1.keep hH (fun k x hx => by
    rcases get_set hx with ⟨rfl, rfl⟩ | ⟨h3, h4⟩
    · exact ⟨hr, ht⟩
    · exact hS k x h3 h4) hr ht
  have hlen : i < G.length := (List.getElem?_eq_some_iff.mp hi).1
  have h3 := h2.set (i := i) (g := ({ g.1 with v := ⟨0, 0, er, et⟩ }, g.2)) (F' := F) (g' := ({ g.1 with v := v }, g.2)) (by rw [List.getElem?_set_self hlen]) (fun t ht => .inl ht) (h.kd i g hi) (fun hg => ⟨.inl ⟨hg, rfl⟩, hnF hg⟩)
    (by rw [List.set_set]; exact vgd_mono hv fun t => Or.imp_left (mt (same _ t)))
  rwa [List.set_set] at h3

end OwnG

/-- what a program without `append` and `prepend` of transients leaves -/
theorem OwnG.of_sound {G : List (Gh T)} {M : List (VecHeap.Spec.SObj T)} (hg : E.gc = true) (hs : Sound c E (Flex.Inv c) er et m next G) (hl : List.Forall₂ (Local E.gc) G M) :
    OwnG er et m next [] (List.zipWith (fun (g : Gh T) (s : VecHeap.Spec.SObj T) => (g.obj, s.kd)) G M) := by
  have hz : ∀ {k : Nat} {x : OK}, (List.zipWith (fun (g : Gh T) (s : VecHeap.Spec.SObj T) => (g.obj, s.kd)) G M)[k]? = some x → ∃ g s, G[k]? = some g ∧ M[k]? = some s ∧ Local E.gc g s ∧ x = (g.obj, s.kd) := by
    intro k x hx
    rw [List.getElem?_zipWith] at hx
    cases h1 : G[k]? with
    | none => rw [h1] at hx; cases hx
    | some g =>
      cases h2 : M[k]? with
      | none => rw [h1, h2] at hx; cases hx
      | some s =>
        rw [h1, h2] at hx
        cases hx
        obtain ⟨h1', e1⟩ := List.getElem?_eq_some_iff.mp h1
        obtain ⟨h2', e2⟩ := List.getElem?_eq_some_iff.mp h2
        refine ⟨g, s, rfl, rfl, ?_, rfl⟩
        rw [← e1, ← e2]
        exact (List.forall₂_iff_get.mp hl).2 k h1' h2'
  have act : ∀ {g : Gh T} {s : VecHeap.Spec.SObj T}, Local E.gc g s → (g.act = true ↔ s.kd = .transient) := fun {g s} h => by
    rw [h.2.1, hg]; simp
  have live : ∀ {t}, LiveT next [] (List.zipWith (fun (g : Gh T) (s : VecHeap.Spec.SObj T) => (g.obj, s.kd)) G M) t → next ≤ t ∨ t ∈ acts G := by
    rintro t (h | h | ⟨k, x, h1, h2, rfl⟩)
    · exact .inl h
    · cases h
    · obtain ⟨g, s, h3, _, h5, rfl⟩ := hz h1
      exact .inr (List.mem_map.mpr ⟨g, List.mem_filter.mpr ⟨List.mem_of_getElem? h3, (act h5).mpr h2⟩, rfl⟩)
  have mem : ∀ {n : Nat} {g : Gh T}, G[n]? = some g → g.act = true → g.obj.tok ∈ acts G := fun h ha => List.mem_map.mpr ⟨_, List.mem_filter.mpr ⟨List.mem_of_getElem? h, ha⟩, rfl⟩
  obtain ⟨A, J, gv, _, h⟩ := id hs.inv
  have key : ∀ x ∈ sRefs T er et ++ G.flatMap Gh.refs, ∀ p, VecHeap.Below m x.ptr p → ∃ y, m p = some y ∧ ((toks E.gc next (acts G)).live y.tok → y.tok = x.tok) := by
    intro x hx p hp
    have hre : ∀ q, VecHeap.Below m x.ptr q → ∃ y, m q = some y ∧ q ∈ A := fun q hq => by
      have := h.reach (⟨x, hx, below_from.mp hq⟩ : Reach _ m _ q)
      obtain ⟨y, hy⟩ := h.live this
      exact ⟨y, hy, this⟩
    induction hp with
    | here =>
      obtain ⟨y, hy, _⟩ := hre _ .here
      exact ⟨y, hy, fun hl => h.refTok x hx y hy hl⟩
    | next hb hc ho ih =>
      obtain ⟨y, hy, _⟩ := hre _ (.next hb hc ho)
      obtain ⟨z, hz, hz2⟩ := ih
      rw [hc] at hz
      cases hz
      refine ⟨y, hy, fun hl => ?_⟩
      obtain ⟨_, _, ha⟩ := hre _ hb
      have := h.outTok _ ha _ hc _ ho _ hy hl
      rw [this] at hl ⊢
      exact hz2 hl
  have pos : ∀ {t}, next ≤ t ∨ t ∈ acts G → (toks E.gc next (acts G)).live t ∧ 0 < t := by
    rintro t (h | h)
    · have := hs.pos; exact ⟨⟨hg, by omega, .inr h⟩, by omega⟩
    · exact ⟨⟨hg, (hs.lt t h).1, .inl h⟩, (hs.lt t h).1⟩
  have stat : ∀ x ∈ sRefs T er et, x.tok = 0 → Gd (fun t => ¬ LiveT next [] (List.zipWith (fun (g : Gh T) (s : VecHeap.Spec.SObj T) => (g.obj, s.kd)) G M) t) m x.ptr := by
    intro x hx h0 p hp
    obtain ⟨y, hy, hy2⟩ := key x (List.mem_append_left _ hx) p hp
    refine ⟨y, hy, fun hl => ?_⟩
    have := pos (live hl)
    have h2 := hy2 this.1
    omega
  refine ⟨⟨_, fun p hp => (h.alloc p).mp hp⟩, hs.pos, fun t ht => (by cases ht), fun k x hx => ?_, fun k k' x y hx hy hx2 hy2 heq => ?_, fun k x hx hx2 => ?_, fun k x hx => ?_,
    stat ⟨er, .node emptyRoot, 0, false⟩ (by simp [sRefs]) rfl, stat ⟨et, .node emptyTail, 0, false⟩ (by simp [sRefs]) rfl⟩
  · obtain ⟨g, s, h3, _, h5, rfl⟩ := hz hx
    exact h5.1
  · obtain ⟨g, s, h3, _, h5, rfl⟩ := hz hx
    obtain ⟨g', s', h3', _, h5', rfl⟩ := hz hy
    exact acts_inj hs.nodup h3 h3' ((act h5).mpr hx2) ((act h5').mpr hy2) heq
  · obtain ⟨g, s, h3, _, h5, rfl⟩ := hz hx
    exact hs.lt _ (mem h3 ((act h5).mpr hx2))
  · obtain ⟨g, s, h3, _, h5, rfl⟩ := hz hx
    have one : ∀ r, r = g.obj.v.root ∨ r = g.obj.v.tail → Gd (OkT next [] (List.zipWith (fun (g : Gh T) (s : VecHeap.Spec.SObj T) => (g.obj, s.kd)) G M) (g.obj, s.kd)) m r := by
      intro r hr p hp
      obtain ⟨x, hx, hxp, hxt⟩ : ∃ x ∈ sRefs T er et ++ G.flatMap Gh.refs, x.ptr = r ∧ x.tok = g.t := by
        rcases hr with rfl | rfl
        · exact ⟨_, List.mem_append_right _ (List.mem_flatMap.mpr ⟨g, List.mem_of_getElem? h3, by unfold Gh.refs refs; exact List.mem_cons_self ..⟩), rfl, rfl⟩
        · exact ⟨_, List.mem_append_right _ (List.mem_flatMap.mpr ⟨g, List.mem_of_getElem? h3, by unfold Gh.refs refs; exact List.mem_cons_of_mem _ (List.mem_cons_self ..)⟩), rfl, rfl⟩
      obtain ⟨y, hy, hy2⟩ := key x hx p (by rw [hxp]; exact hp)
      refine ⟨y, hy, ?_⟩
      by_cases hl : LiveT next [] (List.zipWith (fun (g : Gh T) (s : VecHeap.Spec.SObj T) => (g.obj, s.kd)) G M) y.tok
      · have := pos (live hl)
        have h2 := hy2 this.1
        have h4 := hs.tok g (List.mem_of_getElem? h3) (by omega)
        exact .inr ⟨(act h5).mp h4.1, by rw [h2, hxt]; exact h4.2⟩
      · exact .inl hl
    exact ⟨one _ (.inl rfl), one _ (.inr rfl)⟩

end FlexHeap
