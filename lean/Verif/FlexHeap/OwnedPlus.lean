import Verif.FlexHeap.OwnedSteps
import Verif.FlexHeap.GrownPlus

/-!
# Concatenations of values, and whose nodes are whose
-/

namespace FlexHeap
open Mm Rrb VecHeap
open VecHeap.Spec (SKd)

variable {T β δ : Type} {c : Cfg} {E : Env Dat T} {X : Elem T} {er et : Nat} {w w' w1 : World T} {F F' : List Nat} {G : List OK} {i j k t : Nat} {g g' : OK} {K : List SKd} {b : Bin}

/-- under the collector, all concatenations of values make a new value -/
theorem plus_eq {f : Option (Kind × Nat)} (hg : E.gc = true) (h : OwnW er et w F G) (hi : G[i]? = some g) (hk : g.2 = .value) (hj : G[j]? = some g') (hk' : g'.2 = .value) (hb : b ≠ .prependMove) :
    ccall c E X er et f (.two b i j) w = ((lift (Fc.concat c E g.1.v g'.1.v)).bind fun x => push ⟨.value, x, 0⟩) { w with st := { w.st with fault := f } } := by
  have h1 : g.1.kd = .value := by rw [h.2.kd i g hi, hk]; rfl
  have h2 : g'.1.kd = .value := by rw [h.2.kd j g' hj, hk']; rfl
  unfold ccall fstep stepBin withObj
  simp only [h.get hi, h.get hj]
  rw [if_pos, if_pos (.inr (by rw [h1, h2])), if_pos (.inr ⟨hg, h1⟩)]
  cases b <;> first | exact .inl rfl | exact .inr (by rw [h1]; rfl) | exact absurd rfl hb

theorem OwnG.value (h : OwnW er et w [] G) (hi : G[i]? = some g) (hk : g.2 = .value) : Gc.VGd (fun t => ¬ LiveT w.next [] G t) w.st.mem g.1.v :=
  vgd_mono (h.2.obj i g hi) fun t ht => ht.elim id fun h => by rw [hk] at h; cases h.1

/-- nothing that was there is changed -/
theorem own_same {s : St Dat T} (h : OwnW er et w [] G) (hH : Held w.st.mem (fun _ => False) s.mem) : OwnW er et { w with st := s } [] G :=
  ⟨h.1, h.2.keep hH (fun k g hk => vgd_mono (h.2.obj k g hk) fun _ _ h => h) (h.2.stat.1.mono fun _ _ h => h) (h.2.stat.2.mono fun _ _ h => h)⟩

theorem own_plus {f : Option (Kind × Nat)} (hg : E.gc = true) (hE : E.Fresh) (h : Own er et w K) (hi : K[i]? = some .value) (hj : K[j]? = some .value) (hb : b ≠ .prependMove) (hw : ccall c E X er et f (.two b i j) w = .ok w' ()) :
    Own er et w' (K ++ [.value]) := by
  obtain ⟨G, rfl, hG⟩ := h
  obtain ⟨g, hgi, hki⟩ := Option.map_eq_some_iff.mp ((List.getElem?_map ..).symm.trans hi)
  obtain ⟨g', hgj, hkj⟩ := Option.map_eq_some_iff.mp ((List.getElem?_map ..).symm.trans hj)
  rw [plus_eq hg hG hgi hki hgj hkj hb] at hw
  have h : OwnW er et ({ w with st := { w.st with fault := f } } : World T) [] G := hG
  revert hw h
  generalize ({ w with st := { w.st with fault := f } } : World T) = w
  intro hw h
  obtain ⟨w1, x, h1, hw⟩ := bind_ok hw
  obtain ⟨s, h2, rfl⟩ := lift_ok h1
  have h5 := Plus.fr_concat (c := c) (l := g.1.v) (r := g'.1.v) (m0 := w.st.mem) (S := fun _ => False) (s := w.st) hg hE ⟨h.2.fin, fun _ _ => rfl⟩
  have h6 := Plus.gr_concat (c := c) (s := w.st) hg hE h.2.live0 h.2.fin (OwnG.value h hgi hki) (OwnG.value h hgj hkj)
  unfold Fr at h5
  unfold Gr at h6
  rw [h2] at h5 h6
  exact ⟨_, by rw [List.map_append]; rfl, (own_push (s := .value) (own_same h h5.1) (fun _ h => h) rfl (fun h => by cases h) (vgd_mono h6.2.2 fun _ => .inl) hw).1⟩

/-- a concatenation of values that throws changes nothing that was there -/
theorem plus_threw {f : Option (Kind × Nat)} (hg : E.gc = true) (hE : E.Fresh) (h : Own er et w K) (hi : K[i]? = some .value) (hj : K[j]? = some .value) (hb : b ≠ .prependMove) (hw : ccall c E X er et f (.two b i j) w = .thrown w') :
    Own er et w' K := by
  obtain ⟨G, rfl, hG⟩ := h
  obtain ⟨g, hgi, hki⟩ := Option.map_eq_some_iff.mp ((List.getElem?_map ..).symm.trans hi)
  obtain ⟨g', hgj, hkj⟩ := Option.map_eq_some_iff.mp ((List.getElem?_map ..).symm.trans hj)
  rw [plus_eq hg hG hgi hki hgj hkj hb] at hw
  have h : OwnW er et ({ w with st := { w.st with fault := f } } : World T) [] G := hG
  revert hw h
  generalize ({ w with st := { w.st with fault := f } } : World T) = w
  intro hw h
  have h5 := Plus.fr_concat (c := c) (l := g.1.v) (r := g'.1.v) (m0 := w.st.mem) (S := fun _ => False) (s := w.st) hg hE ⟨h.2.fin, fun _ _ => rfl⟩
  unfold Fr at h5
  unfold WM.bind lift at hw
  cases h2 : Fc.concat c E g.1.v g'.1.v w.st with
  | ok s x => rw [h2] at hw; cases hw
  | ub => rw [h2] at hw; cases hw
  | thrown s =>
    rw [h2] at h5 hw
    cases hw
    exact ⟨_, rfl, own_same h h5⟩

end FlexHeap
